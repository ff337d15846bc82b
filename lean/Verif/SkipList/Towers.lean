import Verif.SkipList.Props
import Mathlib.Tactic.Ring

/-! What a lookup in the skip list answers, exactly: the list as a row of towers.

An entry together with the number of its levels is a *tower*.  A lookup rides along the towers, one level at a time from the
highest; this file says where it arrives, for every comparator and every sequence of insertions, whatever the random levels. -/

namespace Gds.SkipList

variable {K V : Type}

/-! ### Specification: rows of towers -/

/-- An entry and the number of levels of its node. -/
structure Tower (K V : Type) where
  key : K
  val : V
  height : Nat

/-- A point in a row: the tower (or the header) one stands on, and the towers behind it. -/
structure Spot (K V : Type) where
  key : K
  val : V
  rest : List (Tower K V)

/-- Riding on level `i` (only towers higher than `i` are seen) from `c`, as long as the next tower's key passes `go`;
    the list is what is still ahead. -/
def ride (go : K → Bool) (i : Nat) (c : Spot K V) : List (Tower K V) → Spot K V
  | [] => c
  | t :: ts =>
    if t.height ≤ i then ride go i c ts
    else if go t.key then ride go i ⟨t.key, t.val, ts⟩ ts
    else c

/-- Looking a key up: ride on levels `i - 1, …, 0` over keys that do not compare greater; the first tower with an equal key on
    which a ride ends is the answer. -/
def seek (comp : Compare K) (k : K) : Nat → Spot K V → Option (Spot K V)
  | 0, _ => none
  | i + 1, c =>
    let c' := ride (fun x => comp x k != 1) i c c.rest
    if comp c'.key k = 0 then some c' else seek comp k i c'

/-- Riding on levels `i - 1, …, 0`, one after the other, over keys that pass `go`. -/
def glide (go : K → Bool) : Nat → Spot K V → Spot K V
  | 0, c => c
  | i + 1, c => glide go i (ride go i c c.rest)

/-- Where an insertion of `k` puts its tower: after riding over towers with an equal key on all levels. -/
def place (comp : Compare K) (k : K) (i : Nat) (c : Spot K V) : Spot K V := glide (fun x => comp x k == 0) i c

/-- The number of levels in use: that of the highest tower, at least one. -/
def top : List (Tower K V) → Nat
  | [] => 1
  | t :: ts => max t.height (top ts)

/-- The header's spot. -/
def start (zk : K) (zv : V) (T : List (Tower K V)) : Spot K V := ⟨zk, zv, T⟩

/-- The levels of a node, from the random number drawn for it. -/
def heightOf (draw : UInt64) : Nat := 32 - (draw.toNat % 4294967295 + 1).log2

/-- One insertion into a row of towers. -/
def insertTower (comp : Compare K) (zk : K) (zv : V) (T : List (Tower K V)) (k : K) (v : V) (draw : UInt64) : List (Tower K V) :=
  let r := (place comp k (top T) (start zk zv T)).rest
  T.take (T.length - r.length) ++ ⟨k, v, heightOf draw⟩ :: r

/-- The row of towers after a sequence of insertions. -/
def rowOf (comp : Compare K) (zk : K) (zv : V) (T : List (Tower K V)) : List (K × V × UInt64) → List (Tower K V)
  | [] => T
  | (k, v, d) :: es => rowOf comp zk zv (insertTower comp zk zv T k v d) es

/-! ### randomLevel -/

theorem randomLoop_exact (k : UInt64) (n : Nat) (hn : n ≤ 31) (total levelN : UInt64)
    (ht : total.toNat = 2 ^ n - 1) (hl : levelN.toNat = 2 ^ n) (level : Nat) (hlv : level = 32 - n)
    (hk : k.toNat + 1 < 2 ^ (n + 1)) :
    randomLoop k total levelN level = .ok (32 - (k.toNat + 1).log2) := by
  induction n generalizing total levelN level with
  | zero =>
    rw [randomLoop]
    have : ¬ total > k := by
      rw [gt_iff_lt, UInt64.lt_iff_toNat_lt, ht]; simp
    have h0 : k.toNat = 0 := by omega
    simp only [this, h0, hlv, if_false, Res.pure_eq]
    rw [show (0 + 1 : Nat).log2 = 0 by decide]
  | succ n ih =>
    rw [randomLoop]
    by_cases h : total > k
    · rw [if_pos h]
      have h1 : (levelN >>> 1).toNat = 2 ^ n := by
        rw [UInt64.toNat_shiftRight, hl]
        simp [Nat.shiftRight_eq_div_pow, Nat.pow_succ]
      have h2 : (total - levelN >>> 1).toNat = 2 ^ n - 1 := by
        rw [UInt64.toNat_sub_of_le]
        · rw [h1, ht, Nat.pow_succ]; omega
        · rw [UInt64.le_iff_toNat_le, h1, ht, Nat.pow_succ]
          have := Nat.one_le_two_pow (n := n); omega
      rw [gt_iff_lt, UInt64.lt_iff_toNat_lt, ht] at h
      exact ih (by omega) _ _ h2 h1 (level + 1) (by omega) (by omega)
    · rw [if_neg h]
      rw [gt_iff_lt, UInt64.lt_iff_toNat_lt, ht] at h
      have h2 : (k.toNat + 1).log2 = n + 1 := by
        rw [Nat.log2_eq_iff (by omega)]
        omega
      rw [h2, hlv]
      rfl

/-- The level drawn, exactly. -/
theorem randomLevel_exact (draw : UInt64) : randomLevel draw = .ok (heightOf draw) := by
  unfold randomLevel heightOf
  have hm : (draw % 4294967295).toNat = draw.toNat % 4294967295 := by rw [UInt64.toNat_mod]; rfl
  rw [← hm]
  refine randomLoop_exact _ 31 (by omega) _ _ (by decide) (by decide) 1 (by omega) ?_
  rw [hm]
  have := Nat.mod_lt draw.toNat (show 4294967295 > 0 by omega)
  omega

theorem heightOf_range (draw : UInt64) : 1 ≤ heightOf draw ∧ heightOf draw ≤ 32 := by
  obtain ⟨r, e, h⟩ := randomLevel_range draw
  rw [randomLevel_exact] at e
  cases e
  exact h

/-- Every level from 1 to 32 can be drawn. -/
theorem heightOf_onto (h : Nat) (h1 : 1 ≤ h) (h2 : h ≤ 32) : ∃ d, heightOf d = h := by
  have hp : 2 ^ (32 - h) ≤ 2 ^ 31 := Nat.pow_le_pow_right (by omega) (by omega)
  have hp' : 1 ≤ 2 ^ (32 - h) := Nat.one_le_two_pow
  refine ⟨UInt64.ofNat (2 ^ (32 - h) - 1), ?_⟩
  unfold heightOf
  rw [UInt64.toNat_ofNat', Nat.mod_eq_of_lt (by omega), Nat.mod_eq_of_lt (by omega), Nat.sub_add_cancel hp', Nat.log2_two_pow]
  omega

/-! ### The list as a row of towers -/

/-- The towers of a list. -/
def towers (s : St K V) (n : Nat) (P : Nat → Nat) : List (Tower K V) :=
  (List.range n).map (fun j => ⟨s.key (P (j + 1)), s.val (P (j + 1)), s.height (P (j + 1))⟩)

/-- The list is the row `T`. -/
def Built (zk : K) (zv : V) (s : St K V) (T : List (Tower K V)) : Prop :=
  ∃ n P, Rep s n P ∧ towers s n P = T ∧ s.key s.header = zk ∧ s.val s.header = zv ∧ s.level = top T

/-- The entries of a row. -/
def plain (T : List (Tower K V)) : List (K × V) := T.map (fun t => (t.key, t.val))

section
variable {s : St K V} {n : Nat} {P : Nat → Nat}

theorem towers_length : (towers s n P).length = n := by simp [towers]

theorem towers_plain : plain (towers s n P) = entries s n P := by
  simp [plain, towers, entries]

theorem towers_drop (p : Nat) (h : p + 1 ≤ n) :
    (towers s n P).drop p = ⟨s.key (P (p + 1)), s.val (P (p + 1)), s.height (P (p + 1))⟩ :: (towers s n P).drop (p + 1) := by
  rw [List.drop_eq_getElem_cons (by rw [towers_length]; omega)]
  simp [towers]

theorem towers_drop_all (p : Nat) (h : n ≤ p) : (towers s n P).drop p = [] := by
  rw [List.drop_eq_nil_iff, towers_length]; omega

/-- The spot at position `p`. -/
def spot (s : St K V) (n : Nat) (P : Nat → Nat) (p : Nat) : Spot K V := ⟨s.key (P p), s.val (P p), (towers s n P).drop p⟩

theorem ride_next (go : K → Bool) (i p q : Nat) (hq : NextAt (fun r => s.height (P r)) n i p q) (c : Spot K V) :
    ride go i c ((towers s n P).drop p) =
      if q ≤ n then (if go (s.key (P q)) then ride go i (spot s n P q) ((towers s n P).drop q) else c) else c := by
  obtain ⟨d, hd⟩ : ∃ d, d = q - p := ⟨_, rfl⟩
  induction d generalizing p with
  | zero => have := hq.lt; omega
  | succ d ih =>
    have hle := hq.le
    by_cases hpn : p + 1 ≤ n
    · rw [towers_drop p hpn, ride]
      by_cases hpq : q = p + 1
      · subst hpq
        have := hq.hit hpn
        simp only [if_neg (show ¬ s.height (P (p + 1)) ≤ i by omega), if_pos hpn]
        rfl
      · have h1 := hq.gap (p + 1) (by omega) (by have := hq.lt; omega)
        simp only [h1, if_true]
        exact ih (p + 1) ⟨by have := hq.lt; omega, hle, fun r a b => hq.gap r (by omega) b, hq.hit⟩ (by omega)
    · rw [towers_drop_all p (by omega), ride, if_neg (by have := hq.lt; omega)]

/-- A walk of the code is a ride. -/
theorem walk_ride (R : Rep s n P) (i : Nat) (hi : i < s.level) (go : K → Bool) (p : Nat) (hp : p ≤ n)
    (hh : i < s.height (P p)) :
    ∃ p', walk s i go (P p) p = .ok (P p', (p' : Int)) ∧ p' ≤ n ∧ i < s.height (P p') ∧
      ride go i (spot s n P p) ((towers s n P).drop p) = spot s n P p' := by
  induction hm : n - p using Nat.strong_induction_on generalizing p with
  | _ m ih =>
    obtain ⟨q, hq⟩ := NextAt.exists (fun r => s.height (P r)) n i p hp
    obtain ⟨l1, l2⟩ := R.link i p q hp hh hq
    rw [walk, ride_next go i p q hq]
    simp only [St.getFwd, if_pos hh, Res.bind_ok, l1]
    by_cases hqn : q ≤ n
    · simp only [if_pos hqn]
      by_cases hc : go (s.key (P q)) = true
      · simp only [if_pos hc, St.getSpan, if_pos hh, Res.bind_ok]
        rw [l2 hi]
        have := hq.lt
        obtain ⟨p', e, h2, h3, h4⟩ := ih (n - q) (by omega) q hqn (hq.hit hqn) rfl
        refine ⟨p', ?_, h2, h3, h4⟩
        rw [← e]; congr 1; omega
      · simp only [if_neg hc]
        exact ⟨p, rfl, hp, hh, rfl⟩
    · simp only [if_neg hqn]
      exact ⟨p, rfl, hp, hh, rfl⟩

theorem Rep.high (R : Rep s n P) {i p : Nat} (hi : i < s.level) (h : i < s.height (P p)) : ∀ j, j < i + 1 → j < s.height (P p) := by
  intro j hj; omega

theorem searchLoop_seek (R : Rep s n P) (comp : Compare K) (k : K) (i : Nat) (hi : i ≤ s.level) (p : Nat) (hp : p ≤ n)
    (hh : ∀ j, j < i → j < s.height (P p)) :
    (∃ q, q ≤ n ∧ searchLoop comp s k i (P p) p = .ok (some (P q), (q : Int)) ∧ seek comp k i (spot s n P p) = some (spot s n P q)) ∨
    (searchLoop comp s k i (P p) p = .ok (none, 0) ∧ seek comp k i (spot s n P p) = none) := by
  induction i generalizing p with
  | zero => exact .inr ⟨rfl, rfl⟩
  | succ i ih =>
    obtain ⟨p', e, h2, h3, h4⟩ := walk_ride R i (by omega) (fun x => comp x k != 1) p hp (hh i (by omega))
    rw [searchLoop, e, Res.bind_ok, seek]
    have h4' : ride (fun x => comp x k != 1) i (spot s n P p) (spot s n P p).rest = spot s n P p' := h4
    simp only [h4']
    by_cases hz : comp (s.key (P p')) k = 0
    · left
      exact ⟨p', h2, by simp [hz], by simp [spot, hz]⟩
    · have := ih (by omega) p' h2 (fun j hj => by omega)
      simpa [spot, hz] using this

/-- The place found by the outer loops. -/
theorem descend_glide (R : Rep s n P) (go : K → Bool) (i : Nat) (hi : i ≤ s.level) (p : Nat) (hp : p ≤ n)
    (hh : ∀ j, j < i → j < s.height (P p)) (u : Upd) :
    ∃ q u', q ≤ n ∧ descend s go i (P p) p u = .ok (P q, u') ∧ glide go i (spot s n P p) = spot s n P q := by
  induction i generalizing p u with
  | zero => exact ⟨p, u, hp, rfl, rfl⟩
  | succ i ih =>
    obtain ⟨p', e, h2, h3, h4⟩ := walk_ride R i (by omega) go p hp (hh i (by omega))
    have hml : i < maxLevel := by have := R.l32; unfold maxLevel; omega
    rw [descend, e, Res.bind_ok, glide]
    simp only [Upd.set, if_pos hml, Res.bind_ok]
    have h4' : ride go i (spot s n P p) (spot s n P p).rest = spot s n P p' := h4
    rw [h4']
    exact ih (by omega) p' h2 (fun j hj => by omega) _

/-- The same from the header, with the finger the loops leave behind. -/
theorem descend_start (R : Rep s n P) (go : K → Bool) :
    ∃ q u f, q ≤ n ∧ descend s go s.level s.header 0 .empty = .ok (P q, u) ∧ Finger s n P s.level q u f ∧
      glide go s.level (spot s n P 0) = spot s n P q := by
  obtain ⟨q, u', hq, ed, epl⟩ := descend_glide R go s.level (Nat.le_refl _) 0 (by omega)
    (fun j hj => by rw [R.head, R.hh]; have := R.l32; omega) .empty
  obtain ⟨p₂, u₂, f, ed2, F, -, -⟩ := descend_header R go
  rw [R.head] at ed
  simp only [Int.ofNat_eq_natCast, Int.natCast_zero] at ed
  rw [ed] at ed2
  simp only [Res.ok.injEq, Prod.mk.injEq] at ed2
  have hqp : q = p₂ := R.inj _ _ hq F.k_le ed2.1
  subst hqp
  refine ⟨q, u', f, hq, ed, ?_, epl⟩
  rw [ed2.2]; exact F

end

/-! ### Heights and level after an insertion -/

theorem setFwd_frame {s s' : St K V} {x i : Nat} {p : Option Nat} (h : s.setFwd x i p = .ok s') :
    s'.level = s.level ∧ s'.height = s.height ∧ s'.alloc = s.alloc := by
  unfold St.setFwd at h; split at h <;> simp at h; rw [← h]; exact ⟨rfl, rfl, rfl⟩

theorem setSpan_frame {s s' : St K V} {x i : Nat} {p : Int} (h : s.setSpan x i p = .ok s') :
    s'.level = s.level ∧ s'.height = s.height ∧ s'.alloc = s.alloc := by
  unfold St.setSpan at h; split at h <;> simp at h; rw [← h]; exact ⟨rfl, rfl, rfl⟩

theorem linkLoop_frame (u : Upd) (x : Nat) (n i : Nat) {s s' : St K V} (h : linkLoop s u x n i = .ok s') :
    s'.level = s.level ∧ s'.height = s.height := by
  induction n generalizing s i with
  | zero => simp [linkLoop] at h; rw [h]; exact ⟨rfl, rfl⟩
  | succ n ih =>
    rw [linkLoop] at h
    obtain ⟨_, -, h⟩ := bind_eq_ok h
    obtain ⟨_, -, h⟩ := bind_eq_ok h
    obtain ⟨s1, e1, h⟩ := bind_eq_ok h
    obtain ⟨s2, e2, h⟩ := bind_eq_ok h
    obtain ⟨_, -, h⟩ := bind_eq_ok h
    obtain ⟨s3, e3, h⟩ := bind_eq_ok h
    obtain ⟨s4, e4, h⟩ := bind_eq_ok h
    obtain ⟨a, b⟩ := ih _ h
    rw [a, b, (setSpan_frame e4).1, (setSpan_frame e3).1, (setFwd_frame e2).1, (setFwd_frame e1).1,
      (setSpan_frame e4).2.1, (setSpan_frame e3).2.1, (setFwd_frame e2).2.1, (setFwd_frame e1).2.1]
    exact ⟨rfl, rfl⟩

theorem spanLoop_frame (u : Upd) (n i : Nat) {s s' : St K V} (h : spanLoop s u n i = .ok s') :
    s'.level = s.level ∧ s'.height = s.height := by
  induction n generalizing s i with
  | zero => simp [spanLoop] at h; rw [h]; exact ⟨rfl, rfl⟩
  | succ n ih =>
    rw [spanLoop] at h
    obtain ⟨_, -, h⟩ := bind_eq_ok h
    obtain ⟨_, -, h⟩ := bind_eq_ok h
    obtain ⟨s1, e1, h⟩ := bind_eq_ok h
    obtain ⟨a, b⟩ := ih _ h
    rw [a, b, (setSpan_frame e1).1, (setSpan_frame e1).2.1]
    exact ⟨rfl, rfl⟩

theorem raiseLoop_frame (n i : Nat) {s s' : St K V} {u u' : Upd} (h : raiseLoop s u n i = .ok (s', u')) :
    s'.level = s.level ∧ s'.height = s.height ∧ s'.alloc = s.alloc := by
  induction n generalizing s u i with
  | zero => simp [raiseLoop] at h; rw [h.1]; exact ⟨rfl, rfl, rfl⟩
  | succ n ih =>
    rw [raiseLoop] at h
    obtain ⟨_, -, h⟩ := bind_eq_ok h
    obtain ⟨s1, e1, h⟩ := bind_eq_ok h
    obtain ⟨a, b, c⟩ := ih _ h
    rw [a, b, c]
    exact setSpan_frame e1

theorem insertEnd_frame {u : Upd} {x : Nat} {s s' : St K V} (h : insertEnd s u x = .ok s') :
    s'.level = s.level ∧ s'.height = s.height := by
  unfold insertEnd at h
  obtain ⟨f, -, h⟩ := bind_eq_ok h
  cases f <;> simp at h <;> rw [← h] <;> exact ⟨rfl, rfl⟩

theorem insertAt_frame {u : Upd} {k : K} {v : V} {H : Nat} {s s' : St K V} (h : insertAt s u k v H = .ok s') :
    s'.level = max s.level H ∧ s'.height = fun y => if y = s.alloc then H else s.height y := by
  unfold insertAt at h
  obtain ⟨⟨s1, u1⟩, e1, h⟩ := bind_eq_ok h
  dsimp only at h
  obtain ⟨s2, e2, h⟩ := bind_eq_ok h
  obtain ⟨s3, e3, h⟩ := bind_eq_ok h
  obtain ⟨a1, a2⟩ := insertEnd_frame h
  obtain ⟨b1, b2⟩ := spanLoop_frame _ _ _ e3
  obtain ⟨c1, c2⟩ := linkLoop_frame _ _ _ _ e2
  have hs1 : s1.level = max s.level H ∧ s1.height = s.height ∧ s1.alloc = s.alloc := by
    by_cases hgt : H > s.level
    · rw [if_pos hgt] at e1
      obtain ⟨⟨s0, u0⟩, e0, e1⟩ := bind_eq_ok e1
      obtain ⟨d1, d2, d3⟩ := raiseLoop_frame _ _ e0
      simp at e1
      rw [← e1.1]
      exact ⟨by simp; omega, d2, d3⟩
    · rw [if_neg hgt] at e1
      simp at e1
      rw [← e1.1]
      exact ⟨by omega, rfl, rfl⟩
  rw [a1, a2, b1, b2, c1, c2]
  simp only [newNode, hs1]
  exact ⟨trivial, trivial⟩

theorem top_append (A B : List (Tower K V)) : top (A ++ B) = max (top A) (top B) := by
  induction A with
  | nil =>
    have : 1 ≤ top B := by
      induction B with
      | nil => exact Nat.le_refl _
      | cons t ts ih => simp only [top]; omega
    simp only [List.nil_append, top]; omega
  | cons t ts ih => simp only [List.cons_append, top, ih]; omega

theorem top_pos (T : List (Tower K V)) : 1 ≤ top T := by
  have := top_append [] T
  simp [top] at this; omega

/-- An insertion, exactly. -/
theorem insert_built {comp : Compare K} {zk : K} {zv : V} {s : St K V} {T : List (Tower K V)} (h : Built zk zv s T)
    (k : K) (v : V) (uniq : Bool) (draw : UInt64) :
    ∃ s', insert comp s k v uniq draw = .ok (s', true) ∧ Built zk zv s' (insertTower comp zk zv T k v draw) := by
  obtain ⟨n, P, R, rfl, hz1, hz2, hlv⟩ := h
  obtain ⟨s', p, e, hp, R', b2, b3, b4, c1, c2⟩ := insert_ok (comp := comp) R k v uniq draw
  have hA : ∀ q, q ≤ n → P q ≠ s.alloc := fun q hq => by have := R.old q hq; omega
  have hhd : s.header ≠ s.alloc := by have := hA 0 (by omega); rwa [R.head] at this
  have hfin : s'.level = max s.level (heightOf draw) ∧ s'.height = (fun y => if y = s.alloc then heightOf draw else s.height y) ∧
      ∃ q, q ≤ n ∧ glide (fun x => comp x k == 0) s.level (spot s n P 0) = spot s n P q ∧ insPos P p s.alloc = insPos P q s.alloc := by
    obtain ⟨q, u₂, f, hq, ed2, F, epl⟩ := descend_start R (fun x => comp x k == 0)
    obtain ⟨s₂, e₂, R₂, -, -, -, -⟩ := insertAt_ok R F k v (heightOf draw) (heightOf_range draw).1 (heightOf_range draw).2
    have e' := e
    unfold insert at e'
    rw [ed2, Res.bind_ok] at e'
    obtain ⟨x, ex, e'⟩ := bind_eq_ok e'
    obtain ⟨f', ef, e'⟩ := bind_eq_ok e'
    dsimp only at e'
    have hif : ∀ (c : Bool) (Y : Res (St K V × Bool)), (if c = true then pure (s, false) else Y) = .ok (s', true) → Y = .ok (s', true) := by
      intro c Y hc; cases c
      · simpa using hc
      · simp at hc
    have e' := hif _ _ e'
    rw [randomLevel_exact, Res.bind_ok] at e'
    obtain ⟨s3, e3, e'⟩ := bind_eq_ok e'
    simp only [Res.pure_eq, Res.ok.injEq, Prod.mk.injEq, and_true] at e'
    subst e'
    rw [e₂] at e3
    cases e3
    refine ⟨(insertAt_frame e₂).1, (insertAt_frame e₂).2, q, hq, epl, ?_⟩
    -- the two descriptions of the new list agree on the place of the new node
    have hpp : p = q := by
      have h1 : ∀ m, m ≤ n + 1 → insPos P p s.alloc m = insPos P q s.alloc m := by
        intro m
        induction m with
        | zero => intro _; simp [insPos]
        | succ m ih =>
          intro hm
          have h0 := ih (by omega)
          have l1 := (R'.link 0 m (m + 1) (by omega) (R'.hpos m (by omega)) (R'.next0 m (by omega))).1
          have l2 := (R₂.link 0 m (m + 1) (by omega) (R₂.hpos m (by omega)) (R₂.next0 m (by omega))).1
          rw [h0, l2, if_pos hm, if_pos hm] at l1
          exact (Option.some.inj l1).symm
      by_contra hne
      have h2 := h1 (p + 1) (by omega)
      have hpk := F.k_le
      simp only [insPos] at h2
      rw [if_neg (by omega), if_pos trivial] at h2
      by_cases h3 : p + 1 ≤ q
      · rw [if_pos h3] at h2
        exact hA (p + 1) (by omega) h2.symm
      · rw [if_neg h3, if_neg (by omega)] at h2
        exact hA (p + 1 - 1) (by omega) h2.symm
    rw [hpp]
  obtain ⟨hl', hht, q, hq, epl, eins⟩ := hfin
  rw [eins] at R'
  have erow : towers s' (n + 1) (insPos P q s.alloc) = (towers s n P).take q ++ ⟨k, v, heightOf draw⟩ :: (towers s n P).drop q := by
    apply List.ext_getElem?
    intro i
    have hget : ∀ (s : St K V) (n : Nat) (P : Nat → Nat) (i : Nat), (towers s n P)[i]? =
        if i < n then some ⟨s.key (P (i + 1)), s.val (P (i + 1)), s.height (P (i + 1))⟩ else none := by
      intro s n P i
      by_cases h : i < n <;> simp [towers, h]
    rw [hget, List.getElem?_append, List.length_take, towers_length, Nat.min_eq_left hq, b3, b4, hht]
    by_cases h : i < q
    · have := hA (i + 1) (by omega)
      rw [if_pos h, List.getElem?_take, if_pos h, hget]
      have e : insPos P q s.alloc (i + 1) = P (i + 1) := by simp [insPos]; omega
      simp only [e, if_pos (show i < n + 1 by omega), if_pos (show i < n by omega), if_neg this]
    · rw [if_neg h]
      by_cases h' : i = q
      · subst h'
        have e : insPos P i s.alloc (i + 1) = s.alloc := by simp [insPos]
        simp [e, show i < n + 1 by omega]
      · have hm : i - q = (i - q - 1) + 1 := by omega
        rw [hm, List.getElem?_cons_succ, List.getElem?_drop, hget, show q + (i - q - 1) = i - 1 by omega]
        have e : insPos P q s.alloc (i + 1) = P i := by
          simp only [insPos]
          rw [if_neg (by omega), if_neg (by omega), show i + 1 - 1 = i by omega]
        by_cases hi : i < n + 1
        · have := hA i (by omega)
          simp only [e, if_pos hi, if_pos (show i - 1 < n by omega), if_neg this, show i - 1 + 1 = i by omega]
        · simp only [if_neg hi, if_neg (show ¬ i - 1 < n by omega)]
  have estart : start zk zv (towers s n P) = spot s n P 0 := by
    simp [start, spot, R.head, hz1, hz2]
  have eT : insertTower comp zk zv (towers s n P) k v draw = towers s' (n + 1) (insPos P q s.alloc) := by
    unfold insertTower
    simp only [place, estart, ← hlv, epl]
    rw [erow]
    simp only [spot, List.length_drop, towers_length]
    rw [show n - (n - q) = q by omega]
  refine ⟨s', e, n + 1, _, R', eT.symm, ?_, ?_, ?_⟩
  · rw [b2, b3]; simp [hhd, hz1]
  · rw [b2, b4]; simp [hhd, hz2]
  · rw [eT, erow, hl', hlv, top_append]
    have := top_append ((towers s n P).take q) ((towers s n P).drop q)
    rw [List.take_append_drop] at this
    rw [this]
    simp only [top]; omega

theorem new_built (zk : K) (zv : V) : Built zk zv (new zk zv) ([] : List (Tower K V)) := by
  obtain ⟨n, P, R, h0, h1, h2⟩ := new_holds zk zv
  have hn : n = 0 := by have := congrArg List.length h0; rwa [entries_length] at this
  subst hn
  exact ⟨0, P, R, rfl, h1, h2, rfl⟩

end Gds.SkipList
