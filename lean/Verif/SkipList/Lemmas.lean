import Verif.SkipList.Model
import Mathlib.Tactic.Common
import Mathlib.Tactic.Push
import Mathlib.Order.Basic
import Mathlib.Data.Nat.Find
import Mathlib.Data.Nat.Init

namespace Gds.SkipList

variable {K V : Type}

/-! ### randomLevel -/

theorem randomLoop_ok (k : UInt64) (n : Nat) (hn : n ≤ 31) (total levelN : UInt64)
    (ht : total.toNat = 2 ^ n - 1) (hl : levelN.toNat = 2 ^ n) (level : Nat) :
    ∃ r, randomLoop k total levelN level = .ok r ∧ level ≤ r ∧ r ≤ level + n := by
  induction n generalizing total levelN level with
  | zero =>
    refine ⟨level, ?_, by omega, by omega⟩
    rw [randomLoop]
    have : ¬ total > k := by
      rw [gt_iff_lt, UInt64.lt_iff_toNat_lt, ht]; simp
    simp [this]
  | succ n ih =>
    rw [randomLoop]
    by_cases h : total > k
    · rw [if_pos h]
      have h1 : (levelN >>> 1).toNat = 2 ^ n := by
        rw [UInt64.toNat_shiftRight, hl]
        simp [Nat.shiftRight_eq_div_pow, Nat.pow_succ]
      have h2 : (total - levelN >>> 1).toNat = 2 ^ n - 1 := by
        rw [UInt64.toNat_sub_of_le]
        · rw [h1, ht, Nat.pow_succ]; omega
        · rw [UInt64.le_iff_toNat_le, h1, ht, Nat.pow_succ]
          have := Nat.one_le_two_pow (n := n); omega
      obtain ⟨r, e, a, b⟩ := ih (by omega) _ _ h2 h1 (level + 1)
      exact ⟨r, e, by omega, by omega⟩
    · rw [if_neg h]
      exact ⟨level, rfl, by omega, by omega⟩

theorem randomLevel_ok (draw : UInt64) : ∃ r, randomLevel draw = .ok r ∧ 1 ≤ r ∧ r ≤ 32 := by
  unfold randomLevel
  obtain ⟨r, e, a, b⟩ := randomLoop_ok (draw % 4294967295) 31 (by omega) (4294967295 - 2147483648) 2147483648
    (by decide) (by decide) 1
  exact ⟨r, e, a, by omega⟩

/-! ### Representation: positions -/

/-- `q` is the next position after `p` with a node of height above `i`, or `n + 1` if there is none. -/
structure NextAt (h : Nat → Nat) (n i p q : Nat) : Prop where
  lt : p < q
  le : q ≤ n + 1
  gap : ∀ r, p < r → r < q → h r ≤ i
  hit : q ≤ n → i < h q

theorem NextAt.exists (h : Nat → Nat) (n i p : Nat) (hp : p ≤ n) : ∃ q, NextAt h n i p q := by
  by_cases hex : ∃ q, p < q ∧ q ≤ n ∧ i < h q
  · classical
    refine ⟨Nat.find hex, ?_, ?_, ?_, ?_⟩
    · exact (Nat.find_spec hex).1
    · have := (Nat.find_spec hex).2.1; omega
    · intro r h1 h2
      have := Nat.find_min hex h2
      have h3 := (Nat.find_spec hex).2.1
      by_contra hc
      exact this ⟨h1, by omega, by omega⟩
    · intro _; exact (Nat.find_spec hex).2.2
  · push Not at hex
    exact ⟨n + 1, by omega, by omega, fun r h1 h2 => by have := hex r h1 (by omega); omega, fun h => by omega⟩

theorem NextAt.unique {h : Nat → Nat} {n i p q q' : Nat} (a : NextAt h n i p q) (b : NextAt h n i p q') : q = q' := by
  rcases Nat.lt_trichotomy q q' with hl | hl | hl
  · have h1 := a.hit (by have := b.le; omega)
    have h2 := b.gap q a.lt hl
    omega
  · exact hl
  · have h1 := b.hit (by have := a.le; omega)
    have h2 := a.gap q' b.lt hl
    omega

/-- The list is well linked: the node at position `p` is `P p`, position 0 is the header, `1..n` are the entries. -/
structure Rep (s : St K V) (n : Nat) (P : Nat → Nat) : Prop where
  head : P 0 = s.header
  inj : ∀ p q, p ≤ n → q ≤ n → P p = P q → p = q
  old : ∀ p, p ≤ n → P p < s.alloc
  hh : s.height s.header = 32
  l1 : 1 ≤ s.level
  l32 : s.level ≤ 32
  ht : ∀ p, 1 ≤ p → p ≤ n → 1 ≤ s.height (P p) ∧ s.height (P p) ≤ s.level
  size : s.size = n
  link : ∀ i p q, p ≤ n → i < s.height (P p) → NextAt (fun r => s.height (P r)) n i p q →
    s.fwd (P p) i = (if q ≤ n then some (P q) else none) ∧
    (i < s.level → s.span (P p) i = ((min q n : Nat) : Int) - p)
  back : ∀ p, 1 ≤ p → p ≤ n → s.back (P p) = if p = 1 then none else some (P (p - 1))
  tail : s.tail = if n = 0 then none else some (P n)

/-- Keys and values in order. -/
def entries (s : St K V) (n : Nat) (P : Nat → Nat) : List (K × V) :=
  (List.range n).map (fun j => (s.key (P (j + 1)), s.val (P (j + 1))))

section
variable {s : St K V} {n : Nat} {P : Nat → Nat}

theorem Rep.hpos (R : Rep s n P) (p : Nat) (hp : p ≤ n) : 1 ≤ s.height (P p) := by
  rcases Nat.eq_zero_or_pos p with rfl | h
  · rw [R.head, R.hh]; omega
  · exact (R.ht p h hp).1

/-- At level 0 the next position is the successor. -/
theorem Rep.next0 (R : Rep s n P) (p : Nat) (hp : p ≤ n) : NextAt (fun r => s.height (P r)) n 0 p (p + 1) :=
  ⟨by omega, by omega, fun r h1 h2 => by omega, fun h => R.hpos (p + 1) h⟩

theorem Rep.fwd0 (R : Rep s n P) (p : Nat) (hp : p ≤ n) :
    s.getFwd (P p) 0 = .ok (if p + 1 ≤ n then some (P (p + 1)) else none) := by
  unfold St.getFwd
  have h0 : 0 < s.height (P p) := R.hpos p hp
  rw [if_pos h0, (R.link 0 p (p + 1) hp (R.hpos p hp) (R.next0 p hp)).1]

/-- What a walk on one level does. -/
theorem walk_ok (R : Rep s n P) (i : Nat) (hi : i < s.level) (cond : K → Bool) (p : Nat) (hp : p ≤ n)
    (hh : i < s.height (P p)) :
    ∃ p', walk s i cond (P p) p = .ok (P p', (p' : Int)) ∧ p ≤ p' ∧ p' ≤ n ∧ i < s.height (P p') ∧
      (∀ q, NextAt (fun r => s.height (P r)) n i p' q → q ≤ n → cond (s.key (P q)) = false) ∧
      (p' = p ∨ cond (s.key (P p')) = true) ∧
      (∀ b, p < b → b ≤ n → i < s.height (P b) → cond (s.key (P b)) = false → p' < b) := by
  induction hm : n - p using Nat.strong_induction_on generalizing p with
  | _ m ih =>
    obtain ⟨q, hq⟩ := NextAt.exists (fun r => s.height (P r)) n i p hp
    obtain ⟨l1, l2⟩ := R.link i p q hp hh hq
    rw [walk]
    simp only [St.getFwd, if_pos hh, Res.bind_ok, l1]
    by_cases hqn : q ≤ n
    · simp only [if_pos hqn]
      by_cases hc : cond (s.key (P q)) = true
      · simp only [if_pos hc, St.getSpan, if_pos hh, Res.bind_ok]
        rw [l2 hi]
        have := hq.lt
        obtain ⟨p', e, h1, h2, h3, h4, h5, h6⟩ := ih (n - q) (by omega) q hqn (hq.hit hqn) rfl
        refine ⟨p', ?_, by omega, h2, h3, h4, ?_, ?_⟩
        · rw [← e]; congr 1; omega
        · rcases h5 with rfl | h5
          · exact .inr hc
          · exact .inr h5
        · intro b hb1 hb2 hb3 hb4
          rcases Nat.lt_trichotomy q b with hl | rfl | hl
          · exact h6 b hl hb2 hb3 hb4
          · rw [hc] at hb4; simp at hb4
          · have := hq.gap b hb1 hl; omega
      · simp only [if_neg hc]
        refine ⟨p, rfl, by omega, hp, hh, ?_, .inl rfl, fun b hb _ _ _ => hb⟩
        intro q' hq' _
        rw [hq'.unique hq]; simpa using hc
    · simp only [if_neg hqn]
      refine ⟨p, rfl, by omega, hp, hh, ?_, .inl rfl, fun b hb _ _ _ => hb⟩
      intro q' hq' hq'n
      rw [hq'.unique hq] at hq'n
      omega

/-- `update`/`rank` describe position `k` on the levels below `lv`: on each level the last node at or before `k`. -/
structure Finger (s : St K V) (n : Nat) (P : Nat → Nat) (lv : Nat) (k : Nat) (u : Upd) (f : Nat → Nat) : Prop where
  k_le : k ≤ n
  f0 : f 0 = k
  upd : ∀ i, i < lv → u.upd i = some (P (f i)) ∧ u.rank i = (f i : Int)
  le : ∀ i, i < lv → f i ≤ k
  high : ∀ i, i < lv → i < s.height (P (f i))
  gap : ∀ i, i < lv → ∀ r, f i < r → r ≤ k → s.height (P r) ≤ i

/-- What the outer loop does from level `i`, at position `x`. -/
theorem descend_ok (R : Rep s n P) (cond : K → Bool) (i : Nat) (hi : i ≤ s.level) (x : Nat) (hx : x ≤ n)
    (hcx : x = 0 ∨ cond (s.key (P x)) = true)
    (hh : ∀ j, j < i → j < s.height (P x)) (u : Upd) (f : Nat → Nat)
    (hu : ∀ j, i ≤ j → j < s.level → u.upd j = some (P (f j)) ∧ u.rank j = (f j : Int) ∧ f j ≤ x ∧ j < s.height (P (f j)) ∧
      (∀ r, f j < r → r ≤ x → s.height (P r) ≤ j) ∧
      (∀ q, NextAt (fun r => s.height (P r)) n j (f j) q → q ≤ n → cond (s.key (P q)) = false)) :
    ∃ k u' f', descend s cond i (P x) x u = .ok (P k, u') ∧ x ≤ k ∧ k ≤ n ∧ (k = 0 ∨ cond (s.key (P k)) = true) ∧
      (0 < i → f' 0 = k) ∧ (i = 0 → k = x ∧ f' = f ∧ u' = u) ∧
      ∀ j, j < s.level → u'.upd j = some (P (f' j)) ∧ u'.rank j = (f' j : Int) ∧ f' j ≤ k ∧ j < s.height (P (f' j)) ∧
      (∀ r, f' j < r → r ≤ k → s.height (P r) ≤ j) ∧
      (∀ q, NextAt (fun r => s.height (P r)) n j (f' j) q → q ≤ n → cond (s.key (P q)) = false) := by
  induction i generalizing x u f with
  | zero => exact ⟨x, u, f, rfl, by omega, hx, hcx, by omega, fun _ => ⟨rfl, rfl, rfl⟩, fun j hj => hu j (by omega) hj⟩
  | succ i ih =>
    obtain ⟨p', e, h1, h2, h3, h4, h5, h6⟩ := walk_ok R i (by omega) cond x hx (hh i (by omega))
    rw [descend, e]
    have hml : i < maxLevel := by have := R.l32; unfold maxLevel; omega
    simp only [Res.bind_ok, Upd.set, if_pos hml]
    have key := ih (by omega) p' h2 (by
        rcases h5 with rfl | h5
        · exact hcx
        · exact .inr h5) (fun j hj => by
        by_cases h0 : p' = 0
        · have := R.hh; have := R.l32; rw [h0, R.head]; omega
        · omega) ⟨fun j => if j = i then some (P p') else u.upd j, fun j => if j = i then (p' : Int) else u.rank j⟩
        (fun j => if j = i then p' else f j) (by
        intro j hj1 hj2
        by_cases hji : j = i
        · subst hji
          simp only [if_true]
          exact ⟨trivial, trivial, Nat.le_refl _, h3, fun r a b => by omega, h4⟩
        · simp only [if_neg hji]
          obtain ⟨a1, a2, a3, a4, a5, a6⟩ := hu j (by omega) hj2
          refine ⟨a1, a2, by omega, a4, ?_, a6⟩
          intro r hr1 hr2
          obtain ⟨q, hq⟩ := NextAt.exists (fun r => s.height (P r)) n j (f j) (by omega)
          have hqx : x < q := by
            by_contra hc
            have := hq.hit (by omega)
            have := a5 q hq.lt (by omega)
            omega
          have hlt : p' < q := by
            by_cases hqn : q ≤ n
            · exact h6 q hqx hqn (by have := hq.hit hqn; omega) (a6 q hq hqn)
            · omega
          exact hq.gap r hr1 (by omega))
    obtain ⟨k, u', f', e', c1, c2, c3, c4, c5, c6⟩ := key
    refine ⟨k, u', f', e', by omega, c2, c3, ?_, by omega, c6⟩
    intro _
    rcases Nat.eq_zero_or_pos i with rfl | hpos
    · obtain ⟨rfl, rfl, _⟩ := c5 rfl
      simp
    · exact c4 hpos

/-- What the outer loop computes from the header. -/
theorem descend_header (R : Rep s n P) (cond : K → Bool) :
    ∃ k u f, descend s cond s.level s.header 0 .empty = .ok (P k, u) ∧ Finger s n P s.level k u f ∧
      (k = 0 ∨ cond (s.key (P k)) = true) ∧ (k + 1 ≤ n → cond (s.key (P (k + 1))) = false) := by
  obtain ⟨k, u, f, e, h1, h2, h3, h4, h5, h6⟩ := descend_ok R cond s.level (by omega) 0 (by omega) (.inl rfl)
    (fun j hj => by rw [R.head, R.hh]; have := R.l32; omega) .empty (fun _ => 0) (fun j a b => by omega)
  rw [R.head] at e
  refine ⟨k, u, f, e, ⟨h2, h4 R.l1, fun i hi => ⟨(h6 i hi).1, (h6 i hi).2.1⟩, fun i hi => (h6 i hi).2.2.1,
    fun i hi => (h6 i hi).2.2.2.1, fun i hi => (h6 i hi).2.2.2.2.1⟩, h3, ?_⟩
  intro hk
  have h0 := (h6 0 R.l1).2.2.2.2.2
  rw [h4 R.l1] at h0
  exact h0 (k + 1) (R.next0 k h2) hk

end

end Gds.SkipList
