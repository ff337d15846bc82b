import Verif.SkipList.Rows
import Verif.Go.EComp

/-! Property C127, first part: how often a lookup in the skip list calls the comparator. -/
namespace Gds.SkipList
variable {K V E : Type}

/-! ### The code with a comparator that has state -/

/-- skiplist.go:96-99, the inner loop of `search`, with the calls of the comparator in the order of the code. -/
def walkE (cmp : EComp K E) (s : St K V) (key : K) (i : Nat) (x : Nat) (r : Int) (e : E) : Res ((Nat × Int) × E) := do
  let f ← s.getFwd x i
  match f with
  | none => pure ((x, r), e)
  | some y =>
    let c := cmp (s.key y) key e
    if c.1 ≠ 1 then do
      let sp ← s.getSpan x i
      walkE cmp s key i y (r + sp) c.2
    else pure ((x, r), c.2)
partial_fixpoint

/-- skiplist.go:93-104, the loop of `search`. -/
def searchLoopE (cmp : EComp K E) (s : St K V) (key : K) : (i : Nat) → (x : Nat) → (r : Int) → E → Res ((Option Nat × Int) × E)
  | 0, _, _, e => pure ((none, 0), e)
  | i + 1, x, r, e => do
    let w ← walkE cmp s key i x r e
    let c := cmp (s.key w.1.1) key w.2
    if c.1 = 0 then pure ((some w.1.1, w.1.2), c.2)
    else searchLoopE cmp s key i w.1.1 w.1.2 c.2

/-- skiplist.go:81-87 `Get`, with skiplist.go:89-105 `search`; `none` stands for the zero value of an absent key. -/
def getE (cmp : EComp K E) (s : St K V) (key : K) (e : E) : Res (Option V × E) := do
  let r ← searchLoopE cmp s key s.level s.header 0 e
  match r.1.1 with
  | none => pure (none, r.2)
  | some n => pure (some (s.val n), r.2)

/-! ### Any comparator -/

section
variable {s : St K V} {n : Nat} {P : Nat → Nat}

theorem walkE_any (R : Rep s n P) (cmp : EComp K E) (key : K) (i : Nat) (hi : i < s.level) (p : Nat) (hp : p ≤ n) (hh : i < s.height (P p))
    (c : Nat) (e : E) : ∃ p' c' e', walkE (counted cmp) s key i (P p) p (c, e) = .ok ((P p', (p' : Int)), (c', e')) ∧ p ≤ p' ∧ p' ≤ n ∧
      i < s.height (P p') ∧ c' ≤ c + (p' - p) + 1 := by
  induction hm : n - p using Nat.strong_induction_on generalizing p c e with
  | _ m ih =>
    obtain ⟨q, hq⟩ := NextAt.exists (fun r => s.height (P r)) n i p hp
    obtain ⟨l1, l2⟩ := R.link i p q hp hh hq
    rw [walkE]
    simp only [St.getFwd, if_pos hh, Res.bind_ok, l1]
    by_cases hqn : q ≤ n
    · simp only [if_pos hqn, counted]
      by_cases hc : (cmp (s.key (P q)) key e).1 = 1
      · simp only [hc, ne_eq, not_true_eq_false, if_false]
        exact ⟨p, c + 1, _, rfl, Nat.le_refl _, hp, hh, by omega⟩
      · simp only [ne_eq, hc, not_false_eq_true, if_true, St.getSpan, if_pos hh, Res.bind_ok]
        rw [l2 hi]
        have := hq.lt
        obtain ⟨p', c', e', e1, h1, h2, h3, h4⟩ := ih (n - q) (by omega) q hqn (hq.hit hqn) (c + 1) (cmp (s.key (P q)) key e).2 rfl
        refine ⟨p', c', e', ?_, by omega, h2, h3, by omega⟩
        rw [← e1]; congr 1; omega
    · simp only [if_neg hqn]
      exact ⟨p, c, e, rfl, Nat.le_refl _, hp, hh, by omega⟩

theorem searchLoopE_any (R : Rep s n P) (cmp : EComp K E) (key : K) (i : Nat) (hi : i ≤ s.level) (p : Nat) (hp : p ≤ n)
    (hh : ∀ j, j < i → j < s.height (P p)) (c : Nat) (e : E) :
    ∃ r c' e', searchLoopE (counted cmp) s key i (P p) p (c, e) = .ok (r, (c', e')) ∧ (∀ x, r.1 = some x → ∃ q, q ≤ n ∧ x = P q) ∧
      c' ≤ c + (n - p) + 2 * i := by
  induction i generalizing p c e with
  | zero => exact ⟨_, c, e, rfl, by simp, by omega⟩
  | succ i ih =>
    obtain ⟨p', c1, e1, h1, h2, h3, h4, h5⟩ := walkE_any R cmp key i (by omega) p hp (hh i (by omega)) c e
    rw [searchLoopE, h1, Res.bind_ok]
    simp only [counted]
    by_cases hz : (cmp (s.key (P p')) key e1).1 = 0
    · simp only [hz, if_true]
      exact ⟨_, _, _, rfl, fun x hx => ⟨p', h3, by cases hx; rfl⟩, by omega⟩
    · simp only [hz, if_false]
      obtain ⟨r, c', e', g1, g2, g3⟩ := ih (by omega) p' h3 (fun j hj => by omega) (c1 + 1) (cmp (s.key (P p')) key e1).2
      exact ⟨r, c', e', g1, g2, by omega⟩

end

/-- C127: with any comparator at all, `Get` ends; it answers with nothing, with the value of the header or with the value of an entry, and
calls the comparator at most once for every entry and twice for every level. -/
theorem get_any {zk : K} {zv : V} {s : St K V} {T : List (Tower K V)} (h : Built zk zv s T) (cmp : EComp K E) (k : K) (c : Nat) (e : E) :
    ∃ v c' e', getE (counted cmp) s k (c, e) = .ok (v, (c', e')) ∧ (v = none ∨ v = some zv ∨ ∃ t ∈ T, v = some t.val) ∧
      c' ≤ c + T.length + 2 * top T := by
  obtain ⟨n, P, R, rfl, h1, h2, h3⟩ := h
  obtain ⟨r, c', e', g1, g2, g3⟩ := searchLoopE_any R cmp k s.level (Nat.le_refl _) 0 (by omega)
    (fun j hj => by rw [R.head, R.hh]; have := R.l32; omega) c e
  rw [R.head] at g1
  simp only [Int.ofNat_eq_natCast, Int.natCast_zero] at g1
  rw [getE, g1, Res.bind_ok, ← h3, towers_length]
  cases hr : r.1 with
  | none => exact ⟨none, c', e', rfl, Or.inl rfl, by omega⟩
  | some x =>
    obtain ⟨q, hq, rfl⟩ := g2 x hr
    refine ⟨_, c', e', rfl, Or.inr ?_, by omega⟩
    cases q with
    | zero => left; rw [R.head, h2]
    | succ q =>
      right
      exact ⟨⟨s.key (P (q + 1)), s.val (P (q + 1)), s.height (P (q + 1))⟩, by
        unfold towers; exact List.mem_map.2 ⟨q, List.mem_range.2 (by omega), rfl⟩, rfl⟩

/-! ### Without state: the model of C46–C52, and the exact number of calls -/

/-- The comparator calls of a ride: one for each tower ridden onto, and one for the tower that stops it. -/
def rideCalls (go : K → Bool) (i : Nat) : List (Tower K V) → Nat
  | [] => 0
  | t :: ts => if t.height ≤ i then rideCalls go i ts else if go t.key then rideCalls go i ts + 1 else 1

/-- The comparator calls of a lookup on the levels below `i`. -/
def seekCalls (comp : Compare K) (k : K) : Nat → Spot K V → Nat
  | 0, _ => 0
  | i + 1, c =>
    let c' := ride (fun x => comp x k != 1) i c c.rest
    rideCalls (fun x => comp x k != 1) i c.rest + 1 + if comp c'.key k = 0 then 0 else seekCalls comp k i c'

section
variable {s : St K V} {n : Nat} {P : Nat → Nat}

theorem rideCalls_next (go : K → Bool) (i p q : Nat) (hq : NextAt (fun r => s.height (P r)) n i p q) :
    rideCalls go i ((towers s n P).drop p) =
      if q ≤ n then (if go (s.key (P q)) then rideCalls go i ((towers s n P).drop q) + 1 else 1) else 0 := by
  obtain ⟨d, hd⟩ : ∃ d, d = q - p := ⟨_, rfl⟩
  induction d generalizing p with
  | zero => have := hq.lt; omega
  | succ d ih =>
    have hle := hq.le
    by_cases hpn : p + 1 ≤ n
    · rw [towers_drop p hpn, rideCalls]
      by_cases hpq : q = p + 1
      · subst hpq
        have := hq.hit hpn
        simp only [if_neg (show ¬ s.height (P (p + 1)) ≤ i by omega), if_pos hpn]
      · have h1 := hq.gap (p + 1) (by omega) (by have := hq.lt; omega)
        simp only [h1, if_true]
        exact ih (p + 1) ⟨by have := hq.lt; omega, hle, fun r a b => hq.gap r (by omega) b, hq.hit⟩ (by omega)
    · rw [towers_drop_all p (by omega), rideCalls, if_neg (by have := hq.lt; omega)]

theorem walkE_calls (R : Rep s n P) (comp : Compare K) (key : K) (i : Nat) (hi : i < s.level) (p : Nat) (hp : p ≤ n) (hh : i < s.height (P p)) (c : Nat) :
    ∃ p', walkE (counted (fun a b e => (comp a b, e))) s key i (P p) p (c, ()) =
        .ok ((P p', (p' : Int)), (c + rideCalls (fun x => comp x key != 1) i ((towers s n P).drop p), ())) ∧
      walk s i (fun x => comp x key != 1) (P p) p = .ok (P p', (p' : Int)) ∧ p' ≤ n ∧ i < s.height (P p') ∧
      ride (fun x => comp x key != 1) i (spot s n P p) ((towers s n P).drop p) = spot s n P p' := by
  induction hm : n - p using Nat.strong_induction_on generalizing p c with
  | _ m ih =>
    obtain ⟨q, hq⟩ := NextAt.exists (fun r => s.height (P r)) n i p hp
    obtain ⟨l1, l2⟩ := R.link i p q hp hh hq
    rw [walkE, walk, ride_next _ i p q hq, rideCalls_next _ i p q hq]
    simp only [St.getFwd, if_pos hh, Res.bind_ok, l1]
    by_cases hqn : q ≤ n
    · simp only [if_pos hqn, counted]
      by_cases hc : comp (s.key (P q)) key = 1
      · simp only [hc, ne_eq, not_true_eq_false, if_false, bne_self_eq_false, Bool.false_eq_true]
        exact ⟨p, rfl, rfl, hp, hh, rfl⟩
      · have hc' : (comp (s.key (P q)) key != 1) = true := by simpa using hc
        simp only [ne_eq, hc, not_false_eq_true, if_true, hc', St.getSpan, if_pos hh, Res.bind_ok]
        rw [l2 hi]
        have := hq.lt
        obtain ⟨p', e1, e2, h2, h3, h4⟩ := ih (n - q) (by omega) q hqn (hq.hit hqn) (c + 1) rfl
        have ei : (p : Int) + (((min q n : Nat) : Int) - p) = (q : Int) := by omega
        rw [ei]
        refine ⟨p', ?_, e2, h2, h3, h4⟩
        rw [e1]; congr 3; omega
    · simp only [if_neg hqn]
      exact ⟨p, rfl, rfl, hp, hh, rfl⟩

theorem searchLoopE_calls (R : Rep s n P) (comp : Compare K) (k : K) (i : Nat) (hi : i ≤ s.level) (p : Nat) (hp : p ≤ n)
    (hh : ∀ j, j < i → j < s.height (P p)) (c : Nat) :
    ∃ r, searchLoopE (counted (fun a b e => (comp a b, e))) s k i (P p) p (c, ()) = .ok (r, (c + seekCalls comp k i (spot s n P p), ())) ∧
      searchLoop comp s k i (P p) p = .ok r := by
  induction i generalizing p c with
  | zero => exact ⟨_, rfl, rfl⟩
  | succ i ih =>
    obtain ⟨p', e1, e2, h2, h3, h4⟩ := walkE_calls R comp k i (by omega) p hp (hh i (by omega)) c
    rw [searchLoopE, searchLoop, e1, e2, Res.bind_ok, Res.bind_ok, seekCalls]
    have h4' : ride (fun x => comp x k != 1) i (spot s n P p) (spot s n P p).rest = spot s n P p' := h4
    simp only [h4', counted]
    by_cases hz : comp (s.key (P p')) k = 0
    · simp only [hz, if_true, spot]
      exact ⟨_, rfl, rfl⟩
    · obtain ⟨r, g1, g2⟩ := ih (by omega) p' h2 (fun j hj => by omega) (c + rideCalls (fun x => comp x k != 1) i ((towers s n P).drop p) + 1)
      refine ⟨r, ?_, by simp only [hz, if_false]; exact g2⟩
      simp only [hz, if_false]
      rw [g1]
      simp only [spot, hz, if_false]
      congr 3
      simp only [Nat.add_assoc]

end

/-- C127: the exact number of comparator calls of `Get`, which otherwise answers as the model of C48 does. -/
theorem get_calls {zk : K} {zv : V} {s : St K V} {T : List (Tower K V)} (h : Built zk zv s T) (comp : Compare K) (k : K) :
    ∃ v, getE (counted (fun a b e => (comp a b, e))) s k (0, ()) = .ok (v, (seekCalls comp k (top T) (start zk zv T), ())) ∧
      get comp zv s k = .ok (v.getD zv) := by
  obtain ⟨n, P, R, rfl, h1, h2, h3⟩ := h
  obtain ⟨r, g1, g2⟩ := searchLoopE_calls R comp k s.level (Nat.le_refl _) 0 (by omega)
    (fun j hj => by rw [R.head, R.hh]; have := R.l32; omega) 0
  have hst : start zk zv (towers s n P) = spot s n P 0 := by simp [start, spot, R.head, h1, h2]
  rw [R.head] at g1 g2
  simp only [Int.ofNat_eq_natCast, Int.natCast_zero, Nat.zero_add] at g1 g2
  rw [getE, get, search, g1, g2, Res.bind_ok, Res.bind_ok, ← h3, hst]
  cases r.1 with
  | none => exact ⟨none, rfl, rfl⟩
  | some x => exact ⟨some (s.val x), rfl, rfl⟩

end Gds.SkipList
