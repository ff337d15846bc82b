import Verif.SkipList.Calls
import Verif.SkipList.Levels
import Verif.SkipList.TowerProps
import Mathlib.Algebra.BigOperators.Fin
import Mathlib.Data.Fintype.BigOperators
import Mathlib.Algebra.BigOperators.Intervals
import Mathlib.Logic.Equiv.Fin.Basic

/-! Property C127, second part: the average number of comparator calls of a lookup, over all random levels. -/
namespace Gds.SkipList
variable {K V : Type}

/-! ### The rides of a lookup, entry by entry -/

/-- The towers ridden onto on level `i`. -/
def rideCount (go : K → Bool) (i : Nat) : List (Tower K V) → Nat
  | [] => 0
  | t :: ts => if t.height ≤ i then rideCount go i ts else if go t.key then rideCount go i ts + 1 else 0

/-- The towers behind the one where the ride on level `i` ends. -/
def rideRest (go : K → Bool) (i : Nat) (r : List (Tower K V)) : List (Tower K V) → List (Tower K V)
  | [] => r
  | t :: ts => if t.height ≤ i then rideRest go i r ts else if go t.key then rideRest go i ts ts else r

/-- The towers ridden onto on the levels below `i`. -/
def allRides (go : K → Bool) : Nat → List (Tower K V) → Nat
  | 0, _ => 0
  | i + 1, r => rideCount go i r + allRides go i (rideRest go i r r)

theorem ride_rest (go : K → Bool) (i : Nat) (ts : List (Tower K V)) : ∀ (c : Spot K V), (ride go i c ts).rest = rideRest go i c.rest ts := by
  induction ts with
  | nil => intro c; rfl
  | cons t ts ih =>
    intro c
    rw [ride, rideRest]
    split
    · exact ih c
    · split
      · exact ih _
      · rfl

theorem rideCalls_le (go : K → Bool) (i : Nat) (ts : List (Tower K V)) : rideCalls go i ts ≤ rideCount go i ts + 1 := by
  induction ts with
  | nil => simp [rideCalls]
  | cons t ts ih =>
    rw [rideCalls, rideCount]
    split
    · exact ih
    · split <;> omega

theorem seekCalls_le (comp : Compare K) (k : K) (i : Nat) (c : Spot K V) :
    seekCalls comp k i c ≤ allRides (fun x => comp x k != 1) i c.rest + 2 * i := by
  induction i generalizing c with
  | zero => simp [seekCalls]
  | succ i ih =>
    have h1 := rideCalls_le (fun x => comp x k != 1) i c.rest
    have h2 := ih (ride (fun x => comp x k != 1) i c c.rest)
    rw [ride_rest] at h2
    simp only [seekCalls, allRides]
    split <;> omega

/-- The highest level (plus one) on which there is a ride, and the number of towers ridden onto, front tower last. -/
def tally (go : K → Bool) (t : Tower K V) (p : Nat × Nat) : Nat × Nat :=
  if p.1 ≤ t.height then if go t.key then (t.height, p.2 + 1) else (0, 0) else p

theorem rideRest_count (go : K → Bool) (i : Nat) (ts : List (Tower K V)) (h : 1 ≤ rideCount go i ts) (r r' : List (Tower K V)) :
    rideRest go i r ts = rideRest go i r' ts := by
  induction ts with
  | nil => simp [rideCount] at h
  | cons t ts ih =>
    rw [rideCount] at h
    rw [rideRest, rideRest]
    split
    · rename_i ht; rw [if_pos ht] at h; exact ih h
    · rename_i ht; rw [if_neg ht] at h
      split
      · rfl
      · rename_i hg; rw [if_neg hg] at h; omega

theorem rideRest_none (go : K → Bool) (i : Nat) (ts : List (Tower K V)) (h : rideCount go i ts = 0) (r : List (Tower K V)) :
    rideRest go i r ts = r := by
  induction ts with
  | nil => rfl
  | cons t ts ih =>
    rw [rideCount] at h
    rw [rideRest]
    split
    · rename_i ht; rw [if_pos ht] at h; exact ih h
    · rename_i ht; rw [if_neg ht] at h
      split
      · rename_i hg; rw [if_pos hg] at h; omega
      · rfl

theorem allRides_high (go : K → Bool) (z : Nat) (ts : List (Tower K V)) (h : ∀ j, z ≤ j → rideCount go j ts = 0) (N : Nat) (hN : z ≤ N) :
    allRides go N ts = allRides go z ts := by
  induction N with
  | zero => have : z = 0 := by omega
            subst this; rfl
  | succ N ih =>
    by_cases hz : z = N + 1
    · rw [hz]
    · rw [allRides, h N (by omega), rideRest_none go N ts (h N (by omega)), Nat.zero_add, ih (by omega)]

/-- The rides of a lookup, read off entry by entry from the back of the row. -/
theorem allRides_tally (go : K → Bool) (T : List (Tower K V)) (hT : ∀ t ∈ T, 1 ≤ t.height) :
    (∀ j, (T.foldr (tally go) (0, 0)).1 ≤ j → rideCount go j T = 0) ∧
    allRides go (T.foldr (tally go) (0, 0)).1 T = (T.foldr (tally go) (0, 0)).2 ∧
    (∀ z, (T.foldr (tally go) (0, 0)).1 = z + 1 → 1 ≤ rideCount go z T) := by
  induction T with
  | nil => exact ⟨fun _ _ => rfl, rfl, fun z h => by simp at h⟩
  | cons t T ih =>
    obtain ⟨h1, h2, h3⟩ := ih (fun x hx => hT x (List.mem_cons_of_mem _ hx))
    have ht := hT t List.mem_cons_self
    rw [List.foldr_cons]
    generalize hp : T.foldr (tally go) (0, 0) = p at *
    obtain ⟨z, r⟩ := p
    simp only at h1 h2 h3
    unfold tally
    by_cases hz : z ≤ t.height
    · simp only [hz, if_true]
      by_cases hg : go t.key
      · simp only [hg, if_true]
        refine ⟨fun j hj => ?_, ?_, fun y hy => ?_⟩
        · rw [rideCount, if_pos hj]; exact h1 j (by omega)
        · obtain ⟨y, hy⟩ : ∃ y, t.height = y + 1 := ⟨t.height - 1, by omega⟩
          have e := allRides_high go z T h1 t.height hz
          rw [hy] at e ⊢
          rw [allRides] at e ⊢
          rw [rideCount, if_neg (by omega), if_pos hg, rideRest, if_neg (by omega), if_pos hg]
          omega
        · rw [rideCount, if_neg (by omega), if_pos hg]; omega
      · simp only [hg, if_false, Bool.false_eq_true]
        refine ⟨fun j _ => ?_, rfl, fun y hy => by omega⟩
        rw [rideCount]
        by_cases hj : t.height ≤ j
        · rw [if_pos hj]; exact h1 j (by omega)
        · rw [if_neg hj, if_neg hg]
    · simp only [hz, if_false]
      refine ⟨fun j hj => ?_, ?_, fun y hy => ?_⟩
      · rw [rideCount, if_pos (by omega)]; exact h1 j hj
      · obtain ⟨y, hy⟩ : ∃ y, z = y + 1 := ⟨z - 1, by omega⟩
        subst hy
        rw [allRides] at h2 ⊢
        rw [rideCount, if_pos (by omega), rideRest, if_pos (by omega), rideRest_count go y T (h3 y rfl) (t :: T) T]
        exact h2
      · rw [rideCount, if_pos (by omega)]; exact h3 y hy

theorem foldr_top (go : K → Bool) (T : List (Tower K V)) : (T.foldr (tally go) (0, 0)).1 ≤ top T := by
  induction T with
  | nil => simp
  | cons t T ih =>
    rw [List.foldr_cons, top]
    generalize T.foldr (tally go) (0, 0) = p at *
    unfold tally
    split
    · split
      · exact Nat.le_max_left _ _
      · simp
    · omega

theorem allRides_top (go : K → Bool) (T : List (Tower K V)) (hT : ∀ t ∈ T, 1 ≤ t.height) :
    allRides go (top T) T = (T.foldr (tally go) (0, 0)).2 := by
  obtain ⟨h1, h2, -⟩ := allRides_tally go T hT
  rw [allRides_high go _ T h1 _ (foldr_top go T), h2]

/-! ### In the order of insertion: entries as pairs of "passes" and height -/

/-- No later entry that does not pass is as high as the highest so far. -/
def alive (z : Nat) : List (Bool × Nat) → Bool
  | [] => true
  | (g, h) :: l => if z ≤ h then g && alive h l else alive z l

/-- The entries ridden onto whose height has a property. -/
def hits (p : Nat → Bool) (z : Nat) : List (Bool × Nat) → Nat
  | [] => 0
  | (g, h) :: l => if z ≤ h then if g then hits p h l + (if p h && alive h l then 1 else 0) else hits p 0 l else hits p z l

/-- One step of `tally`. -/
def tick (s : Nat × Nat) (e : Bool × Nat) : Nat × Nat := if s.1 ≤ e.2 then if e.1 then (e.2, s.2 + 1) else (0, 0) else s

theorem foldl_hits (l : List (Bool × Nat)) (z r : Nat) :
    (l.foldl tick (z, r)).2 = hits (fun _ => true) z l + if alive z l then r else 0 := by
  induction l generalizing z r with
  | nil => simp [hits, alive]
  | cons e l ih =>
    obtain ⟨g, h⟩ := e
    rw [List.foldl_cons, show tick (z, r) (g, h) = if z ≤ h then if g then (h, r + 1) else (0, 0) else (z, r) from rfl, hits, alive]
    by_cases hz : z ≤ h
    · cases g
      · simp [hz, ih]
      · simp only [hz, if_true, ih, Bool.true_and]
        cases alive h l <;> simp <;> omega
    · simp [hz, ih]

theorem hits_or (p q : Nat → Bool) (z : Nat) (l : List (Bool × Nat)) : hits (fun h => p h || q h) z l ≤ hits p z l + hits q z l := by
  induction l generalizing z with
  | nil => simp [hits]
  | cons e l ih =>
    obtain ⟨g, h⟩ := e
    unfold hits
    have a1 := ih h
    have a2 := ih 0
    have a3 := ih z
    by_cases hz : z ≤ h
    · cases g
      · simpa [hz] using a2
      · simp only [hz, if_true]
        cases hp : p h <;> cases hq : q h <;> simp <;> (try split) <;> omega
    · simpa [hz] using a3

theorem hits_levels (L z : Nat) (l : List (Bool × Nat)) (hl : ∀ e ∈ l, 1 ≤ e.2) :
    hits (fun _ => true) z l ≤ (∑ i ∈ Finset.range L, hits (fun h => h == i + 1) z l) + hits (fun h => decide (L < h)) z l := by
  have hcongr : ∀ (p q : Nat → Bool) (l : List (Bool × Nat)), (∀ e ∈ l, p e.2 = q e.2) → ∀ z, hits p z l = hits q z l := by
    intro p q l
    induction l with
    | nil => intros; rfl
    | cons e l ih =>
      intro h z
      obtain ⟨g, y⟩ := e
      unfold hits
      have h1 := ih (fun e he => h e (List.mem_cons_of_mem _ he))
      have h2 : p y = q y := h (g, y) List.mem_cons_self
      simp only [h1, h2]
  induction L with
  | zero =>
    rw [Finset.range_zero, Finset.sum_empty, Nat.zero_add]
    exact le_of_eq (hcongr _ _ l (fun e he => by have := hl e he; simp; omega) z)
  | succ L ih =>
    rw [Finset.sum_range_succ]
    have h := hits_or (fun h => h == L + 1) (fun h => decide (L + 1 < h)) z l
    have e := hcongr (fun h => decide (L < h)) (fun h => h == L + 1 || decide (L + 1 < h)) l (fun e _ => by
      rw [Bool.eq_iff_iff]; simp; omega) z
    rw [e] at ih
    omega

theorem hits_count (p : Nat → Bool) (z : Nat) (l : List (Bool × Nat)) : hits p z l ≤ l.countP (fun e => p e.2) := by
  induction l generalizing z with
  | nil => simp [hits]
  | cons e l ih =>
    obtain ⟨g, h⟩ := e
    rw [List.countP_cons]
    unfold hits
    have a1 := ih h
    have a2 := ih 0
    have a3 := ih z
    split
    · split
      · cases hp : p h <;> simp <;> (try split) <;> omega
      · omega
    · omega

theorem alive_mono (l : List (Bool × Nat)) : ∀ (z z' : Nat), z ≤ z' → alive z l = true → alive z' l = true := by
  induction l with
  | nil => intros; rfl
  | cons e l ih =>
    obtain ⟨g, h⟩ := e
    intro z z' hz ha
    unfold alive at ha ⊢
    by_cases h1 : z' ≤ h
    · rw [if_pos (by omega)] at ha; rwa [if_pos h1]
    · rw [if_neg h1]
      by_cases h2 : z ≤ h
      · rw [if_pos h2, Bool.and_eq_true] at ha
        exact ih h z' (by omega) ha.2
      · rw [if_neg h2] at ha; exact ih z z' hz ha

/-! ### Sums over all draws -/

section
variable {D : Type} [Fintype D]

/-- The sum over all lists of `n` draws. -/
def sumD : Nat → (List D → Nat) → Nat
  | 0, f => f []
  | n + 1, f => ∑ d : D, sumD n (fun ds => f (d :: ds))

theorem sumD_ofFn (n : Nat) (f : List D → Nat) : ∑ d : Fin n → D, f (List.ofFn d) = sumD n f := by
  induction n generalizing f with
  | zero => simp [sumD]
  | succ n ih =>
    rw [sumD, ← (Fin.consEquiv (fun _ => D)).sum_comp, Fintype.sum_prod_type]
    refine Finset.sum_congr rfl fun d _ => ?_
    rw [← ih]
    refine Finset.sum_congr rfl fun c _ => ?_
    congr 1
    simp [Fin.consEquiv, List.ofFn_succ]

theorem sumD_mono (n : Nat) (f g : List D → Nat) (h : ∀ ds, ds.length = n → f ds ≤ g ds) : sumD n f ≤ sumD n g := by
  induction n generalizing f g with
  | zero => exact h [] rfl
  | succ n ih => exact Finset.sum_le_sum fun d _ => ih _ _ fun ds hd => h (d :: ds) (by simp [hd])

theorem sumD_add (n : Nat) (f g : List D → Nat) : sumD n (fun ds => f ds + g ds) = sumD n f + sumD n g := by
  induction n generalizing f g with
  | zero => rfl
  | succ n ih => simp only [sumD, ih, Finset.sum_add_distrib]

theorem sumD_mul (n c : Nat) (f : List D → Nat) : sumD n (fun ds => c * f ds) = c * sumD n f := by
  induction n generalizing f with
  | zero => rfl
  | succ n ih => simp only [sumD, ih, Finset.mul_sum]

theorem sumD_const (n c : Nat) : sumD n (fun _ : List D => c) = c * Fintype.card D ^ n := by
  induction n with
  | zero => simp [sumD]
  | succ n ih => simp only [sumD, ih, Finset.sum_const, Finset.card_univ, smul_eq_mul, Nat.pow_succ]; rw [← Nat.mul_assoc, Nat.mul_comm (Fintype.card D) c, Nat.mul_assoc, Nat.mul_comm (Fintype.card D)]

theorem sumD_finset (n : Nat) (s : Finset Nat) (f : Nat → List D → Nat) : sumD n (fun ds => ∑ i ∈ s, f i ds) = ∑ i ∈ s, sumD n (f i) := by
  induction n generalizing f with
  | zero => rfl
  | succ n ih => simp only [sumD, ih]; exact Finset.sum_comm

/-- A number that depends on one draw, added up over a list: every place contributes the same. -/
theorem sumD_each (n : Nat) (w : D → Nat) :
    Fintype.card D * sumD n (fun ds => (ds.map w).sum) = n * (∑ d, w d) * Fintype.card D ^ n := by
  induction n with
  | zero => simp [sumD]
  | succ n ih =>
    simp only [sumD, List.map_cons, List.sum_cons, sumD_add, sumD_const, Finset.sum_add_distrib, Finset.sum_const, Finset.card_univ, smul_eq_mul]
    rw [Nat.mul_add, ih, ← Finset.sum_mul, Nat.pow_succ]
    ring

/-- The entries of an insertion order: which of them pass, and the heights from the draws. -/
def pairs (hgt : D → Nat) : List Bool → List D → List (Bool × Nat)
  | g :: gs, d :: ds => (g, hgt d) :: pairs hgt gs ds
  | _, _ => []

theorem sumD_lift (n : Nat) (a : Nat) (f g : List D → Nat) (h : ∀ ds, ds.length = n → f ds ≤ a * g ds) : sumD n f ≤ a * sumD n g := by
  rw [← sumD_mul]; exact sumD_mono n f _ h

/-- On level `i`, a lookup rides onto fewer than `a / c` entries on average, where `a` draws give level `i + 1` and `c` more. -/
theorem sum_hits (hgt : D → Nat) (i a c : Nat) (ha : (Finset.univ.filter (fun d => hgt d = i + 1)).card = a)
    (hc : (Finset.univ.filter (fun d => i + 1 < hgt d)).card = c) (gs : List Bool) :
    (∀ z, z ≤ i + 1 → c * sumD gs.length (fun ds => hits (fun h => h == i + 1) z (pairs hgt gs ds)) ≤ a * Fintype.card D ^ gs.length) ∧
    (∀ z, i + 1 < z → c * sumD gs.length (fun ds => hits (fun h => h == i + 1) z (pairs hgt gs ds)) +
      a * sumD gs.length (fun ds => if alive z (pairs hgt gs ds) then 1 else 0) ≤ a * Fintype.card D ^ gs.length) := by
  induction gs with
  | nil => exact ⟨fun z _ => by simp [sumD, pairs, hits], fun z _ => by simp [sumD, pairs, hits, alive]⟩
  | cons g gs ih =>
    obtain ⟨h1, h2⟩ := ih
    have hall : ∀ z, c * sumD gs.length (fun ds => hits (fun h => h == i + 1) z (pairs hgt gs ds)) ≤ a * Fintype.card D ^ gs.length := by
      intro z
      by_cases hz : z ≤ i + 1
      · exact h1 z hz
      · have := h2 z (by omega); omega
    have hpow : a * Fintype.card D ^ (g :: gs).length = ∑ _d : D, a * Fintype.card D ^ gs.length := by
      rw [Finset.sum_const, Finset.card_univ, smul_eq_mul, List.length_cons, Nat.pow_succ]; ring
    refine ⟨fun z hz => ?_, fun z hz => ?_⟩
    · rw [hpow, List.length_cons, sumD, Finset.mul_sum]
      cases g with
      | false =>
        refine Finset.sum_le_sum fun d _ => ?_
        simp only [pairs, hits]
        by_cases hh : z ≤ hgt d
        · simp only [hh, if_true, Bool.false_eq_true, if_false]; exact hall 0
        · simp only [hh, if_false]; exact hall z
      | true =>
        generalize hS : sumD gs.length (fun ds => if alive (i + 1) (pairs hgt gs ds) then 1 else 0) = S at *
        have key : ∀ d : D, c * sumD gs.length (fun ds => hits (fun h => h == i + 1) z (pairs hgt (true :: gs) (d :: ds))) +
            (if i + 1 < hgt d then a * S else 0) ≤ a * Fintype.card D ^ gs.length + (if hgt d = i + 1 then c * S else 0) := by
          intro d
          simp only [pairs, hits]
          by_cases hh : z ≤ hgt d
          · simp only [hh, if_true]
            rw [sumD_add, Nat.mul_add]
            have b := hall (hgt d)
            by_cases e1 : hgt d = i + 1
            · rw [if_neg (by omega), if_pos e1]
              simp only [e1, beq_self_eq_true, Bool.true_and, hS]
              rw [e1] at b
              omega
            · have e0 : (hgt d == i + 1) = false := by simpa using e1
              simp only [e0, Bool.false_and, Bool.false_eq_true, if_false, e1, sumD_const, Nat.zero_mul, Nat.mul_zero, Nat.add_zero]
              by_cases e2 : i + 1 < hgt d
              · rw [if_pos e2]
                have b2 := h2 (hgt d) e2
                have b3 : S ≤ sumD gs.length (fun ds => if alive (hgt d) (pairs hgt gs ds) then 1 else 0) := by
                  rw [← hS]
                  refine sumD_mono _ _ _ fun ds _ => ?_
                  by_cases al : alive (i + 1) (pairs hgt gs ds) = true
                  · rw [if_pos al, if_pos (alive_mono _ _ _ (by omega) al)]
                  · rw [if_neg al]; exact Nat.zero_le _
                have b4 := Nat.mul_le_mul_left a b3
                omega
              · rw [if_neg e2]; omega
          · simp only [hh, if_false]
            rw [if_neg (by omega)]
            have := hall z
            omega
        have hsum := Finset.sum_le_sum (fun d (_ : d ∈ (Finset.univ : Finset D)) => key d)
        rw [Finset.sum_add_distrib, Finset.sum_add_distrib, ← Finset.sum_filter, ← Finset.sum_filter, Finset.sum_const (a * S), Finset.sum_const (c * S), ha, hc,
          smul_eq_mul, smul_eq_mul] at hsum
        have : a * (c * S) = c * (a * S) := by ring
        omega
    · rw [hpow, List.length_cons, sumD, sumD, Finset.mul_sum, Finset.mul_sum, ← Finset.sum_add_distrib]
      refine Finset.sum_le_sum fun d _ => ?_
      simp only [pairs, hits, alive]
      by_cases hh : z ≤ hgt d
      · cases g with
        | false =>
          simp only [hh, if_true, Bool.false_eq_true, if_false, Bool.false_and, sumD_const, Nat.zero_mul, Nat.mul_zero, Nat.add_zero]
          exact hall 0
        | true =>
          have e0 : (hgt d == i + 1) = false := by simp; omega
          simp only [hh, if_true, e0, Bool.false_and, Bool.true_and, Bool.false_eq_true, if_false, Nat.add_zero]
          exact h2 (hgt d) (by omega)
      · simp only [hh, if_false]; exact h2 z hz

/-- Heights above `m`, added up: level by level. -/
theorem sum_above (hgt : D → Nat) (h32 : ∀ d, hgt d ≤ 32) (m : Nat) (hm : m ≤ 32) :
    ∑ d, (hgt d - m) = ∑ j ∈ Finset.Ico m 32, (Finset.univ.filter (fun d => j < hgt d)).card := by
  simp only [Finset.card_filter]
  rw [Finset.sum_comm]
  refine Finset.sum_congr rfl fun d _ => ?_
  rw [← Finset.card_filter]
  have : (Finset.Ico m 32).filter (fun j => j < hgt d) = Finset.Ico m (hgt d) := by
    ext j; have := h32 d; simp only [Finset.mem_filter, Finset.mem_Ico]; omega
  rw [this, Nat.card_Ico]

theorem sum_tail (f : Nat → Nat) (U L : Nat) (h : ∀ j, L ≤ j → j < 32 → 2 ^ j * f j ≤ U) :
    ∀ k m, m + k = 32 → L ≤ m → 2 ^ m * ∑ j ∈ Finset.Ico m 32, f j ≤ 2 * U := by
  intro k
  induction k with
  | zero => intro m hm _; have : m = 32 := by omega
            subst this; simp
  | succ k ih =>
    intro m hm hL
    have a := ih (m + 1) (by omega) (by omega)
    have b := h m hL (by omega)
    rw [Nat.pow_succ] at a
    rw [Finset.sum_eq_sum_Ico_succ_bot (by omega), Nat.mul_add]
    have c : 2 ^ m * 2 * (∑ j ∈ Finset.Ico (m + 1) 32, f j) = 2 * (2 ^ m * ∑ j ∈ Finset.Ico (m + 1) 32, f j) := by ring
    omega

theorem pairs_heights (hgt : D → Nat) (gs : List Bool) (ds : List D) (e : Bool × Nat) (h : e ∈ pairs hgt gs ds) : ∃ d, e.2 = hgt d := by
  induction gs generalizing ds with
  | nil => simp [pairs] at h
  | cons g gs ih =>
    cases ds with
    | nil => simp [pairs] at h
    | cons d ds =>
      rw [pairs, List.mem_cons] at h
      rcases h with rfl | h
      · exact ⟨d, rfl⟩
      · exact ih ds h

theorem pairs_countP (hgt : D → Nat) (p : Nat → Bool) (gs : List Bool) (ds : List D) :
    (pairs hgt gs ds).countP (fun e => p e.2) ≤ (ds.map (fun d => if p (hgt d) then 1 else 0)).sum := by
  induction gs generalizing ds with
  | nil => simp [pairs]
  | cons g gs ih =>
    cases ds with
    | nil => simp [pairs]
    | cons d ds =>
      have := ih ds
      rw [pairs, List.countP_cons, List.map_cons, List.sum_cons]
      dsimp only
      omega

theorem sum_lookup (hgt : D → Nat) (U L : Nat) (hU : Fintype.card D = U) (h1 : ∀ d, 1 ≤ hgt d) (h32 : ∀ d, hgt d ≤ 32) (hL : L ≤ 31)
    (hac : ∀ i, i < L → 0 < (Finset.univ.filter (fun d => i + 1 < hgt d)).card ∧
      (Finset.univ.filter (fun d => hgt d = i + 1)).card ≤ 2 * (Finset.univ.filter (fun d => i + 1 < hgt d)).card)
    (ht : ∀ j, L ≤ j → j < 32 → 2 ^ j * (Finset.univ.filter (fun d => j < hgt d)).card ≤ U) (gs : List Bool) (hn : gs.length ≤ 2 ^ L) :
    sumD gs.length (fun ds => hits (fun _ => true) 0 (pairs hgt gs ds) + 2 * (L + 1 + (ds.map (fun d => hgt d - (L + 1))).sum)) ≤
      (4 * L + 5) * U ^ gs.length := by
  by_cases hU0 : U = 0
  · have hE : IsEmpty D := Fintype.card_eq_zero_iff.1 (hU.trans hU0)
    cases gs with
    | nil => simp [sumD, hits, pairs]; omega
    | cons g gs => simp [sumD]
  have hU1 : 0 < U := by omega
  -- the rides below level L
  have e1 : ∀ i ∈ Finset.range L, sumD gs.length (fun ds => hits (fun h => h == i + 1) 0 (pairs hgt gs ds)) ≤ 2 * U ^ gs.length := by
    intro i hi
    obtain ⟨c0, ac⟩ := hac i (Finset.mem_range.1 hi)
    have h := (sum_hits hgt i _ _ rfl rfl gs).1 0 (by omega)
    rw [hU] at h
    generalize (Finset.univ.filter (fun d => i + 1 < hgt d)).card = c at *
    generalize (Finset.univ.filter (fun d => hgt d = i + 1)).card = a at *
    have h' := h.trans (Nat.mul_le_mul_right (U ^ gs.length) ac)
    refine Nat.le_of_mul_le_mul_left (h'.trans (le_of_eq ?_)) c0
    ring
  have e1' := Finset.sum_le_sum e1
  rw [Finset.sum_const, Finset.card_range, smul_eq_mul] at e1'
  -- the rides above
  have e2 : sumD gs.length (fun ds : List D => (ds.map (fun d => if decide (L < hgt d) then 1 else 0)).sum) ≤ U ^ gs.length := by
    have h := sumD_each gs.length (fun d : D => if decide (L < hgt d) then 1 else 0)
    rw [hU] at h
    have hs : ∑ d : D, (if decide (L < hgt d) then 1 else 0) = (Finset.univ.filter (fun d => L < hgt d)).card := by
      rw [Finset.card_filter]; simp only [decide_eq_true_eq]
    rw [hs] at h
    have hb := ht L (Nat.le_refl _) (by omega)
    have hc : gs.length * (Finset.univ.filter (fun d => L < hgt d)).card ≤ U := (Nat.mul_le_mul_right _ hn).trans hb
    exact Nat.le_of_mul_le_mul_left (h.le.trans (Nat.mul_le_mul_right _ hc)) hU1
  -- the levels in use
  have e3 : sumD gs.length (fun ds : List D => (ds.map (fun d => hgt d - (L + 1))).sum) ≤ U ^ gs.length := by
    have h := sumD_each gs.length (fun d : D => hgt d - (L + 1))
    rw [hU, sum_above hgt h32 (L + 1) (by omega)] at h
    have hb := sum_tail (fun j => (Finset.univ.filter (fun d => j < hgt d)).card) U L ht (32 - (L + 1)) (L + 1) (by omega) (by omega)
    generalize ∑ j ∈ Finset.Ico (L + 1) 32, (Finset.univ.filter (fun d => j < hgt d)).card = S at *
    have hc : gs.length * S ≤ U := by
      have h1 := Nat.mul_le_mul_right S hn
      rw [Nat.pow_succ] at hb
      have : 2 ^ L * 2 * S = 2 * (2 ^ L * S) := by ring
      omega
    exact Nat.le_of_mul_le_mul_left (h.le.trans (Nat.mul_le_mul_right _ hc)) hU1
  -- together
  have e4 : sumD gs.length (fun ds => hits (fun _ => true) 0 (pairs hgt gs ds)) ≤ L * (2 * U ^ gs.length) + U ^ gs.length := by
    refine (sumD_mono _ _ (fun ds => (∑ i ∈ Finset.range L, hits (fun h => h == i + 1) 0 (pairs hgt gs ds)) +
      (ds.map (fun d => if decide (L < hgt d) then 1 else 0)).sum) fun ds _ => ?_).trans ?_
    · refine (hits_levels L 0 (pairs hgt gs ds) (fun e he => ?_)).trans (Nat.add_le_add_left ?_ _)
      · obtain ⟨d, hd⟩ := pairs_heights hgt gs ds e he; rw [hd]; exact h1 d
      · exact (hits_count _ _ _).trans (pairs_countP hgt (fun h => decide (L < h)) gs ds)
    · rw [sumD_add, sumD_finset]; exact Nat.add_le_add e1' e2
  rw [sumD_add, sumD_mul, sumD_add, sumD_const, hU]
  generalize U ^ gs.length = W at *
  have g1 : L * (2 * W) = 2 * (L * W) := by ring
  have g2 : (L + 1) * W = L * W + W := by ring
  have g3 : (4 * L + 5) * W = 4 * (L * W) + 5 * W := by ring
  rw [g1] at e4
  rw [g2, g3]
  omega

end

/-! ### The skip list -/

noncomputable instance : Fintype UInt64 := Fintype.ofEquiv (Fin UInt64.size) ⟨UInt64.ofFin, UInt64.toFin, fun _ => rfl, fun _ => rfl⟩

theorem card_uint64 : Fintype.card UInt64 = 2 ^ 64 := by
  rw [Fintype.ofEquiv_card, Fintype.card_fin]; rfl

/-- The entries `es`, with a random number drawn for each. -/
def drawn (es : List (K × V)) (ds : List UInt64) : List (K × V × UInt64) := List.zipWith (fun e d => (e.1, e.2, d)) es ds

theorem drawn_calls (es : List (K × V)) (ds : List UInt64) (h : ds.length = es.length) : calls (drawn es ds) = es := by
  induction es generalizing ds with
  | nil => simp [drawn, calls]
  | cons e es ih =>
    cases ds with
    | nil => simp at h
    | cons d ds =>
      have := ih ds (by simpa using h)
      simp only [drawn, calls, List.zipWith_cons_cons, List.map_cons] at this ⊢
      rw [this]

theorem foldl_drawn (go : K → Bool) (es : List (K × V)) (ds : List UInt64) (s : Nat × Nat) :
    ((drawn es ds).map (fun e => (⟨e.1, e.2.1, heightOf e.2.2⟩ : Tower K V))).foldl (fun s t => tally go t s) s =
      (pairs heightOf (es.map (fun e => go e.1)) ds).foldl tick s := by
  induction es generalizing ds s with
  | nil => simp [drawn, pairs]
  | cons e es ih =>
    cases ds with
    | nil => simp [drawn, pairs]
    | cons d ds =>
      have := ih ds (tick s (go e.1, heightOf d))
      simp only [drawn, List.zipWith_cons_cons, List.map_cons, List.foldl_cons, pairs] at this ⊢
      rw [← this]
      rfl

theorem top_drawn (es : List (K × V)) (ds : List UInt64) (m : Nat) :
    top (rowRev (drawn es ds)) ≤ m + 1 + (ds.map (fun d => heightOf d - (m + 1))).sum := by
  unfold rowRev
  have hrev : ∀ T : List (Tower K V), top T.reverse = top T := by
    intro T
    induction T with
    | nil => rfl
    | cons t T ih => rw [List.reverse_cons, top_append, ih, top, top, top]; have := top_pos T; omega
  rw [hrev]
  induction es generalizing ds with
  | nil => simp [drawn, top]; omega
  | cons e es ih =>
    cases ds with
    | nil => simp [drawn, top]
    | cons d ds =>
      have := ih ds
      simp only [drawn, List.zipWith_cons_cons, List.map_cons, List.sum_cons, top] at this ⊢
      omega

theorem filter_card (p : UInt64 → Prop) [DecidablePred p] : (Finset.univ.filter p).card = Nat.card {d // p d} := by
  rw [Nat.card_eq_fintype_card, Fintype.card_subtype]

theorem card_level (l : Nat) (h1 : 1 ≤ l) (h32 : l ≤ 32) :
    (Finset.univ.filter (fun d => heightOf d = l)).card = 2 ^ (32 - l) * (2 ^ 32 + 1) + if l = 32 then 1 else 0 := by
  rw [filter_card, ← level_count l h1 h32]
  simp only [randomLevel_exact, Res.ok.injEq]

theorem card_tail (l : Nat) (h : l ≤ 31) : (Finset.univ.filter (fun d => l < heightOf d)).card = (2 ^ (32 - l) - 1) * (2 ^ 32 + 1) + 1 := by
  rw [filter_card, ← level_tail l h]
  simp only [randomLevel_exact, Res.ok.injEq, exists_eq_left']

/-- C127: `Put` up to `2^L` entries with different keys, in any order, into a new list, and look any key up: the number of comparator calls,
added up over all the numbers the random generator can return for the entries, is at most `4 * L + 5` times the number of these outcomes. -/
theorem average_calls (comp : Compare K) (zk : K) (zv : V) (es : List (K × V)) (hd : es.Pairwise (fun a b => comp a.1 b.1 ≠ 0)) (k : K)
    (L : Nat) (hL : L ≤ 31) (hn : es.length ≤ 2 ^ L) :
    ∃ n : (Fin es.length → UInt64) → Nat,
      (∀ d, ∃ s v, run comp zk zv (new zk zv) (puts (drawn es (List.ofFn d))) = .ok s ∧
        getE (counted (fun a b e => (comp a b, e))) s k (0, ()) = .ok (v, (n d, ()))) ∧
      ∑ d, n d ≤ (4 * L + 5) * Fintype.card (Fin es.length → UInt64) := by
  have hex : ∀ ds : List UInt64, ds.length = es.length → ∃ s v, run comp zk zv (new zk zv) (puts (drawn es ds)) = .ok s ∧
      getE (counted (fun a b e => (comp a b, e))) s k (0, ()) =
        .ok (v, (seekCalls comp k (top (rowRev (drawn es ds))) (start zk zv (rowRev (drawn es ds))), ())) := by
    intro ds hl
    obtain ⟨s, e, B, -⟩ := puts_distinct comp zk zv (drawn es ds) (by rw [drawn_calls es ds hl]; exact hd)
    obtain ⟨v, g, -⟩ := get_calls B comp k
    exact ⟨s, v, e, g⟩
  refine ⟨fun d => seekCalls comp k (top (rowRev (drawn es (List.ofFn d)))) (start zk zv (rowRev (drawn es (List.ofFn d)))),
    fun d => hex (List.ofFn d) (by simp), ?_⟩
  rw [sumD_ofFn es.length (fun ds => seekCalls comp k (top (rowRev (drawn es ds))) (start zk zv (rowRev (drawn es ds)))), Fintype.card_fun, Fintype.card_fin]
  have hgs : (es.map (fun e => comp e.1 k != 1)).length = es.length := by simp
  have main := sum_lookup heightOf (2 ^ 64) L card_uint64 (fun d => (heightOf_range d).1) (fun d => (heightOf_range d).2) hL
    (fun i hi => by
      rw [card_level (i + 1) (by omega) (by omega), card_tail (i + 1) (by omega), if_neg (by omega)]
      have : 2 ^ 1 ≤ 2 ^ (32 - (i + 1)) := Nat.pow_le_pow_right (by decide) (by omega)
      generalize 2 ^ (32 - (i + 1)) = x at *
      constructor <;> omega)
    (fun j _ hj => by
      rw [card_tail j (by omega)]
      have e : 2 ^ j * 2 ^ (32 - j) = 2 ^ 32 := by rw [← Nat.pow_add]; congr 1; omega
      have h1 := Nat.one_le_two_pow (n := 32 - j)
      have h2 := Nat.one_le_two_pow (n := j)
      have h3 : 2 ^ j ≤ 2 ^ 32 := Nat.pow_le_pow_right (by decide) (by omega)
      generalize 2 ^ (32 - j) = x at *
      generalize 2 ^ j = y at *
      obtain ⟨x, rfl⟩ : ∃ x', x = x' + 1 := ⟨x - 1, by omega⟩
      rw [Nat.add_sub_cancel]
      have : y * (x * (2 ^ 32 + 1) + 1) = (y * (x + 1)) * (2 ^ 32 + 1) - y * 2 ^ 32 := by
        have : (y * (x + 1)) * (2 ^ 32 + 1) = y * (x * (2 ^ 32 + 1) + 1) + y * 2 ^ 32 := by ring
        omega
      rw [this, e]
      omega)
    (es.map (fun e => comp e.1 k != 1)) (by rw [hgs]; exact hn)
  rw [hgs] at main
  rw [card_uint64]
  refine (sumD_mono _ _ _ fun ds hl => ?_).trans main
  refine (seekCalls_le comp k _ _).trans ?_
  have hr : allRides (fun x => comp x k != 1) (top (rowRev (drawn es ds))) (rowRev (drawn es ds)) =
      hits (fun _ => true) 0 (pairs heightOf (es.map (fun e => comp e.1 k != 1)) ds) := by
    rw [allRides_top]
    · unfold rowRev
      rw [List.foldr_reverse, foldl_drawn, foldl_hits]
      simp
    · intro t ht
      unfold rowRev at ht
      rw [List.mem_reverse, List.mem_map] at ht
      obtain ⟨e, -, rfl⟩ := ht
      exact (heightOf_range _).1
  have ht := top_drawn es ds L
  show allRides _ _ (rowRev (drawn es ds)) + _ ≤ _
  rw [hr]
  omega

/-- A list of three entries: on average at most 13 calls. -/
example (es : List (Nat × String)) (h : es = [(5, "a"), (9, "b"), (7, "c")]) : ∃ n : (Fin es.length → UInt64) → Nat,
    (∀ d, ∃ s v, run (Fn.comp (T := Nat)) 0 "" (new 0 "") (puts (drawn es (List.ofFn d))) = .ok s ∧
      getE (counted (fun a b e => (Fn.comp a b, e))) s 7 (0, ()) = .ok (v, (n d, ()))) ∧
    ∑ d, n d ≤ 13 * Fintype.card (Fin es.length → UInt64) :=
  average_calls (Fn.comp (T := Nat)) 0 "" es (by rw [h]; decide) 7 2 (by decide) (by rw [h]; decide)

end Gds.SkipList
