import Verif.PQ.Props
import Verif.Go.EComp
import Mathlib.Data.Nat.Log

/-! Property C123: the priority queue under any comparator at all — one without laws, with state of its own, answering at random — and how
often it calls the comparator. -/
namespace Gds.PQ
variable {T E : Type}

/-- priorityqueue.go:64-73 `percolateUp`, with the calls of `comp` in the order of the code. -/
def percolateUpE (cmp : EComp T E) (e : E) (q : Queue T) (pos : Nat) : Res (Queue T × E) := do
  let i := (Int.tdiv ((pos : Int) - 1) 2).toNat
  if i = pos then pure (q, e)
  else
    let a ← q.get pos
    let b ← q.get i
    let r := cmp a b e
    if r.1 ≥ 0 then pure (q, r.2)
    else
      let q ← q.swap i pos
      percolateUpE cmp r.2 q i
partial_fixpoint

/-- priorityqueue.go:82-85: the smaller child. -/
def minChildE (cmp : EComp T E) (e : E) (q : Queue T) (j1 n : Nat) : Res (Nat × E) := do
  let j2 := j1 + 1
  if j2 < n then
    let a ← q.get j2
    let b ← q.get j1
    let r := cmp a b e
    if r.1 < 0 then pure (j2, r.2) else pure (j1, r.2)
  else pure (j1, e)

/-- priorityqueue.go:75-94 `percolateDown`. -/
def percolateDownE (cmp : EComp T E) (e : E) (q : Queue T) (i n : Nat) : Res (Queue T × E) := do
  let j1 := 2 * i + 1
  if j1 ≥ n then pure (q, e)
  else
    let je ← minChildE cmp e q j1 n
    let a ← q.get je.1
    let b ← q.get i
    let r := cmp a b je.2
    if r.1 ≥ 0 then pure (q, r.2)
    else
      let q ← q.swap i je.1
      percolateDownE cmp r.2 q je.1 n
partial_fixpoint

/-- priorityqueue.go:40-49 `Push`. -/
def pushE (cmp : EComp T E) (e : E) (q : Queue T) (val : T) : Res (Queue T × E) := do
  let q ← if q.size ≥ q.len then
      pure { q with cell := fun k => if k = q.len then val else q.cell k, len := q.len + 1 }
    else q.set q.size val
  let q := { q with size := q.size + 1 }
  percolateUpE cmp e q (q.size - 1)

/-- priorityqueue.go:51-62 `Pop`. -/
def popE (cmp : EComp T E) (e : E) (q : Queue T) : Res (Option T × Queue T × E) := do
  if q.size = 0 then pure (none, q, e)
  else
    let n := q.size - 1
    let q ← q.swap 0 n
    let qe ← percolateDownE cmp e q 0 n
    let q := { qe.1 with size := qe.1.size - 1 }
    let val ← q.get q.size
    pure (some val, q, qe.2)

/-- One call (priorityqueue.go:40-105). -/
def stepE (cmp : EComp T E) (e : E) (q : Queue T) : Op T → Res (Queue T × Out T × E)
  | .push x => do let r ← pushE cmp e q x; pure (r.1, .pushed, r.2)
  | .pop => do let r ← popE cmp e q; pure (r.2.1, .val r.1, r.2.2)
  | .peek => do let r ← peek q; pure (q, .val r, e)
  | .len => pure (q, .num q.length, e)

/-- A history (priorityqueue.go:40-105). -/
def runE (cmp : EComp T E) (e : E) : Queue T → List (Op T) → Res (Queue T × List (Out T) × E)
  | q, [] => pure (q, [], e)
  | q, op :: ops => do
    let r ← stepE cmp e q op
    let r2 ← runE cmp r.2.2 r.1 ops
    pure (r2.1, r.2.1 :: r2.2.1, r2.2.2)

/-! ### Specification -/

/-- One operation on the bag `s` answers `o` and leaves `s'`, when nothing is known of the order. -/
inductive BagStep : List T → Op T → Out T → List T → Prop where
  | push {s x s'} : s'.Perm (x :: s) → BagStep s (.push x) .pushed s'
  | popEmpty : BagStep [] .pop (.val none) []
  | pop {s x s'} : s.Perm (x :: s') → BagStep s .pop (.val (some x)) s'
  | peekEmpty : BagStep [] .peek (.val none) []
  | peek {s x} : x ∈ s → BagStep s .peek (.val (some x)) s
  | len {s} : BagStep s .len (.num s.length) s

/-- A history. -/
inductive BagRun : List T → List (Op T) → List (Out T) → List T → Prop where
  | nil {s} : BagRun s [] [] s
  | cons {s op o s' ops os s''} : BagStep s op o s' → BagRun s' ops os s'' → BagRun s (op :: ops) (o :: os) s''

/-- The number of comparator calls one operation may make on a queue of `n` elements. -/
def callBound (n : Nat) : Op T → Nat
  | .push _ => Nat.log 2 (n + 1)
  | .pop => 2 * Nat.log 2 (n - 1)
  | .peek => 0
  | .len => 0

/-! ### Without state it is the model of C16 -/

theorem percolateUpE_pure (cmp : Compare T) (g : T → T → E → E) (pos : Nat) : ∀ (e : E) (q : Queue T),
    (do let r ← percolateUpE (fun a b e => (cmp a b, g a b e)) e q pos; pure r.1) = percolateUp cmp q pos := by
  induction pos using Nat.strongRecOn with
  | _ pos ih =>
    intro e q
    rw [percolateUpE, percolateUp]
    simp only [tdiv_par]
    by_cases h0 : par pos = pos
    · simp [h0]
    · have hpp : par pos < pos := by simp only [par] at *; omega
      simp only [h0, if_false]
      cases q.get pos with
      | panic => rfl
      | hang => rfl
      | ok a =>
        cases q.get (par pos) with
        | panic => rfl
        | hang => rfl
        | ok b =>
          simp only [Res.bind_ok]
          by_cases hc : cmp a b ≥ 0
          · simp [hc]
          · simp only [hc, if_false]
            cases q.swap (par pos) pos with
            | panic => rfl
            | hang => rfl
            | ok q' => simp only [Res.bind_ok]; exact ih _ hpp _ _

theorem minChildE_pure (cmp : Compare T) (g : T → T → E → E) (e : E) (q : Queue T) (j n : Nat) :
    (do let r ← minChildE (fun a b e => (cmp a b, g a b e)) e q j n; pure r.1) = minChild cmp q j n := by
  unfold minChildE minChild
  by_cases h : j + 1 < n
  · simp only [h, if_true]
    cases q.get (j + 1) with
    | panic => rfl
    | hang => rfl
    | ok a =>
      cases q.get j with
      | panic => rfl
      | hang => rfl
      | ok b => simp only [Res.bind_ok]; split <;> rfl
  · simp [h]

theorem minChild_ge {cmp : Compare T} {q : Queue T} {j n k : Nat} (h : minChild cmp q j n = .ok k) : j ≤ k ∧ (j < n → k < n) := by
  unfold minChild at h
  by_cases hj : j + 1 < n
  · simp only [hj, if_true] at h
    cases h1 : q.get (j + 1) with
    | panic => rw [h1] at h; cases h
    | hang => rw [h1] at h; cases h
    | ok a =>
      cases h2 : q.get j with
      | panic => rw [h1, h2] at h; cases h
      | hang => rw [h1, h2] at h; cases h
      | ok b =>
        rw [h1, h2] at h
        simp only [Res.bind_ok] at h
        split at h <;> simp at h <;> omega
  · simp [hj] at h; omega

theorem percolateDownE_pure (cmp : Compare T) (g : T → T → E → E) (n : Nat) : ∀ (m i : Nat), n - i = m → ∀ (e : E) (q : Queue T),
    (do let r ← percolateDownE (fun a b e => (cmp a b, g a b e)) e q i n; pure r.1) = percolateDown cmp q i n := by
  intro m
  induction m using Nat.strongRecOn with
  | _ m ih =>
    intro i hm e q
    rw [percolateDownE, percolateDown]
    by_cases h0 : 2 * i + 1 ≥ n
    · simp [h0]
    · simp only [h0, if_false]
      rw [← minChildE_pure cmp g e q (2 * i + 1) n]
      cases hj : minChildE (fun a b e => (cmp a b, g a b e)) e q (2 * i + 1) n with
      | panic => rfl
      | hang => rfl
      | ok je =>
        obtain ⟨j, e'⟩ := je
        have hj' : minChild cmp q (2 * i + 1) n = .ok j := by rw [← minChildE_pure cmp g e, hj]; rfl
        have hge := minChild_ge hj'
        simp only [Res.bind_ok, Res.pure_eq]
        cases q.get j with
        | panic => rfl
        | hang => rfl
        | ok a =>
          cases q.get i with
          | panic => rfl
          | hang => rfl
          | ok b =>
            simp only [Res.bind_ok]
            by_cases hc : cmp a b ≥ 0
            · simp [hc]
            · simp only [hc, if_false]
              cases q.swap i j with
              | panic => rfl
              | hang => rfl
              | ok q' => simp only [Res.bind_ok]; exact ih (n - j) (by omega) j rfl _ _

/-- C123: for a comparator whose answers depend on its arguments alone — whatever else it does — a history is the history of the model
of C16. -/
theorem runE_pure (cmp : Compare T) (g : T → T → E → E) : ∀ (ops : List (Op T)) (e : E) (q : Queue T),
    (do let r ← runE (fun a b e => (cmp a b, g a b e)) e q ops; pure (r.1, r.2.1)) = run cmp q ops
  | [], _, _ => rfl
  | op :: ops, e, q => by
    have hs : ∀ e, (do let r ← stepE (fun a b e => (cmp a b, g a b e)) e q op; pure (r.1, r.2.1)) = step cmp q op := by
      intro e
      cases op with
      | push x =>
        simp only [stepE, step, pushE, push]
        by_cases hl : q.size ≥ q.len
        · simp only [hl, if_true, Res.pure_eq, Res.bind_ok]
          rw [← percolateUpE_pure cmp g _ e]
          cases percolateUpE _ e _ _ <;> rfl
        · simp only [hl, if_false]
          cases q.set q.size x with
          | panic => rfl
          | hang => rfl
          | ok q1 =>
            simp only [Res.bind_ok]
            rw [← percolateUpE_pure cmp g _ e]
            cases percolateUpE _ e _ _ <;> rfl
      | pop =>
        simp only [stepE, step, popE, pop]
        by_cases h0 : q.size = 0
        · simp [h0]
        · simp only [h0, if_false]
          cases q.swap 0 (q.size - 1) with
          | panic => rfl
          | hang => rfl
          | ok q1 =>
            simp only [Res.bind_ok]
            rw [← percolateDownE_pure cmp g (q.size - 1) _ 0 rfl e q1]
            cases percolateDownE _ e q1 0 (q.size - 1) with
            | panic => rfl
            | hang => rfl
            | ok r =>
              simp only [Res.bind_ok, Res.pure_eq]
              cases Queue.get _ _ <;> rfl
      | peek => simp only [stepE, step]; cases peek q <;> rfl
      | len => rfl
    simp only [runE, run]
    rw [← hs e]
    cases stepE _ e q op with
    | panic => rfl
    | hang => rfl
    | ok r =>
      simp only [Res.bind_ok, Res.pure_eq]
      rw [← runE_pure cmp g ops r.2.2 r.1]
      cases runE _ r.2.2 r.1 ops <;> rfl

/-! ### Any comparator -/

theorem log_half {n : Nat} (h : 2 ≤ n) : Nat.log 2 (n / 2) + 1 = Nat.log 2 n := (Nat.log_of_one_lt_of_le (by decide) h).symm

theorem percolateUpE_any (cmp : EComp T E) (pos : Nat) : ∀ (c : Nat) (e : E) (q : Queue T), q.size ≤ q.len → pos < q.size →
    ∃ q' c' e', percolateUpE (counted cmp) (c, e) q pos = .ok (q', c', e') ∧ q'.size = q.size ∧ q'.len = q.len ∧
      q'.elems.Perm q.elems ∧ c' ≤ c + Nat.log 2 (pos + 1) := by
  induction pos using Nat.strongRecOn with
  | _ pos ih =>
    intro c e q hs hp
    rw [percolateUpE]
    simp only [tdiv_par]
    by_cases h0 : par pos = pos
    · simp only [h0, if_true, Res.pure_eq]
      exact ⟨q, c, e, rfl, rfl, rfl, .rfl, by omega⟩
    · have hpp : par pos < pos := by simp only [par] at *; omega
      have hlog := log_half (n := pos + 1) (by omega)
      have hpar : (pos + 1) / 2 = par pos + 1 := by simp only [par] at *; omega
      rw [hpar] at hlog
      have g1 : q.get pos = .ok (q.cell pos) := by simp only [Queue.get]; rw [if_pos (by omega)]
      have g2 : q.get (par pos) = .ok (q.cell (par pos)) := by simp only [Queue.get]; rw [if_pos (by omega)]
      simp only [h0, if_false, g1, g2, Res.bind_ok, counted]
      by_cases hr : (cmp (q.cell pos) (q.cell (par pos)) e).1 ≥ 0
      · simp only [hr, if_true, Res.pure_eq]; exact ⟨q, c + 1, _, rfl, rfl, rfl, .rfl, by omega⟩
      · simp only [hr, if_false]
        rw [swap_ok q _ _ (by omega) (by omega)]
        simp only [Res.bind_ok]
        obtain ⟨q', c', e', h1, h2, h3, h4, h5⟩ := ih (par pos) hpp (c + 1) (cmp (q.cell pos) (q.cell (par pos)) e).2
          { q with cell := swapF q.cell (par pos) pos } hs (by simp only; omega)
        refine ⟨q', c', e', h1, h2, h3, h4.trans (perm_swapF q.cell _ _ _ (Nat.lt_trans hpp hp) hp), by omega⟩

theorem minChildE_any (cmp : EComp T E) (c : Nat) (e : E) (q : Queue T) (j n : Nat) (hj : j < n) (hn : n ≤ q.len) :
    ∃ k c' e', minChildE (counted cmp) (c, e) q j n = .ok (k, c', e') ∧ j ≤ k ∧ k < n ∧ c' ≤ c + 1 := by
  unfold minChildE
  by_cases h : j + 1 < n
  · have g1 : q.get (j + 1) = .ok (q.cell (j + 1)) := by simp only [Queue.get]; rw [if_pos (by omega)]
    have g2 : q.get j = .ok (q.cell j) := by simp only [Queue.get]; rw [if_pos (by omega)]
    simp only [h, if_true, g1, g2, Res.bind_ok, counted]
    by_cases hr : (cmp (q.cell (j + 1)) (q.cell j) e).1 < 0
    · simp only [hr, if_true, Res.pure_eq]; exact ⟨_, _, _, rfl, by omega, h, by omega⟩
    · simp only [hr, if_false, Res.pure_eq]; exact ⟨_, _, _, rfl, by omega, hj, by omega⟩
  · simp only [h, if_false, Res.pure_eq]
    exact ⟨_, _, _, rfl, by omega, hj, by omega⟩

theorem percolateDownE_any (cmp : EComp T E) (n : Nat) : ∀ (m i : Nat), n - i = m → ∀ (c : Nat) (e : E) (q : Queue T), n ≤ q.size → q.size ≤ q.len →
    ∃ q' c' e', percolateDownE (counted cmp) (c, e) q i n = .ok (q', c', e') ∧ q'.size = q.size ∧ q'.len = q.len ∧
      ((List.range n).map q'.cell).Perm ((List.range n).map q.cell) ∧ (∀ k, n ≤ k → q'.cell k = q.cell k) ∧
      c' + 2 * Nat.log 2 (i + 1) ≤ c + 2 * max (Nat.log 2 n) (Nat.log 2 (i + 1)) := by
  intro m
  induction m using Nat.strongRecOn with
  | _ m ih =>
    intro i hm c e q hn hs
    rw [percolateDownE]
    by_cases h0 : 2 * i + 1 ≥ n
    · simp only [h0, if_true, Res.pure_eq]
      exact ⟨q, c, e, rfl, rfl, rfl, .rfl, fun _ _ => rfl, by omega⟩
    · obtain ⟨j, c1, e1, g1, g2, g3, g4⟩ := minChildE_any cmp c e q (2 * i + 1) n (by omega) (by omega)
      have gi : q.get i = .ok (q.cell i) := by simp only [Queue.get]; rw [if_pos (by omega)]
      have gj : q.get j = .ok (q.cell j) := by simp only [Queue.get]; rw [if_pos (by omega)]
      have l1 : Nat.log 2 (i + 1) + 1 ≤ Nat.log 2 n := by
        rw [← Nat.log_mul_base (by decide) (by omega)]; exact Nat.log_mono_right (by omega)
      have l2 : Nat.log 2 (i + 1) + 1 ≤ Nat.log 2 (j + 1) := by
        rw [← Nat.log_mul_base (by decide) (by omega)]; exact Nat.log_mono_right (by omega)
      have l3 : Nat.log 2 (j + 1) ≤ Nat.log 2 n := Nat.log_mono_right (by omega)
      simp only [h0, if_false, g1, Res.bind_ok, gi, gj, counted]
      by_cases hr : (cmp (q.cell j) (q.cell i) e1).1 ≥ 0
      · simp only [hr, if_true, Res.pure_eq]; exact ⟨q, _, _, rfl, rfl, rfl, .rfl, fun _ _ => rfl, by omega⟩
      · simp only [hr, if_false]
        rw [swap_ok q i j (by omega) (by omega)]
        simp only [Res.bind_ok]
        obtain ⟨q', c', e', h1, h2, h3, h4, h5, h6⟩ := ih (n - j) (by omega) j rfl (c1 + 1) (cmp (q.cell j) (q.cell i) e1).2
          { q with cell := swapF q.cell i j } hn hs
        refine ⟨q', c', e', h1, h2, h3, h4.trans (perm_swapF q.cell i j n (by omega) g3), ?_, by omega⟩
        intro k hk
        rw [h5 k hk]; simp only [swapF]; rw [if_neg (by omega), if_neg (by omega)]

theorem stepE_any (cmp : EComp T E) (c : Nat) (e : E) (q : Queue T) (hq : q.size ≤ q.len) (op : Op T) :
    ∃ q' o c' e', stepE (counted cmp) (c, e) q op = .ok (q', o, c', e') ∧ q'.size ≤ q'.len ∧ BagStep q.elems op o q'.elems ∧
      c' ≤ c + callBound q.size op := by
  cases op with
  | push x =>
    have main : ∀ q1 : Queue T, q1.size = q.size + 1 → q1.size ≤ q1.len → (∀ k, k < q.size → q1.cell k = q.cell k) → q1.cell q.size = x →
        ∃ q' c' e', percolateUpE (counted cmp) (c, e) q1 (q1.size - 1) = .ok (q', c', e') ∧ q'.size ≤ q'.len ∧
          q'.elems.Perm (x :: q.elems) ∧ c' ≤ c + Nat.log 2 (q.size + 1) := by
      intro q1 e1 e2 e3 e4
      obtain ⟨q', c', e', g1, g2, g3, g4, g5⟩ := percolateUpE_any cmp (q1.size - 1) c e q1 e2 (by omega)
      refine ⟨q', c', e', g1, by omega, g4.trans ?_, by rw [show q1.size - 1 + 1 = q.size + 1 by omega] at g5; exact g5⟩
      unfold Queue.elems
      rw [e1, List.range_succ, List.map_append]
      have : (List.range q.size).map q1.cell = (List.range q.size).map q.cell := by
        apply List.map_congr_left; intro k hk; exact e3 k (List.mem_range.1 hk)
      rw [this]
      simp only [List.map_cons, List.map_nil, e4]
      exact List.perm_append_singleton _ _
    simp only [stepE, pushE]
    by_cases hl : q.size ≥ q.len
    · simp only [hl, if_true, Res.pure_eq, Res.bind_ok]
      obtain ⟨q', c', e', g1, g2, g3, g4⟩ := main { q with cell := fun k => if k = q.len then x else q.cell k, len := q.len + 1, size := q.size + 1 }
        rfl (by simp only; omega) (by intro k hk; simp only; rw [if_neg (by omega)]) (by simp only; rw [if_pos (by omega)])
      rw [g1]
      exact ⟨q', _, c', e', rfl, g2, .push g3, g4⟩
    · simp only [hl, if_false, Queue.set]
      rw [if_pos (by omega)]
      simp only [Res.bind_ok]
      obtain ⟨q', c', e', g1, g2, g3, g4⟩ := main { q with cell := fun k => if k = q.size then x else q.cell k, size := q.size + 1 }
        rfl (by simp only; omega) (by intro k hk; simp only; rw [if_neg (by omega)]) (by simp)
      rw [g1]
      exact ⟨q', _, c', e', rfl, g2, .push g3, g4⟩
  | pop =>
    simp only [stepE, popE]
    by_cases h0 : q.size = 0
    · simp only [h0, if_true, Res.pure_eq, Res.bind_ok]
      refine ⟨q, _, c, e, rfl, hq, by rw [elems_nil q h0]; exact .popEmpty, by omega⟩
    · simp only [h0, if_false]
      rw [swap_ok q 0 (q.size - 1) (by omega) (by omega)]
      simp only [Res.bind_ok]
      obtain ⟨q', c', e', g1, g2, g3, g5, g6, g7⟩ := percolateDownE_any cmp (q.size - 1) _ 0 rfl c e { q with cell := swapF q.cell 0 (q.size - 1) }
        (by simp only; omega) hq
      have g2' : q'.size = q.size := g2
      have g3' : q'.len = q.len := g3
      have hlast : q'.cell (q.size - 1) = q.cell 0 := by rw [g6 _ (Nat.le_refl _)]; simp [swapF]
      rw [g1]
      simp only [Res.bind_ok, Queue.get]
      rw [if_pos (by omega)]
      simp only [Res.bind_ok, Res.pure_eq]
      refine ⟨_, _, c', e', rfl, by simp only; omega, ?_, ?_⟩
      · rw [g2', hlast]
        apply BagStep.pop
        have e1 : q.elems.Perm ((List.range q.size).map (swapF q.cell 0 (q.size - 1))) := (perm_swapF q.cell 0 (q.size - 1) q.size (by omega) (by omega)).symm
        refine e1.trans ?_
        have e2 : List.range q.size = List.range (q.size - 1) ++ [q.size - 1] := by rw [← List.range_succ]; congr 1; omega
        rw [e2, List.map_append]
        refine (List.perm_append_comm).trans ?_
        simp only [List.map_cons, List.map_nil, List.singleton_append]
        have e3 : swapF q.cell 0 (q.size - 1) (q.size - 1) = q.cell 0 := by simp [swapF]
        rw [e3]
        refine List.Perm.cons _ ?_
        simp only [Queue.elems]
        exact g5.symm
      · simp only [callBound]
        simp at g7; omega
  | peek =>
    by_cases h0 : q.size = 0
    · exact ⟨q, .val none, c, e, by simp [stepE, peek, h0], hq, by rw [elems_nil q h0]; exact .peekEmpty, by omega⟩
    · have hg : q.get 0 = .ok (q.cell 0) := by simp only [Queue.get]; rw [if_pos (by omega)]
      refine ⟨q, .val (some (q.cell 0)), c, e, ?_, hq, .peek ?_, by omega⟩
      · simp [stepE, peek, hg, show q.size > 0 by omega]
      · simp only [Queue.elems, List.mem_map, List.mem_range]; exact ⟨0, by omega, rfl⟩
  | len =>
    refine ⟨q, .num q.size, c, e, rfl, hq, ?_, by omega⟩
    have := BagStep.len (s := q.elems)
    rwa [elems_length] at this

theorem callBound_mono (n m : Nat) (h : n ≤ m) (op : Op T) : callBound n op ≤ callBound m op := by
  cases op with
  | push => exact Nat.log_mono_right (by omega)
  | pop => exact Nat.mul_le_mul_left 2 (Nat.log_mono_right (by omega))
  | peek => exact Nat.le_refl _
  | len => exact Nat.le_refl _

theorem bagStep_length {s s' : List T} {op : Op T} {o : Out T} (h : BagStep s op o s') : s'.length ≤ s.length + 1 := by
  cases h with
  | push h => simp [h.length_eq]
  | popEmpty => simp
  | pop h => have := h.length_eq; simp at this; omega
  | peekEmpty => simp
  | peek => omega
  | len => omega

theorem runE_any (cmp : EComp T E) : ∀ (ops : List (Op T)) (c : Nat) (e : E) (q : Queue T), q.size ≤ q.len → ∀ N, q.size + ops.length ≤ N →
    ∃ q' outs c' e', runE (counted cmp) (c, e) q ops = .ok (q', outs, c', e') ∧ BagRun q.elems ops outs q'.elems ∧
      c' ≤ c + (ops.map (callBound N)).sum
  | [], c, e, q, _, _, _ => ⟨q, [], c, e, rfl, .nil, by simp⟩
  | op :: ops, c, e, q, hq, N, hN => by
    obtain ⟨q1, o, c1, e1, h1, h2, h3, h4⟩ := stepE_any cmp c e q hq op
    have hlen := bagStep_length h3
    rw [elems_length, elems_length] at hlen
    simp only [List.length_cons] at hN
    obtain ⟨q2, os, c2, e2, g1, g2, g3⟩ := runE_any cmp ops c1 e1 q1 h2 N (by omega)
    refine ⟨q2, o :: os, c2, e2, by simp [runE, h1, g1], .cons h3 g2, ?_⟩
    have := callBound_mono q.size N (by omega) op
    simp only [List.map_cons, List.sum_cons]
    omega

/-- C123: with any comparator whatsoever — inconsistent, with state, answering at random — every history on a queue made by `New(comp, n)`
neither panics nor hangs, and the queue is a bag: Pop and Peek answer with an element that is in it (and report none exactly when it is empty), Pop
takes out exactly that one, Len counts. On at most `N` calls the comparator is called at most ⌊log₂(N+1)⌋ times for a Push, 2⌊log₂(N-1)⌋ times for a
Pop, and not at all for Peek and Len. -/
theorem any_comparator (cmp : EComp T E) (z : T) (n : Int) (e : E) (ops : List (Op T)) :
    ∃ q0 q outs calls e', new z [n] = .ok q0 ∧ runE (counted cmp) (0, e) q0 ops = .ok (q, outs, calls, e') ∧
      BagRun [] ops outs q.elems ∧ calls ≤ (ops.map (callBound ops.length)).sum := by
  obtain ⟨q, outs, c, e', h1, h2, h3⟩ := runE_any cmp ops 0 e ({ cell := fun _ => z, len := 8, size := 0 } : Queue T) (by simp) ops.length (by simp)
  exact ⟨_, q, outs, c, e', by simp [new, init], h1, h2, by omega⟩

/-- C123: the bound of one call, in any state a history can reach (`size ≤ len` always holds): by the number of elements at that moment. -/
theorem calls_of_one (cmp : EComp T E) (e : E) (q : Queue T) (hq : q.size ≤ q.len) (op : Op T) :
    ∃ q' o calls e', stepE (counted cmp) (0, e) q op = .ok (q', o, calls, e') ∧ calls ≤ callBound q.size op := by
  obtain ⟨q', o, c', e', h, -, -, h4⟩ := stepE_any cmp 0 e q hq op
  exact ⟨q', o, c', e', h, by omega⟩

/-- C123: the bound for Push is attained at every size, when the new element comes first. -/
theorem push_calls_tight (q : Queue T) (hq : q.size ≤ q.len) (x : T) :
    ∃ q', pushE (fun _ _ c => (-1, c + 1)) 0 q x = .ok (q', Nat.log 2 (q.size + 1)) := by
  have up : ∀ (pos : Nat) (c : Nat) (q : Queue T), q.size ≤ q.len → pos < q.size →
      ∃ q', percolateUpE (fun _ _ c => (-1, c + 1)) c q pos = .ok (q', c + Nat.log 2 (pos + 1)) := by
    intro pos
    induction pos using Nat.strongRecOn with
    | _ pos ih =>
      intro c q hs hp
      rw [percolateUpE]
      simp only [tdiv_par]
      by_cases h0 : par pos = pos
      · have : pos = 0 := by simp only [par] at h0; omega
        subst this
        simp
      · have hpp : par pos < pos := by simp only [par] at *; omega
        have hlog := log_half (n := pos + 1) (by omega)
        have hpar : (pos + 1) / 2 = par pos + 1 := by simp only [par] at *; omega
        rw [hpar] at hlog
        have g1 : q.get pos = .ok (q.cell pos) := by simp only [Queue.get]; rw [if_pos (by omega)]
        have g2 : q.get (par pos) = .ok (q.cell (par pos)) := by simp only [Queue.get]; rw [if_pos (by omega)]
        simp only [h0, if_false, g1, g2, Res.bind_ok]
        rw [if_neg (by decide), swap_ok q _ _ (by omega) (by omega)]
        simp only [Res.bind_ok]
        obtain ⟨q', h⟩ := ih (par pos) hpp (c + 1) { q with cell := swapF q.cell (par pos) pos } hs (by simp only; omega)
        exact ⟨q', by rw [h]; congr 2; omega⟩
  unfold pushE
  by_cases hl : q.size ≥ q.len
  · simp only [hl, if_true, Res.pure_eq, Res.bind_ok]
    obtain ⟨q', h⟩ := up q.size 0 { q with cell := fun k => if k = q.len then x else q.cell k, len := q.len + 1, size := q.size + 1 } (by simp only; omega) (by simp only; omega)
    exact ⟨q', by simpa using h⟩
  · simp only [hl, if_false, Queue.set]
    rw [if_pos (by omega)]
    simp only [Res.bind_ok]
    obtain ⟨q', h⟩ := up q.size 0 { q with cell := fun k => if k = q.size then x else q.cell k, size := q.size + 1 } (by simp only; omega) (by simp only; omega)
    exact ⟨q', by simpa using h⟩

/-- Non-vacuity: a comparator that answers -1, 1, -1, … by turns; the queue still returns what was put in. -/
example : (do
    let r ← runE (T := Nat) (E := Bool) (fun _ _ e => (if e then -1 else 1, !e)) true ({ cell := fun _ => 0, len := 8, size := 0 })
      [.push 5, .push 3, .push 4, .pop, .pop, .len, .pop, .pop]
    pure r.2.1) = .ok [.pushed, .pushed, .pushed, .val (some 3), .val (some 5), .num 1, .val (some 4), .val none] := by cbv

end Gds.PQ
