import Verif.PQ.Calls

/-! Property C139: the priority queue with a comparator that may panic, and a caller that recovers. -/
namespace Gds.PQ
variable {T E : Type}

/-! ### The code with a comparator that may panic

`none` in the place of a result: the comparator panicked. The panic passes through the queue's code, which has no deferred calls, to the caller, who
recovers it; the queue is then as the code left it at that moment. -/

/-- A Go closure `func(a, b T) int` (fn/comp.go:11 `fn.Compare`) with state, that panics when it answers `none`. -/
abbrev PComp (T E : Type) := T → T → E → Option Int × E

/-- priorityqueue.go:64-73 `percolateUp`; `false`: the comparator panicked. -/
def percolateUpP (cmp : PComp T E) (e : E) (q : Queue T) (pos : Nat) : Res (Bool × Queue T × E) := do
  let i := (Int.tdiv ((pos : Int) - 1) 2).toNat
  if i = pos then pure (true, q, e)
  else
    let a ← q.get pos
    let b ← q.get i
    let r := cmp a b e
    match r.1 with
    | none => pure (false, q, r.2)
    | some c =>
      if c ≥ 0 then pure (true, q, r.2)
      else
        let q ← q.swap i pos
        percolateUpP cmp r.2 q i
partial_fixpoint

/-- priorityqueue.go:82-85: the smaller child. -/
def minChildP (cmp : PComp T E) (e : E) (q : Queue T) (j1 n : Nat) : Res (Option Nat × E) := do
  let j2 := j1 + 1
  if j2 < n then
    let a ← q.get j2
    let b ← q.get j1
    let r := cmp a b e
    match r.1 with
    | none => pure (none, r.2)
    | some c => if c < 0 then pure (some j2, r.2) else pure (some j1, r.2)
  else pure (some j1, e)

/-- priorityqueue.go:75-94 `percolateDown`; `false`: the comparator panicked. -/
def percolateDownP (cmp : PComp T E) (e : E) (q : Queue T) (i n : Nat) : Res (Bool × Queue T × E) := do
  let j1 := 2 * i + 1
  if j1 ≥ n then pure (true, q, e)
  else
    let je ← minChildP cmp e q j1 n
    match je.1 with
    | none => pure (false, q, je.2)
    | some j =>
      let a ← q.get j
      let b ← q.get i
      let r := cmp a b je.2
      match r.1 with
      | none => pure (false, q, r.2)
      | some c =>
        if c ≥ 0 then pure (true, q, r.2)
        else
          let q ← q.swap i j
          percolateDownP cmp r.2 q j n
partial_fixpoint

/-- priorityqueue.go:40-49 `Push`: the element is in its cell and counted before the first comparison. -/
def pushP (cmp : PComp T E) (e : E) (q : Queue T) (val : T) : Res (Bool × Queue T × E) := do
  let q ← if q.size ≥ q.len then
      pure { q with cell := fun k => if k = q.len then val else q.cell k, len := q.len + 1 }
    else q.set q.size val
  let q := { q with size := q.size + 1 }
  percolateUpP cmp e q (q.size - 1)

/-- priorityqueue.go:51-62 `Pop`: the first and the last element change places before the first comparison, the count goes down after the last. -/
def popP (cmp : PComp T E) (e : E) (q : Queue T) : Res (Option (Option T) × Queue T × E) := do
  if q.size = 0 then pure (some none, q, e)
  else
    let n := q.size - 1
    let q ← q.swap 0 n
    let qe ← percolateDownP cmp e q 0 n
    if qe.1 then
      let q := { qe.2.1 with size := qe.2.1.size - 1 }
      let val ← q.get q.size
      pure (some (some val), q, qe.2.2)
    else pure (none, qe.2.1, qe.2.2)

/-- One call (priorityqueue.go:40-105); `none`: the comparator panicked in it. -/
def stepP (cmp : PComp T E) (e : E) (q : Queue T) : Op T → Res (Queue T × Option (Out T) × E)
  | .push x => do let r ← pushP cmp e q x; pure (r.2.1, if r.1 then some .pushed else none, r.2.2)
  | .pop => do let r ← popP cmp e q; pure (r.2.1, r.1.map .val, r.2.2)
  | .peek => do let r ← peek q; pure (q, some (.val r), e)
  | .len => pure (q, some (.num q.length), e)

/-- A history (priorityqueue.go:40-105) whose caller recovers the comparator's panics and goes on with the queue as it is. -/
def runP (cmp : PComp T E) (e : E) : Queue T → List (Op T) → Res (Queue T × List (Option (Out T)) × E)
  | q, [] => pure (q, [], e)
  | q, op :: ops => do
    let r ← stepP cmp e q op
    let r2 ← runP cmp r.2.2 r.1 ops
    pure (r2.1, r.2.1 :: r2.2.1, r2.2.2)

/-! ### Specification -/

/-- One operation on the bag `s`, in which the comparator may panic: a `Push` that panicked has put its element in, a `Pop` that panicked has taken nothing. -/
inductive RaisedStep : List T → Op T → Option (Out T) → List T → Prop where
  | returned {s op o s'} : BagStep s op o s' → RaisedStep s op (some o) s'
  | push {s x s'} : s'.Perm (x :: s) → RaisedStep s (.push x) none s'
  | pop {s s'} : s ≠ [] → s'.Perm s → RaisedStep s .pop none s'

/-- A history. -/
inductive RaisedRun : List T → List (Op T) → List (Option (Out T)) → List T → Prop where
  | nil {s} : RaisedRun s [] [] s
  | cons {s op o s' ops os s''} : RaisedStep s op o s' → RaisedRun s' ops os s'' → RaisedRun s (op :: ops) (o :: os) s''

/-! ### Any comparator -/

theorem percolateUpP_any (cmp : PComp T E) (pos : Nat) : ∀ (e : E) (q : Queue T), q.size ≤ q.len → pos < q.size →
    ∃ b q' e', percolateUpP cmp e q pos = .ok (b, q', e') ∧ q'.size = q.size ∧ q'.len = q.len ∧ q'.elems.Perm q.elems := by
  induction pos using Nat.strongRecOn with
  | _ pos ih =>
    intro e q hs hp
    rw [percolateUpP]
    simp only [tdiv_par]
    by_cases h0 : par pos = pos
    · simp only [h0, if_true, Res.pure_eq]
      exact ⟨true, q, e, rfl, rfl, rfl, .rfl⟩
    · have hpp : par pos < pos := by simp only [par] at *; omega
      have g1 : q.get pos = .ok (q.cell pos) := by simp only [Queue.get]; rw [if_pos (by omega)]
      have g2 : q.get (par pos) = .ok (q.cell (par pos)) := by simp only [Queue.get]; rw [if_pos (by omega)]
      simp only [h0, if_false, g1, g2, Res.bind_ok]
      cases hx : (cmp (q.cell pos) (q.cell (par pos)) e).1 with
      | none => exact ⟨false, q, _, rfl, rfl, rfl, .rfl⟩
      | some c =>
        simp only
        by_cases hr : c ≥ 0
        · simp only [hr, if_true, Res.pure_eq]; exact ⟨true, q, _, rfl, rfl, rfl, .rfl⟩
        · simp only [hr, if_false]
          rw [swap_ok q _ _ (by omega) (by omega)]
          simp only [Res.bind_ok]
          obtain ⟨b, q', e', h1, h2, h3, h4⟩ := ih (par pos) hpp (cmp (q.cell pos) (q.cell (par pos)) e).2
            { q with cell := swapF q.cell (par pos) pos } hs (by simp only; omega)
          exact ⟨b, q', e', h1, h2, h3, h4.trans (perm_swapF q.cell _ _ _ (Nat.lt_trans hpp hp) hp)⟩

theorem minChildP_any (cmp : PComp T E) (e : E) (q : Queue T) (j n : Nat) (hj : j < n) (hn : n ≤ q.len) :
    (∃ e', minChildP cmp e q j n = .ok (none, e')) ∨ ∃ k e', minChildP cmp e q j n = .ok (some k, e') ∧ j ≤ k ∧ k < n := by
  unfold minChildP
  by_cases h : j + 1 < n
  · have g1 : q.get (j + 1) = .ok (q.cell (j + 1)) := by simp only [Queue.get]; rw [if_pos (by omega)]
    have g2 : q.get j = .ok (q.cell j) := by simp only [Queue.get]; rw [if_pos (by omega)]
    simp only [h, if_true, g1, g2, Res.bind_ok]
    cases hx : (cmp (q.cell (j + 1)) (q.cell j) e).1 with
    | none => exact .inl ⟨_, rfl⟩
    | some c =>
      right
      simp only
      by_cases hr : c < 0
      · simp only [hr, if_true, Res.pure_eq]; exact ⟨_, _, rfl, by omega, h⟩
      · simp only [hr, if_false, Res.pure_eq]; exact ⟨_, _, rfl, by omega, hj⟩
  · simp only [h, if_false, Res.pure_eq]
    exact .inr ⟨_, _, rfl, by omega, hj⟩

theorem percolateDownP_any (cmp : PComp T E) (n : Nat) : ∀ (m i : Nat), n - i = m → ∀ (e : E) (q : Queue T), n ≤ q.size → q.size ≤ q.len →
    ∃ b q' e', percolateDownP cmp e q i n = .ok (b, q', e') ∧ q'.size = q.size ∧ q'.len = q.len ∧
      ((List.range n).map q'.cell).Perm ((List.range n).map q.cell) ∧ (∀ k, n ≤ k → q'.cell k = q.cell k) := by
  intro m
  induction m using Nat.strongRecOn with
  | _ m ih =>
    intro i hm e q hn hs
    rw [percolateDownP]
    by_cases h0 : 2 * i + 1 ≥ n
    · simp only [h0, if_true, Res.pure_eq]
      exact ⟨true, q, e, rfl, rfl, rfl, .rfl, fun _ _ => rfl⟩
    · rcases minChildP_any cmp e q (2 * i + 1) n (by omega) (by omega) with ⟨e1, g1⟩ | ⟨j, e1, g1, g2, g3⟩
      · simp only [h0, if_false, g1, Res.bind_ok]
        exact ⟨false, q, _, rfl, rfl, rfl, .rfl, fun _ _ => rfl⟩
      · have gi : q.get i = .ok (q.cell i) := by simp only [Queue.get]; rw [if_pos (by omega)]
        have gj : q.get j = .ok (q.cell j) := by simp only [Queue.get]; rw [if_pos (by omega)]
        simp only [h0, if_false, g1, Res.bind_ok, gi, gj]
        cases hx : (cmp (q.cell j) (q.cell i) e1).1 with
        | none => exact ⟨false, q, _, rfl, rfl, rfl, .rfl, fun _ _ => rfl⟩
        | some c =>
          simp only
          by_cases hr : c ≥ 0
          · simp only [hr, if_true, Res.pure_eq]; exact ⟨true, q, _, rfl, rfl, rfl, .rfl, fun _ _ => rfl⟩
          · simp only [hr, if_false]
            rw [swap_ok q i j (by omega) (by omega)]
            simp only [Res.bind_ok]
            obtain ⟨b, q', e', h1, h2, h3, h4, h5⟩ := ih (n - j) (by omega) j rfl (cmp (q.cell j) (q.cell i) e1).2
              { q with cell := swapF q.cell i j } hn hs
            refine ⟨b, q', e', h1, h2, h3, h4.trans (perm_swapF q.cell i j n (by omega) g3), ?_⟩
            intro k hk
            rw [h5 k hk]; simp only [swapF]; rw [if_neg (by omega), if_neg (by omega)]

theorem stepP_any (cmp : PComp T E) (e : E) (q : Queue T) (hq : q.size ≤ q.len) (op : Op T) :
    ∃ q' o e', stepP cmp e q op = .ok (q', o, e') ∧ q'.size ≤ q'.len ∧ RaisedStep q.elems op o q'.elems := by
  cases op with
  | push x =>
    have main : ∀ q1 : Queue T, q1.size = q.size + 1 → q1.size ≤ q1.len → (∀ k, k < q.size → q1.cell k = q.cell k) → q1.cell q.size = x →
        ∃ b q' e', percolateUpP cmp e q1 (q1.size - 1) = .ok (b, q', e') ∧ q'.size ≤ q'.len ∧ q'.elems.Perm (x :: q.elems) := by
      intro q1 e1 e2 e3 e4
      obtain ⟨b, q', e', g1, g2, g3, g4⟩ := percolateUpP_any cmp (q1.size - 1) e q1 e2 (by omega)
      refine ⟨b, q', e', g1, by omega, g4.trans ?_⟩
      unfold Queue.elems
      rw [e1, List.range_succ, List.map_append]
      have : (List.range q.size).map q1.cell = (List.range q.size).map q.cell := by
        apply List.map_congr_left; intro k hk; exact e3 k (List.mem_range.1 hk)
      rw [this]
      simp only [List.map_cons, List.map_nil, e4]
      exact List.perm_append_singleton _ _
    have fin : ∀ {b : Bool} {s' : List T}, s'.Perm (x :: q.elems) → RaisedStep q.elems (.push x) (if b then some .pushed else none) s' := by
      intro b s' h
      cases b with
      | true => exact .returned (.push h)
      | false => exact .push h
    simp only [stepP, pushP]
    by_cases hl : q.size ≥ q.len
    · simp only [hl, if_true, Res.pure_eq, Res.bind_ok]
      obtain ⟨b, q', e', g1, g2, g3⟩ := main { q with cell := fun k => if k = q.len then x else q.cell k, len := q.len + 1, size := q.size + 1 }
        rfl (by simp only; omega) (by intro k hk; simp only; rw [if_neg (by omega)]) (by simp only; rw [if_pos (by omega)])
      rw [g1]
      exact ⟨q', _, e', rfl, g2, fin g3⟩
    · simp only [hl, if_false, Queue.set]
      rw [if_pos (by omega)]
      simp only [Res.bind_ok]
      obtain ⟨b, q', e', g1, g2, g3⟩ := main { q with cell := fun k => if k = q.size then x else q.cell k, size := q.size + 1 }
        rfl (by simp only; omega) (by intro k hk; simp only; rw [if_neg (by omega)]) (by simp)
      rw [g1]
      exact ⟨q', _, e', rfl, g2, fin g3⟩
  | pop =>
    simp only [stepP, popP]
    by_cases h0 : q.size = 0
    · simp only [h0, if_true, Res.pure_eq, Res.bind_ok, Option.map_some]
      refine ⟨q, _, e, rfl, hq, .returned ?_⟩
      rw [elems_nil q h0]; exact .popEmpty
    · simp only [h0, if_false]
      rw [swap_ok q 0 (q.size - 1) (by omega) (by omega)]
      simp only [Res.bind_ok]
      obtain ⟨b, q', e', g1, g2, g3, g5, g6⟩ := percolateDownP_any cmp (q.size - 1) _ 0 rfl e { q with cell := swapF q.cell 0 (q.size - 1) }
        (by simp only; omega) hq
      have g2' : q'.size = q.size := g2
      have g3' : q'.len = q.len := g3
      have hlast : q'.cell (q.size - 1) = q.cell 0 := by rw [g6 _ (Nat.le_refl _)]; simp [swapF]
      have e2 : List.range q.size = List.range (q.size - 1) ++ [q.size - 1] := by rw [← List.range_succ]; congr 1; omega
      have hperm : ((List.range (q.size - 1)).map q'.cell ++ [q.cell 0]).Perm q.elems := by
        have e1 : q.elems.Perm ((List.range q.size).map (swapF q.cell 0 (q.size - 1))) := (perm_swapF q.cell 0 (q.size - 1) q.size (by omega) (by omega)).symm
        refine List.Perm.trans ?_ e1.symm
        rw [e2, List.map_append]
        simp only [List.map_cons, List.map_nil]
        have e3 : swapF q.cell 0 (q.size - 1) (q.size - 1) = q.cell 0 := by simp [swapF]
        rw [e3]
        exact g5.append_right _
      rw [g1]
      cases b with
      | true =>
        simp only [Res.bind_ok, Queue.get, if_true]
        rw [if_pos (by omega)]
        simp only [Res.bind_ok, Res.pure_eq, Option.map_some]
        refine ⟨_, _, e', rfl, by simp only; omega, .returned ?_⟩
        rw [g2', hlast]
        exact BagStep.pop (hperm.symm.trans (List.perm_append_singleton _ _))
      | false =>
        simp only [Res.bind_ok, Bool.false_eq_true, if_false, Res.pure_eq, Option.map_none]
        refine ⟨q', none, e', rfl, by omega, .pop ?_ ?_⟩
        · intro h
          have := congrArg List.length h
          rw [elems_length] at this
          simp at this; omega
        · show ((List.range q'.size).map q'.cell).Perm _
          rw [g2', e2, List.map_append]
          simp only [List.map_cons, List.map_nil, hlast]
          exact hperm
  | peek =>
    by_cases h0 : q.size = 0
    · exact ⟨q, some (.val none), e, by simp [stepP, peek, h0], hq, .returned (by rw [elems_nil q h0]; exact .peekEmpty)⟩
    · have hg : q.get 0 = .ok (q.cell 0) := by simp only [Queue.get]; rw [if_pos (by omega)]
      refine ⟨q, some (.val (some (q.cell 0))), e, ?_, hq, .returned (.peek ?_)⟩
      · simp [stepP, peek, hg, show q.size > 0 by omega]
      · simp only [Queue.elems, List.mem_map, List.mem_range]; exact ⟨0, by omega, rfl⟩
  | len =>
    refine ⟨q, some (.num q.size), e, rfl, hq, .returned ?_⟩
    have := BagStep.len (s := q.elems)
    rwa [elems_length] at this

theorem runP_any (cmp : PComp T E) : ∀ (ops : List (Op T)) (e : E) (q : Queue T), q.size ≤ q.len →
    ∃ q' outs e', runP cmp e q ops = .ok (q', outs, e') ∧ RaisedRun q.elems ops outs q'.elems
  | [], e, q, _ => ⟨q, [], e, rfl, .nil⟩
  | op :: ops, e, q, hq => by
    obtain ⟨q1, o, e1, h1, h2, h3⟩ := stepP_any cmp e q hq op
    obtain ⟨q2, os, e2, g1, g2⟩ := runP_any cmp ops e1 q1 h2
    exact ⟨q2, o :: os, e2, by simp [runP, h1, g1], .cons h3 g2⟩

/-! ### C139 -/

/-- C139, the bag: with any comparator, panicking whenever it likes, a history on a queue made by `New(comp, n)` neither panics by itself nor hangs, and no
element is lost, invented or doubled: a `Push` in which the comparator panicked has put its element in all the same, a `Pop` in which it panicked has taken
nothing, and all other answers are right for the bag. -/
theorem raised_bag_partial (cmp : PComp T E) (z : T) (n : Int) (e : E) (ops : List (Op T)) :
    ∃ q0 q outs e', new z [n] = .ok q0 ∧ runP cmp e q0 ops = .ok (q, outs, e') ∧ RaisedRun [] ops outs q.elems := by
  obtain ⟨q, outs, e', h1, h2⟩ := runP_any cmp ops e ({ cell := fun _ => z, len := 8, size := 0 } : Queue T) (by simp)
  exact ⟨_, q, outs, e', by simp [new, init], h1, h2⟩

/-- A comparator with the answers of `<` on numbers, that panics in its `n`-th call (counted from zero). -/
def once (n : Nat) : PComp Nat Nat := fun a b e => (if e = n then none else some (if a < b then -1 else if a = b then 0 else 1), e + 1)

/-- The answers of a history on a new queue with `once n`. -/
def answersOnce (n : Nat) (ops : List (Op Nat)) : Res (List (Option (Out Nat))) := do
  let q ← new 0 [8]
  let r ← runP (once n) 0 q ops
  .ok r.2.1

/-- C139 is false: the comparator panics once, in the first `Pop`; from then on the elements come in the wrong order, with the comparator answering as it
should: 3 before 1 and 2. -/
theorem raised_pop_refuted : answersOnce 2 [.push 1, .push 2, .push 3, .pop, .peek, .pop, .pop, .pop] =
    .ok [some .pushed, some .pushed, some .pushed, none, some (.val (some 3)), some (.val (some 3)), some (.val (some 1)), some (.val (some 2))] := by cbv

/-- C139 is false: the comparator panics in a `Push`; the element is in the queue nevertheless, and not in its place: 1 comes after 2. -/
theorem raised_push_refuted : answersOnce 1 [.push 2, .push 3, .push 1, .len, .peek, .pop, .pop, .pop] =
    .ok [some .pushed, some .pushed, none, some (.num 3), some (.val (some 2)), some (.val (some 2)), some (.val (some 1)), some (.val (some 3))] := by cbv

/-- As long as the comparator does not panic nothing changes: the model is that of C123. -/
example : (∀ a b e, (once 9 a b e).1 = none ↔ e = 9) ∧ answersOnce 9 [.push 2, .push 3, .push 1, .peek, .pop, .pop, .pop] =
    .ok [some .pushed, some .pushed, some .pushed, some (.val (some 1)), some (.val (some 1)), some (.val (some 2)), some (.val (some 3))] := by
  constructor
  · intro a b e; simp only [once]; split <;> simp_all
  · cbv

end Gds.PQ
