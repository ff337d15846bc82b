import Verif.PQ.Lemmas
import Verif.Fn.Props

/-! Properties C16–C18. -/
namespace Gds.PQ
variable {T : Type _}

/-! ### Specification: a multiset (a list up to permutation) with extract-min -/

/-- One operation on the multiset `s` answers `o` and leaves `s'`. -/
inductive SpecStep (cmp : Compare T) : List T → Op T → Out T → List T → Prop where
  | push {s x s'} : s'.Perm (x :: s) → SpecStep cmp s (.push x) .pushed s'
  | popEmpty : SpecStep cmp [] .pop (.val none) []
  | pop {s x s'} : s.Perm (x :: s') → (∀ y ∈ s, cmp x y ≤ 0) → SpecStep cmp s .pop (.val (some x)) s'
  | peekEmpty : SpecStep cmp [] .peek (.val none) []
  | peek {s x} : x ∈ s → (∀ y ∈ s, cmp x y ≤ 0) → SpecStep cmp s .peek (.val (some x)) s
  | len {s} : SpecStep cmp s .len (.num s.length) s

/-- A history. -/
inductive SpecRun (cmp : Compare T) : List T → List (Op T) → List (Out T) → List T → Prop where
  | nil {s} : SpecRun cmp s [] [] s
  | cons {s op o s' ops os s''} : SpecStep cmp s op o s' → SpecRun cmp s' ops os s'' →
      SpecRun cmp s (op :: ops) (o :: os) s''

theorem elems_length (q : Queue T) : q.elems.length = q.size := by simp [Queue.elems]

theorem elems_nil (q : Queue T) (h : q.size = 0) : q.elems = [] := by simp [Queue.elems, h]

theorem root_min {cmp : Compare T} (hc : cmp.Lawful) (q : Queue T) (h : Inv cmp q) :
    ∀ y ∈ q.elems, cmp (q.cell 0) y ≤ 0 := by
  intro y hy
  simp only [Queue.elems, List.mem_map, List.mem_range] at hy
  obtain ⟨k, hk, rfl⟩ := hy
  exact h.heap.root_min hc k hk

theorem step_spec {cmp : Compare T} (hc : cmp.Lawful) (q : Queue T) (h : Inv cmp q) (op : Op T) :
    ∃ q' o, step cmp q op = .ok (q', o) ∧ Inv cmp q' ∧ SpecStep cmp q.elems op o q'.elems := by
  cases op with
  | push x =>
    obtain ⟨q', h1, h2, _, h4⟩ := push_spec hc q x h
    exact ⟨q', .pushed, by simp [step, h1], h2, .push h4⟩
  | pop =>
    by_cases h0 : q.size = 0
    · exact ⟨q, .val none, by simp [step, pop_empty q h0], h, by rw [elems_nil q h0]; exact .popEmpty⟩
    · obtain ⟨q', h1, h2, _, h4⟩ := pop_spec hc q h (by omega)
      exact ⟨q', _, by simp [step, h1], h2, .pop h4 (root_min hc q h)⟩
  | peek =>
    by_cases h0 : q.size = 0
    · exact ⟨q, .val none, by simp [step, peek, h0], h, by rw [elems_nil q h0]; exact .peekEmpty⟩
    · have h1 := h.fits
      have hg : q.get 0 = .ok (q.cell 0) := by simp only [Queue.get]; rw [if_pos (by omega)]
      refine ⟨q, .val (some (q.cell 0)), ?_, h, .peek ?_ (root_min hc q h)⟩
      · simp [step, peek, hg, show q.size > 0 by omega]
      · simp only [Queue.elems, List.mem_map, List.mem_range]; exact ⟨0, by omega, rfl⟩
  | len =>
    refine ⟨q, .num q.size, rfl, h, ?_⟩
    have := SpecStep.len (cmp := cmp) (s := q.elems)
    rwa [elems_length] at this

theorem run_spec {cmp : Compare T} (hc : cmp.Lawful) (q : Queue T) (h : Inv cmp q) (ops : List (Op T)) :
    ∃ q' outs, run cmp q ops = .ok (q', outs) ∧ Inv cmp q' ∧ SpecRun cmp q.elems ops outs q'.elems := by
  induction ops generalizing q with
  | nil => exact ⟨q, [], rfl, h, .nil⟩
  | cons op ops ih =>
    obtain ⟨q1, o, h1, h2, h3⟩ := step_spec hc q h op
    obtain ⟨q2, os, g1, g2, g3⟩ := ih q1 h2
    exact ⟨q2, o :: os, by simp [run, h1, g1], g2, .cons h3 g3⟩

/-- C16: every history of Push/Pop/Peek/Len on a queue made by `New(comp, n)` neither panics nor hangs and
    behaves like a multiset with extract-min. -/
theorem history_refines_multiset {cmp : Compare T} (hc : cmp.Lawful) (z : T) (n : Int) (ops : List (Op T)) :
    ∃ q0 q outs, new z [n] = .ok q0 ∧ run cmp q0 ops = .ok (q, outs) ∧ SpecRun cmp [] ops outs q.elems := by
  have hinv : Inv cmp ({ cell := fun _ => z, len := 8, size := 0 } : Queue T) :=
    ⟨by simp, by intro k k0 kn; simp at kn⟩
  obtain ⟨q, outs, h1, _, h3⟩ := run_spec hc _ hinv ops
  exact ⟨_, q, outs, by simp [new, init], h1, h3⟩

/-- C16, spec sanity: a successful Pop removes exactly one occurrence of the value it returns, Len counts. -/
theorem specStep_pop_length {cmp : Compare T} {s s' : List T} {x : T}
    (h : SpecStep cmp s .pop (.val (some x)) s') : s.length = s'.length + 1 ∧ x ∈ s := by
  cases h with
  | pop hp _ => exact ⟨by simpa using hp.length_eq, hp.symm.subset (by simp)⟩

theorem drain_spec {cmp : Compare T} (hc : cmp.Lawful) (q : Queue T) (h : Inv cmp q) :
    ∃ xs, drain cmp q = .ok xs ∧ xs.Perm q.elems ∧ xs.Pairwise (fun a b => cmp a b ≤ 0) := by
  induction hn : q.size generalizing q with
  | zero => exact ⟨[], by rw [drain]; simp [pop_empty q hn], by rw [elems_nil q hn], .nil⟩
  | succ n ih =>
    obtain ⟨q', h1, h2, h3, h4⟩ := pop_spec hc q h (by omega)
    obtain ⟨xs, g1, g2, g3⟩ := ih q' h2 (by omega)
    refine ⟨q.cell 0 :: xs, by rw [drain]; simp [h1, g1], (g2.cons _).trans h4.symm, ?_⟩
    refine List.Pairwise.cons ?_ g3
    intro y hy
    exact root_min hc q h y (h4.symm.subset (List.mem_cons_of_mem _ (g2.subset hy)))

theorem pushAll_spec {cmp : Compare T} (hc : cmp.Lawful) (q : Queue T) (h : Inv cmp q) (xs : List T) :
    ∃ q', xs.foldlM (fun q e => push cmp q e) q = .ok q' ∧ Inv cmp q' ∧ q'.elems.Perm (xs ++ q.elems) := by
  induction xs generalizing q with
  | nil => exact ⟨q, rfl, h, .rfl⟩
  | cons x xs ih =>
    obtain ⟨q1, h1, h2, _, h4⟩ := push_spec hc q x h
    obtain ⟨q2, g1, g2, g3⟩ := ih q1 h2
    refine ⟨q2, by simp [List.foldlM_cons, h1, g1], g2, g3.trans ?_⟩
    exact (h4.append_left xs).trans (List.perm_middle)

/-- C17: pushing any list into a new queue and popping until it is empty returns a permutation of the list in
    non-decreasing order. -/
theorem drain_sorts {cmp : Compare T} (hc : cmp.Lawful) (z : T) (n : Int) (xs : List T) :
    ∃ q0 q ys, new z [n] = .ok q0 ∧ xs.foldlM (fun q e => push cmp q e) q0 = .ok q ∧ drain cmp q = .ok ys ∧
      ys.Perm xs ∧ ys.Pairwise (fun a b => cmp a b ≤ 0) := by
  have hinv : Inv cmp ({ cell := fun _ => z, len := 8, size := 0 } : Queue T) :=
    ⟨by simp, by intro k k0 kn; simp at kn⟩
  obtain ⟨q, h1, h2, h3⟩ := pushAll_spec hc _ hinv xs
  obtain ⟨ys, g1, g2, g3⟩ := drain_spec hc q h2
  exact ⟨_, q, ys, by simp [new, init], h1, g1, g2.trans (by simpa [Queue.elems] using h3), g3⟩

/-- C18, what holds: `New(comp, n)` gives an empty queue (with 8 cells, whatever n is). -/
theorem new_sized_partial (z : T) (n : Int) (rest : List Int) :
    ∃ q, new z (n :: rest) = .ok q ∧ q.elems = [] ∧ q.length = 0 ∧ q.len = 8 :=
  ⟨_, by simp [new, init]; rfl, rfl, rfl, rfl⟩

/-- C18, the claim that fails: `New(comp)` panics … -/
theorem new_default_refuted (z : T) : new z [] = .panic .indexOutOfRange := by
  simp [new, init]

/-- … and therefore so does `OfWith(comp, xs...)` for every list. -/
theorem ofWith_refuted (z : T) (cmp : Compare T) (xs : List T) : ofWith z cmp xs = .panic .indexOutOfRange := by
  simp [ofWith, new_default_refuted]

/-- Non-vacuity: `fn.Comp` on the integers is a lawful comparator, so the history theorem applies to it. -/
example (ops : List (Op Int)) : ∃ q0 q outs, new (0 : Int) [3] = .ok q0 ∧
    run Fn.comp q0 ops = .ok (q, outs) ∧ SpecRun Fn.comp [] ops outs q.elems :=
  history_refines_multiset Fn.comp_strict.toThreeWay.toLawful 0 3 ops

end Gds.PQ
