import Verif.Stream.Containers
import Verif.RBTree.Anchor

/-! C106: streams over trees whose keys were put in any order. -/

namespace Gds.Stream

variable {K V : Type}

/-- C106: a stream over a tree that shows its nodes `L` and counts them right behaves like a stream over their entries, in `Next` order. -/
theorem tree_stream_any {t : RBTree.Tree K V} {L : List Nat} (h : RBTree.Shows t L) (hs : RBTree.sizeOf t = L.length) :
    Behaves (fun E => ofTree (E := E) t) (L.map t.heap.kv) := by
  refine behaves_of (fun _ _ => rfl) (fun E => ?_) fun E p hp hl => ?_
  · obtain ⟨g, st, h1, h2, h3⟩ := h.split0 0 (t.heap.left 0) (by omega)
    exact new_splits (start := fun _ => .ok (0, t.heap.left 0)) (seg := RBTree.splitNext t) (pull := RBTree.segNext t.heap) (segs := [(g, L.map t.heap.kv)])
      0 0 rfl h1 h2 fun g' hg => by rw [List.mem_singleton] at hg; subst hg; exact h3
  · rw [List.length_map] at hl ⊢
    obtain ⟨segs, st, h1, h2, h4, h6⟩ := h.split hs p hp hl
    rw [← h6]
    exact new_splits (start := fun _ => .ok (0, t.heap.left 0)) (seg := RBTree.splitNext t) (pull := RBTree.segNext t.heap) p p rfl h1 h2
      fun g hg => (h4 g hg).1

/-- The hypotheses are met by keys put in descending order: 5 and then 3 are shown as 5, 3. -/
example : ∃ s L, RBTree.run Fn.comp (RBTree.new ((0 : Int), (0 : Nat)), []) [.put 5 50, .put 3 30] = .ok s ∧ L ≠ [] ∧
    Behaves (fun E => ofTree (E := E) s.1) (L.map s.1.heap.kv) := by
  obtain ⟨s, i, L, e, nav, -, h⟩ := RBTree.shows_first_kept (cmp := Fn.comp) Fn.comp_strict.toThreeWay ((0 : Int), (0 : Nat)) 5 50 [.put 3 30] (by
    intro op h; rw [List.mem_singleton] at h; subst h; trivial)
  refine ⟨s, i :: L, e, by simp, tree_stream_any h ?_⟩
  obtain ⟨b1, t1, L1, e1, nav1, h1⟩ := RBTree.put_exact Fn.comp ((0 : Int), (0 : Nat)) [] rfl (RBTree.ok_new _).holds.navigable 5 50
  have r1 : RBTree.run Fn.comp (RBTree.new ((0 : Int), (0 : Nat)), []) [.put 5 50] = .ok (t1, []) := by
    rw [RBTree.run_cons (s' := (t1, [])) (by rw [RBTree.step, e1]; rfl)]; rfl
  obtain ⟨b2, t2, L2, e2, nav2, h2⟩ := RBTree.put_exact Fn.comp ((0 : Int), (0 : Nat)) [.put 5 50] r1 nav1 3 30
  have r2 : RBTree.run Fn.comp (RBTree.new ((0 : Int), (0 : Nat)), []) [.put 5 50, .put 3 30] = .ok (t2, []) := by
    rw [RBTree.run_cons (s' := (t1, [])) (by rw [RBTree.step, e1]; rfl), RBTree.run_cons (s' := (t2, [])) (by rw [RBTree.step, e2]; rfl)]; rfl
  cases e.symm.trans r2
  cases nav.unique nav2
  rcases h1 with ⟨j, hj, -⟩ | ⟨-, -, hs1, n, -, -, -, ⟨-, rfl⟩ | ⟨as, j, bs, hl, -⟩⟩
  · cases hj
  · rcases h2 with ⟨j, -, -, -, hl, hs2, -⟩ | ⟨-, -, hs2, n2, -, -, -, ⟨hl, -⟩ | ⟨as, j, bs, hl, hl', -⟩⟩
    · rw [hs2, hs1, hl]; rfl
    · cases hl
    · rw [hs2, hs1, hl']
      cases as with
      | nil =>
        cases hr : t1.heap.right j with
        | none => rw [hr] at hl; cases hl; rfl
        | some q => rw [hr] at hl; cases hl
      | cons a as => cases as <;> cases hl
  · cases as <;> cases hl

end Gds.Stream
