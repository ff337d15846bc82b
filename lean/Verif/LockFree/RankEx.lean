import Verif.LockFree.Rank
import Verif.LockFree.Examples

/-! `Rank` in concrete runs: the hypotheses of `rank_alone` are met, and being alone matters. -/

namespace Gds.LockFree

theorem rank_elements : Elements Fn.comp (trOf 0 Fn.comp rankSchedule 138).mem [1, 2, 3] := by
  have hl := elements_of_walk (P := [2, 3, 4]) Fn.comp_strict.toLawful rankSchedule_run (k := 138) (by decide) (by decide +kernel) (by decide +kernel) (by decide +kernel)
  have e : [2, 3, 4].map (trOf 0 Fn.comp rankSchedule 138).mem.val = [1, 2, 3] := by decide +kernel
  rwa [e] at hl

/-- The hypotheses of `rank_alone` and `rank_quiet` are met by `Rank(3)` on {1, 2, 3}, which returns 2. -/
example : (∀ x, 138 < x → x < 181 → (labOf 0 Fn.comp rankSchedule x).tid = 0) ∧ labOf 0 Fn.comp rankSchedule 138 = .call 0 (.rank 3) ∧
    Returned (labOf 0 Fn.comp rankSchedule) 182 138 0 (.num 2) 181 ∧
    (∀ i' t' op, InProgress (labOf 0 Fn.comp rankSchedule) 138 i' t' op → ¬ op.isWrite) ∧
    1 < (trOf 0 Fn.comp rankSchedule 138).mem.size.toInt := by
  refine ⟨?_, by decide +kernel, by decide +kernel, fun i t op g w => ?_, by decide +kernel⟩
  · have : ∀ x, x < 181 → 138 < x → (labOf 0 Fn.comp rankSchedule x).tid = 0 := by decide +kernel
    exact fun x h1 h2 => this x h2 h1
  · have h0 : writers (labOf 0 Fn.comp rankSchedule) 138 = [] := by decide +kernel
    have := mem_writers w 138 g
    rw [h0] at this; cases this

/-- 1 and 2 are in the list, 3 has been removed but is still linked.  Goroutine 0 asks for the rank of 4 and is about to unlink 3 when goroutine 1,
    looking for 4, does it; goroutine 0 starts again and keeps the count. -/
def inflateSchedule : List (Act Nat) :=
  wholeOf 0 (.add 1) 43 1 ++ wholeOf 0 (.add 2) 44 1 ++ wholeOf 0 (.add 3) 45 1 ++ wholeOf 0 (.del 3) 45 1 ++
  partOf 0 (.rank 4) 43 1 ++ wholeOf 1 (.has 4) 45 1 ++ List.replicate 43 (.step 0 1) ++ [.ret 0]

set_option maxRecDepth 8000 in
theorem inflateSchedule_run : IsRun Fn.comp 0 (trOf 0 Fn.comp inflateSchedule) (labOf 0 Fn.comp inflateSchedule) 320 :=
  runOf_isRun (as := inflateSchedule) (by decide +kernel)

/-- C107: without being left alone the answer can be larger than the position although only a `Has` runs beside it: `Rank(4)` on {1, 2} returns 5. -/
theorem rank_disturbed : ∃ tr lab n, IsRun Fn.comp (0 : Nat) tr lab n ∧ ∃ i r, lab i = .call 0 (.rank 4) ∧ Returned lab n i 0 (.num 5) r ∧
    (∀ k, i < k → k ≤ r → ∀ i' t' op, InProgress lab k i' t' op → ¬ op.isWrite) ∧ Elements Fn.comp (tr i).mem [1, 2] ∧ Elements Fn.comp (tr r).mem [1, 2] := by
  have hw : ∀ k, k ≤ 319 → 185 ≤ k → writers (labOf 0 Fn.comp inflateSchedule) k = [] := by decide +kernel
  have hq : ∀ k, 185 ≤ k → k ≤ 319 → ∀ i' t' op, InProgress (labOf 0 Fn.comp inflateSchedule) k i' t' op → ¬ op.isWrite := by
    intro k h1 h2 i t op g w
    have := mem_writers w k g
    rw [hw k h2 h1] at this; cases this
  have hl := elements_of_walk (P := [2, 3]) Fn.comp_strict.toLawful inflateSchedule_run (k := 319) (by decide) (by decide +kernel) (by decide +kernel) (by decide +kernel)
  have e : [2, 3].map (trOf 0 Fn.comp inflateSchedule 319).mem.val = [1, 2] := by decide +kernel
  rw [e] at hl
  have hk := quiet_keeps Fn.comp_strict.toLawful inflateSchedule_run (j := 185) (r := 319) (by decide) (by decide) hq
  exact ⟨_, _, _, inflateSchedule_run, 185, 319, by decide +kernel, by decide +kernel, fun k h1 => hq k (by omega),
    ⟨hl.sorted, fun v => (hk v).symm.trans (hl.mem v)⟩, hl⟩

/-- All heights are 1: the last hypothesis of `rank_alone` is met by `Rank(4)` on {1, 2, 3} built like this. -/
def flatSchedule : List (Act Nat) :=
  wholeOf 0 (.add 1) 43 1 ++ wholeOf 0 (.add 2) 44 1 ++ wholeOf 0 (.add 3) 45 1 ++ wholeOf 0 (.rank 4) 44 1

theorem flatSchedule_run : IsRun Fn.comp 0 (trOf 0 Fn.comp flatSchedule) (labOf 0 Fn.comp flatSchedule) 184 :=
  runOf_isRun (as := flatSchedule) (by decide +kernel)

example : labOf 0 Fn.comp flatSchedule 138 = .call 0 (.rank 4) ∧ Returned (labOf 0 Fn.comp flatSchedule) 184 138 0 (.num 4) 183 ∧
    (∀ x, Live (trOf 0 Fn.comp flatSchedule 138).mem x → (trOf 0 Fn.comp flatSchedule 138).mem.lvl x = 1) := by
  refine ⟨by decide +kernel, by decide +kernel, fun x hx => ?_⟩
  have hw : Walk (trOf 0 Fn.comp flatSchedule 138).mem 0 headA [2, 3, 4] tailA := by decide +kernel
  have hm := (RInv.all Fn.comp_strict.toLawful flatSchedule_run 138 (by decide)).mem
  have hall : ∀ x ∈ [2, 3, 4], (trOf 0 Fn.comp flatSchedule 138).mem.lvl x = 1 := by decide +kernel
  rcases mem_walk_of_path hm hw hx.path with e | e | e
  · exact absurd e hx.ne_head
  · exact hall x e
  · exact absurd e hx.ne_tail

end Gds.LockFree
