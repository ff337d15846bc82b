import Verif.BPlus.Predict
import Verif.BPlus.Props2

/-! C115: every history of a B+ tree, exactly: which call panics, what every other call answers, and what is held at the end.
The specification (BPlus/FSpec.lean) is a pure program on trees without addresses, links or counters. -/

namespace Gds.BPlus
open BT Tree
variable {K V : Type} [Inhabited K] [Inhabited V]

theorem Shows.reads {cmp : Compare K} {t : Tree K V} {m : FMap K V} (s : Shows t m) (key : K) : Reads cmp t key (FMap.find cmp key m) := by
  obtain ⟨h1, h2, h3, h4, -⟩ := reads_view cmp t m s key
  exact ⟨h1, h2, h3, h4⟩

theorem Shows.observed {t : Tree K V} {m : FMap K V} (s : Shows t m) :
    sizeOf t = (m.entries.length : Int) ∧ isEmpty t = m.entries.isEmpty ∧
      (m = none → t.root = none) ∧ (m ≠ none → ∃ d l ss, Holds t d l m.entries ss) := by
  cases s with
  | cleared c =>
    exact ⟨by simp [sizeOf, c.size, FMap.entries], by simp [isEmpty, c.size, FMap.entries], fun _ => c.root, fun h => absurd rfl h⟩
  | @live d b g =>
    have he : FMap.entries (some ⟨d, view t.h d b.ptr⟩) = b.entries := view_entries g.pre.rep
    rw [he]
    refine ⟨g.holds.observers.1, ?_, by simp, fun _ => ⟨d, _, _, g.holds⟩⟩
    have := g.holds.observers.2
    rw [Bool.eq_iff_iff, this, List.isEmpty_iff]

theorem newMap_shows {M : Nat} (hM : 2 ≤ M) : ∃ t : Tree K V, newMap M = .ok t ∧ t.degree = M ∧ Shows t FMap.new := by
  obtain ⟨t, h0, hd, g⟩ := newMap_good (K := K) (V := V) hM
  refine ⟨t, h0, hd, ?_⟩
  have hv : view t.h 0 0 = (⟨fun _ => default, 0⟩ : FLeaf (K × V)) := by
    have h1 : M ≠ 0 := by omega
    simp only [newMap, h1, if_false, setPrev, setNext, newNode, Res.bind_ok] at h0
    injection h0 with h0
    subst h0
    simp [view]; rfl
  have := Shows.live (leaf 0 []) g
  simp only [leaf_ptr, hv] at this
  exact this

/-- C115.  Every history on a new B+ tree of degree `M ≥ 2`, with any comparator at all, is the one of the specification.  If the
    specification says that a call looks outside an array, the history panics there; if it does not, the history returns
    with exactly the answers of the specification (so it never hangs), the size is the number of entries of the specification, the four read operations find
    what `FMap.find` finds, for every key, and (unless the history contains `Clear`) the tree is well formed and holds exactly the
    entries of the specification, in that order.  After `Clear` there is no root. -/
theorem history_exact (cmp : Compare K) (M : Nat) (hM : 2 ≤ M) (ops : List (Op K V)) :
    match FMap.run cmp M FMap.new ops with
    | none => runNew cmp M ops = .panic .indexOutOfRange
    | some (m, outs) => ∃ t, runNew cmp M ops = .ok (t, outs) ∧ sizeOf t = (m.entries.length : Int) ∧ isEmpty t = m.entries.isEmpty ∧
        (∀ key, Reads cmp t key (FMap.find cmp key m)) ∧ (m = none → t.root = none) ∧ (m ≠ none → ∃ d l ss, Holds t d l m.entries ss) := by
  obtain ⟨t0, h0, hd, s⟩ := newMap_shows (K := K) (V := V) hM
  have hr : runNew cmp M ops = run cmp t0 ops := by simp [runNew, h0]
  rcases run_view cmp ops t0 FMap.new s with ⟨h1, h2⟩ | ⟨t', m', os, h1, h2, h3, -⟩
  · rw [hd] at h1
    rw [h1, hr]
    exact h2
  · rw [hd] at h1
    rw [h1]
    obtain ⟨a, b, c, d⟩ := h3.observed
    exact ⟨t', hr.trans h2, a, b, fun key => h3.reads key, c, d⟩

/-- Which histories panic: exactly those for which the specification predicts it. -/
theorem panics_iff (cmp : Compare K) (M : Nat) (hM : 2 ≤ M) (ops : List (Op K V)) :
    (∃ p, runNew cmp M ops = .panic p) ↔ FMap.run cmp M FMap.new ops = none := by
  have h := history_exact cmp M hM ops
  cases hf : FMap.run cmp M (FMap.new : FMap K V) ops with
  | none => rw [hf] at h; exact ⟨fun _ => rfl, fun _ => ⟨_, h⟩⟩
  | some r =>
    rw [hf] at h
    obtain ⟨t, ht, -⟩ := h
    rw [ht]; simp

/-- One more call after any history that returned: what it answers, and when it panics. -/
theorem next_call_exact (cmp : Compare K) (M : Nat) (hM : 2 ≤ M) (ops : List (Op K V)) (t : Tree K V) (outs : List Out)
    (hrun : runNew cmp M ops = .ok (t, outs)) (op : Op K V) :
    ∃ m, FMap.run cmp M FMap.new ops = some (m, outs) ∧
      match FMap.step cmp M m op with
      | none => step cmp t op = .panic .indexOutOfRange
      | some (m', o) => ∃ t', step cmp t op = .ok (t', o) ∧ sizeOf t' = (m'.entries.length : Int) ∧ ∀ key, Reads cmp t' key (FMap.find cmp key m') := by
  obtain ⟨t0, h0, hd, s⟩ := newMap_shows (K := K) (V := V) hM
  have hr : runNew cmp M ops = run cmp t0 ops := by simp [runNew, h0]
  rcases run_view cmp ops t0 FMap.new s with ⟨h1, h2⟩ | ⟨t', m', os, h1, h2, h3, h4⟩
  · rw [← hr, hrun] at h2; cases h2
  · rw [← hr, hrun] at h2
    cases h2
    rw [hd] at h1 h4
    refine ⟨m', h1, ?_⟩
    rcases step_view cmp op t m' h3 with ⟨g1, g2⟩ | ⟨t2, m2, o, g1, g2, g3, -⟩
    · rw [h4] at g1; rw [g1]; exact g2
    · rw [h4] at g1; rw [g1]; exact ⟨t2, g2, g3.observed.1, fun key => g3.reads key⟩

/-- 28 calls on integer keys, insertions of distinct keys and deletions, with the library's own comparator. -/
def ordinary : List (Op Nat Nat) :=
  [.insertUnique 25 25, .insertUnique 33 33, .insertUnique 34 34, .insertUnique 23 23, .insertUnique 12 12, .insertUnique 38 38, .insertUnique 37 37, .insertUnique 30 30, .insertUnique 31 31, .insertUnique 26 26, .insertUnique 32 32, .insertUnique 16 16, .insertUnique 13 13, .insertUnique 14 14, .insertUnique 11 11, .insertUnique 9 9, .insertUnique 1 1, .insertUnique 2 2, .delete 37, .delete 25, .insertUnique 31 31, .insertUnique 30 30, .insertUnique 25 25, .insertUnique 29 29, .insertUnique 26 26, .delete 31, .insertUnique 28 28, .delete 16]

/-- An ordinary history ends in a panic, in `Delete` of a key that `ContainsKey` finds.  The node above the leaves has the separators
    25, 31, 33 and the leaves [30, 31], [25, 26, 28, 29, 30], [32, 33], [34, 34, 38]: a borrow has put 30 and 31 under the separator 25.
    The search meets 31 among the separators and goes to the lower end of the range it was bisecting, the first leaf, where 31 is; the
    deletion scans the separators and goes to the second leaf, which is full and has only smaller keys: it looks behind the array. -/
theorem delete_panics : (∃ t outs, runNew Fn.comp 3 ordinary = .ok (t, outs) ∧ containsKey Fn.comp t 31 = .ok true ∧ delete Fn.comp t 31 = .panic .indexOutOfRange) ∧
    runNew Fn.comp 3 (ordinary ++ [.delete 31]) = .panic .indexOutOfRange := by
  have h := history_exact Fn.comp 3 (by omega) ordinary
  have h' := history_exact Fn.comp 3 (by omega) (ordinary ++ [.delete 31])
  have e' : FMap.run Fn.comp 3 FMap.new (ordinary ++ [.delete 31]) = none := by cbv
  rw [e'] at h'
  refine ⟨?_, h'⟩
  have e : (FMap.run Fn.comp 3 FMap.new ordinary).map (fun r => (FMap.find Fn.comp 31 r.1, (FMap.step Fn.comp 3 r.1 (.delete 31)).isNone)) = some (some (31, 31), true) := by cbv
  cases hf : FMap.run Fn.comp 3 FMap.new ordinary with
  | none => rw [hf] at e; cases e
  | some r =>
    obtain ⟨m, outs⟩ := r
    rw [hf] at h e
    obtain ⟨t, h1, -, -, h2, -⟩ := h
    simp only [Option.map_some, Option.some.injEq, Prod.mk.injEq, Option.isNone_iff_eq_none] at e
    refine ⟨t, outs, h1, by rw [(h2 31).1, e.1]; rfl, ?_⟩
    obtain ⟨m', hm, hs⟩ := next_call_exact Fn.comp 3 (by omega) ordinary t outs h1 (.delete 31)
    rw [hf] at hm
    cases hm
    rw [e.2] at hs
    simp only [step] at hs
    cases hd : delete Fn.comp t 31 with
    | ok x => rw [hd] at hs; cases hs
    | panic p => rw [hd] at hs; cases hs; rfl
    | hang => rw [hd] at hs; cases hs

end Gds.BPlus
