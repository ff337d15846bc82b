import Verif.RBTree.Props
import Verif.Iter.Props
import Verif.Slice.Props

/-! C86: SplitableIter of the red-black tree. -/

namespace Gds.RBTree
variable {K V : Type}

/-- A segment delivers exactly `vs` and then reports its end. -/
def SegYields (m : Heap K V) (g : SegIter) (vs : List (K × V)) : Prop :=
  ∃ g' g'', Iter.Yields (segNext m) g vs g' ∧ segNext m g' = .ok (none, g'')

variable {m : Heap K V} {t : T}

theorem seg_whole (h : Holds m t) : ∀ (bs as : List Nat), t.ids = as ++ bs → SegYields m (.whole bs.head?) (bs.map m.kv)
  | [], _, _ => ⟨_, _, .nil _, rfl⟩
  | i :: bs, as, e => by
    obtain ⟨g', g'', h1, h2⟩ := seg_whole h bs (as ++ [i]) (by simp [e])
    exact ⟨g', g'', .cons (by simp [segNext, iterCall, next_spec h e]) h1, h2⟩

theorem seg_step (h : Holds m t) : ∀ (k : Nat) (bs as : List Nat), t.ids = as ++ bs → SegYields m (.step k bs.head?) ((bs.take k).map m.kv)
  | 0, bs, _, _ => by
    refine ⟨_, .step (-1) bs.head?, .nil _, ?_⟩
    cases bs <;> simp [segNext]
  | k + 1, [], _, _ => ⟨_, _, .nil _, rfl⟩
  | k + 1, i :: bs, as, e => by
    obtain ⟨g', g'', h1, h2⟩ := seg_step h k bs (as ++ [i]) (by simp [e])
    refine ⟨g', g'', .cons ?_ h1, h2⟩
    have : (0 : Int) < ((k + 1 : Nat) : Int) := by omega
    simp only [List.head?_cons, segNext]
    rw [if_pos this, next_spec h e]
    simp

theorem advance_spec (h : Holds m t) : ∀ (k : Nat) (bs as : List Nat), t.ids = as ++ bs → advance m k bs.head? = .ok (bs.drop k).head?
  | 0, _, _, _ => rfl
  | _ + 1, [], _, _ => rfl
  | k + 1, i :: bs, as, e => by
    have := advance_spec h k bs (as ++ [i]) (by simp [e])
    simp [advance, next_spec h e, this]

/-- The segments from position `i` on. -/
theorem split_from {u : Tree K V} (h : Holds u.heap t) (hs : u.size = t.ids.length) (p : Int) (hp : 0 < p) (q : Nat)
    (hq : Int.tdiv (t.ids.length : Int) p = q) (hq0 : 0 < q) (i : Nat) :
    ∃ (segs : List (SegIter × List (K × V))) (st : Int × Option Nat),
      Iter.Yields (splitNext u p) ((i : Int), (t.ids.drop i).head?) (segs.map (·.1)) st ∧
      splitNext u p st = .ok (none, st) ∧ (segs.map (·.2)).flatten = (t.ids.drop i).map u.heap.kv ∧
      (∀ g ∈ segs, SegYields u.heap g.1 g.2 ∧ 0 < g.2.length) ∧ segs.length = Slice.segCount (t.ids.length - i) q ∧
      segs.map (·.2) = Slice.cuts q ((t.ids.drop i).map u.heap.kv) := by
  have hp0 : ¬ p ≤ 0 := by omega
  have hp1 : ¬ p = 0 := by omega
  generalize hn : t.ids.length = n at *
  have hsp : t.ids = t.ids.take i ++ t.ids.drop i := by simp
  induction hk : n - i using Nat.strongRecOn generalizing i with
  | _ k ih =>
    by_cases hil : i < n
    · obtain ⟨segs, st, h1, h2, h3, h4, h5, h6⟩ := ih (n - (i + q)) (by omega) (i + q) (by simp) rfl
      have hadv := advance_spec h q _ _ hsp
      rw [List.drop_drop] at hadv
      have hne : ¬ ((i : Int) ≥ (n : Int)) := by omega
      by_cases hlast : i + q ≥ n
      · refine ⟨(.whole (t.ids.drop i).head?, (t.ids.drop i).map u.heap.kv) :: segs, st,
          .cons (s₁ := ((↑(i + q) : Int), (t.ids.drop (i + q)).head?)) ?_ h1, h2, ?_, ?_, ?_, ?_⟩
        · have : (i : Int) + (q : Int) ≥ (n : Int) := by omega
          simp only [splitNext, hp0, hp1, if_false, hs, hne, hq, Int.toNat_natCast, hadv, Res.bind_ok, this, if_true]
          simp
        · have : t.ids.drop (i + q) = [] := List.drop_eq_nil_of_le (by omega)
          simp only [List.map_cons, List.flatten_cons, h3, this]; simp
        · intro g hg
          rcases List.mem_cons.1 hg with rfl | hg
          · exact ⟨seg_whole h _ _ hsp, by simp; omega⟩
          · exact h4 g hg
        · rw [List.length_cons, h5, Slice.segCount_succ k q hq0 (by omega)]; congr 2; omega
        · have hne : (t.ids.drop i).map u.heap.kv ≠ [] := by
            intro e; have := congrArg List.length e; simp at this; omega
          rw [List.map_cons, h6, Slice.cuts_cons hq0 hne, ← List.map_drop, List.drop_drop, List.take_of_length_le (by simp; omega)]
      · refine ⟨(.step q (t.ids.drop i).head?, ((t.ids.drop i).take q).map u.heap.kv) :: segs, st,
          .cons (s₁ := ((↑(i + q) : Int), (t.ids.drop (i + q)).head?)) ?_ h1, h2, ?_, ?_, ?_, ?_⟩
        · have : ¬ ((i : Int) + (q : Int) ≥ (n : Int)) := by omega
          simp only [splitNext, hp0, hp1, if_false, hs, hne, hq, Int.toNat_natCast, hadv, Res.bind_ok, this]
          simp
        · simp only [List.map_cons, List.flatten_cons, h3]
          rw [← List.drop_drop, ← List.map_append, List.take_append_drop]
        · intro g hg
          rcases List.mem_cons.1 hg with rfl | hg
          · exact ⟨seg_step h q _ _ hsp, by simp; omega⟩
          · exact h4 g hg
        · rw [List.length_cons, h5, Slice.segCount_succ k q hq0 (by omega)]; congr 2; omega
        · have hne : (t.ids.drop i).map u.heap.kv ≠ [] := by
            intro e; have := congrArg List.length e; simp at this; omega
          rw [List.map_cons, h6, Slice.cuts_cons hq0 hne, ← List.map_drop, List.drop_drop, List.map_take]
    · refine ⟨[], ((i : Int), (t.ids.drop i).head?), .nil _, ?_, ?_, by simp, ?_, ?_⟩
      · have : (i : Int) ≥ (n : Int) := by omega
        simp only [splitNext, hp0, if_false, hs, this, if_true]; rfl
      · rw [List.drop_eq_nil_of_le (by omega)]; rfl
      · have : k = 0 := by omega
        subst this
        simp only [Slice.segCount, List.length_nil]
        exact (Nat.div_eq_of_lt (by omega)).symm
      · rw [List.drop_eq_nil_of_le (by omega)]; simp [Slice.cuts_nil]

/-- C86, p ≤ 0: after an ascending history that keeps its first key and leaves the map non-empty there is one segment, which
delivers the entries of the map in key order. -/
theorem split_sequential_partial {cmp : Compare K} (hc : cmp.ThreeWay) (z : K × V) (ops : List (Op K V)) (ha : Ascending cmp [] ops)
    (hk : KeepsFirst cmp z.1 [] ops) (hne : specRun cmp [] ops ≠ []) (p : Int) (hp : p ≤ 0) (node : Option Nat) :
    ∃ s, run cmp (new z, []) ops = .ok s ∧ ∃ g st, Iter.Yields (splitNext s.1 p) (0, node) [g] st ∧ splitNext s.1 p st = .ok (none, st) ∧
      SegYields s.1.heap g (specRun cmp [] ops) := by
  obtain ⟨s, e, tr, U, h⟩ := Sim.run hc ops (g := True) (s := (new z, [])) (Sim.new z cmp _) ha (fun _ => hk)
  have hids : tr.ids ≠ [] := by rintro hh; apply hne; rw [← h.ents, entries, hh]; rfl
  refine ⟨s, e, .whole (s.1.heap.left 0), (1, node), .cons (s₁ := (1, node)) ?_ (.nil _), ?_, ?_⟩
  · simp [splitNext, hp]
  · simp [splitNext, hp]
  · rw [h.first trivial hids, ← h.ents]
    exact seg_whole h.ok.holds tr.ids [] rfl

/-- C86, 1 ≤ p ≤ Size: after the same histories there are finitely many segments, none is empty, and together they deliver the
entries of the map in key order; their number is ⌈size / (size / p)⌉, each has
size / p entries except possibly the last one. -/
theorem split_parallel_partial {cmp : Compare K} (hc : cmp.ThreeWay) (z : K × V) (ops : List (Op K V)) (ha : Ascending cmp [] ops)
    (hk : KeepsFirst cmp z.1 [] ops) (p : Nat) (hp : 1 ≤ p) (hlen : p ≤ (specRun cmp [] ops).length) :
    ∃ s, run cmp (new z, []) ops = .ok s ∧ ∃ (segs : List (SegIter × List (K × V))) (st : Int × Option Nat),
      Iter.Yields (splitNext s.1 p) (0, leftMost s.1) (segs.map (·.1)) st ∧ splitNext s.1 p st = .ok (none, st) ∧
      (segs.map (·.2)).flatten = specRun cmp [] ops ∧ (∀ g ∈ segs, SegYields s.1.heap g.1 g.2 ∧ 0 < g.2.length) ∧
      segs.length = Slice.segCount (specRun cmp [] ops).length ((specRun cmp [] ops).length / p) ∧
      segs.map (·.2) = Slice.cuts ((specRun cmp [] ops).length / p) (specRun cmp [] ops) := by
  obtain ⟨s, e, tr, U, h⟩ := Sim.run hc ops (g := True) (s := (new z, [])) (Sim.new z cmp _) ha (fun _ => hk)
  have hl : (specRun cmp [] ops).length = tr.ids.length := by rw [← h.ents, entries, List.length_map]
  have hids : tr.ids ≠ [] := by rintro hh; rw [hh, List.length_nil] at hl; omega
  have hq : Int.tdiv (tr.ids.length : Int) (p : Int) = ((tr.ids.length / p : Nat) : Int) := by
    rw [Int.tdiv_eq_ediv_of_nonneg (by omega)]; simp
  obtain ⟨segs, st, h1, h2, h3, h4, h5, h6⟩ := split_from h.ok.holds (by rw [h.size, hl]) (p : Int) (by omega) _ hq
    (Nat.div_pos (by omega) (by omega)) 0
  refine ⟨s, e, segs, st, ?_, h2, ?_, h4, by rw [hl]; exact h5, by rw [hl, h6, ← h.ents]; rfl⟩
  · rw [leftMost, h.first trivial hids]; exact h1
  · rw [h3, ← h.ents]; rfl

/-- C86, p ≥ 1 on an empty map: no segment (whereas a plain iterator never returns, C60). -/
theorem split_empty {cmp : Compare K} (hc : cmp.ThreeWay) (z : K × V) (ops : List (Op K V)) (ha : Ascending cmp [] ops)
    (hne : specRun cmp [] ops = []) (p : Nat) (hp : 1 ≤ p) (node : Option Nat) :
    ∃ s, run cmp (new z, []) ops = .ok s ∧ splitNext s.1 p (0, node) = .ok (none, (0, node)) := by
  obtain ⟨s, e, tr, U, h⟩ := Sim.run hc ops (g := False) (s := (new z, [])) (Sim.new z cmp _) ha (by simp)
  refine ⟨s, e, ?_⟩
  have h0 : s.1.size = 0 := by rw [h.size, hne]; rfl
  have hp0 : ¬ (p : Int) ≤ 0 := by omega
  simp only [splitNext, hp0, if_false, h0]; rfl

/-- C86 is false for parallelism above Size: on a non-empty tree every call hands out an empty segment, forever. -/
theorem split_too_many_refuted (u : Tree K V) (p : Nat) (h0 : 0 < u.size) (hlen : u.size < p) (node : Option Nat) :
    splitNext u p (0, node) = .ok (some (.step 0 node), (0, node)) ∧ SegYields u.heap (.step 0 node) [] := by
  have hq : Int.tdiv u.size (p : Int) = 0 := by
    rw [Int.tdiv_eq_ediv_of_nonneg (by omega)]
    exact Int.ediv_eq_zero_of_lt (by omega) (by omega)
  have hp0 : ¬ (p : Int) ≤ 0 := by omega
  have hp1 : ¬ (p : Int) = 0 := by omega
  refine ⟨?_, _, .step (-1) node, .nil _, ?_⟩
  · have h1 : ¬ ((0 : Int) ≥ u.size) := by omega
    simp only [splitNext, hp0, hp1, if_false, h1, hq]
    have h0' : ¬ ((0 : Int) + 0 ≥ u.size) := by omega
    simp only [Int.toNat_zero, advance, Res.pure_eq, Res.bind_ok, h0', if_false]
    simp
  · cases node <;> simp [segNext]

/-- … and for p ≤ 0 on an empty tree the only segment never answers. -/
theorem split_empty_hang_refuted (z : K × V) (p : Int) (hp : p ≤ 0) (node : Option Nat) :
    splitNext (new z) p (0, node) = .ok (some (.whole (some 0)), (1, node)) ∧ segNext (new z).heap (.whole (some 0)) = .hang := by
  refine ⟨?_, ?_⟩
  · simp only [splitNext, hp, if_true]; rfl
  · have := (iter_empty_refuted (fun _ _ => 0) z [] (new z, []) rfl).1
    have hl : (new z).heap.left 0 = some 0 := rfl
    rw [hl] at this
    rw [segNext, this]; rfl

/-- Four entries and three segments (asked for: three). -/
example : ∃ s, run Fn.comp (new (0, 0), []) ascOps = .ok s ∧ ∃ (segs : List (SegIter × List (Int × Nat))) (st : Int × Option Nat),
      Iter.Yields (splitNext s.1 ((3 : Nat) : Int)) (0, leftMost s.1) (segs.map (·.1)) st ∧
      (segs.map (·.2)).flatten = [(1, 10), (3, 30), (9, 90), (12, 120)] := by
  obtain ⟨s, e, segs, st, h1, -, h3, -, -, -⟩ := split_parallel_partial Fn.comp_strict.toThreeWay (0, 0) ascOps ascOps_asc ascOps_keeps 3
    (by decide) (by rw [ascOps_spec]; decide)
  exact ⟨s, e, segs, st, h1, h3.trans ascOps_spec⟩

end Gds.RBTree
