import Verif.Fn.Float
import Verif.RBTree.Calls
import Verif.SkipList.Rows
import Verif.BPlus.Props
import Verif.PQ.Props

/-! Property C125: what a NaN key does to the containers that are ordered by `fn.Comp`. -/
namespace Gds.NaN
variable {K V : Type}

/-- The key compares equal to every key, as a NaN does under `fn.Comp`. -/
def Blind (cmp : Compare K) (k : K) : Prop := ∀ x, cmp k x = 0 ∧ cmp x k = 0

theorem blind_nan {n : BitVec 64} (hn : Fn.isNaN n) : Blind Fn.comp64 n := Fn.comp64_nan hn

/-! ### The red-black tree -/

/-- C125: on an empty tree a NaN is not found; otherwise `Get` answers with the value of an entry (that of the root), whatever its key is, and
`Put` overwrites that value and adds nothing. -/
theorem rbtree_nan {cmp : Compare K} {k : K} (hk : Blind cmp k) (z : K × V) (ops : List (RBTree.Op K V)) {s : RBTree.Tree K V × List Nat}
    (e : RBTree.run cmp (RBTree.new z, []) ops = .ok s) :
    ∃ tr, RBTree.Holds s.1.heap tr ∧
      ((RBTree.entries s.1 tr = [] ∧ RBTree.has cmp s.1 k = .ok false ∧ RBTree.get cmp s.1 k = .ok none) ∨
        ∃ as x bs, RBTree.entries s.1 tr = as ++ x :: bs ∧ RBTree.has cmp s.1 k = .ok true ∧ RBTree.get cmp s.1 k = .ok (some x.2) ∧
          ∀ v, ∃ t', RBTree.put cmp s.1 k v = .ok (false, t') ∧ RBTree.Holds t'.heap tr ∧ RBTree.entries t' tr = as ++ (x.1, v) :: bs ∧
            t'.size = s.1.size) := by
  obtain ⟨tr, U, ok, -, -⟩ := RBTree.run_inv cmp ops (RBTree.inv_new z) e
  refine ⟨tr, ok.holds, ?_⟩
  have hr := ok.holds.root
  have hh := ok.holds
  cases tr with
  | nil =>
    left
    have hs : RBTree.search cmp s.1.heap k = .ok none := by rw [RBTree.search, hr, RBTree.T.root_nil, RBTree.searchFrom]; rfl
    exact ⟨rfl, by rw [RBTree.has, hs]; rfl, by rw [RBTree.get, hs]; rfl⟩
  | node l i r =>
    right
    have h0 := (hk (s.1.heap.kv i).1).1
    have hs : RBTree.search cmp s.1.heap k = .ok (some i) := by
      rw [RBTree.search, hr, RBTree.T.root_node, RBTree.searchFrom]; simp [h0]
    have hd : RBTree.descend cmp s.1.heap k (s.1.heap.parent 0) none = .ok (.found i) := by
      rw [hr, RBTree.T.root_node, RBTree.descend]; simp [h0]
    have nd := hh.nodup
    refine ⟨l.ids.map s.1.heap.kv, s.1.heap.kv i, r.ids.map s.1.heap.kv, by simp [RBTree.entries, RBTree.T.ids], by rw [RBTree.has, hs]; rfl,
      by rw [RBTree.get, hs]; rfl, fun v =>
        ⟨{ s.1 with heap := { s.1.heap with kv := fun j => if j = i then ((s.1.heap.kv i).1, v) else s.1.heap.kv j } },
          by rw [RBTree.put, RBTree.putInner, hd]; rfl, ?_, ?_, rfl⟩⟩
    · exact ⟨hr, hh.rep.congr (fun _ _ => ⟨rfl, rfl, rfl⟩), hh.nodup, hh.pos⟩
    · simp only [RBTree.T.ids] at nd
      simp only [RBTree.entries, RBTree.T.ids, List.map_append, List.map_cons, if_true]
      rw [List.nodup_append] at nd
      congr 1
      · apply List.map_congr_left; intro j hj; rw [if_neg]; rintro rfl; exact nd.2.2 j hj j (by simp) rfl
      · congr 1
        apply List.map_congr_left; intro j hj; rw [if_neg]; rintro rfl; exact (List.nodup_cons.1 nd.2.1).1 hj

/-! ### The skip list -/

theorem top_pos (T : List (SkipList.Tower K V)) : 1 ≤ SkipList.top T := by
  induction T with
  | nil => exact Nat.le_refl _
  | cons t T ih => simp only [SkipList.top]; omega

/-- C125: a skip list says of a NaN, at any time, that it is there: even when it is empty. -/
theorem skiplist_nan {cmp : Compare K} {k : K} (hk : Blind cmp k) (zk : K) (zv : V) (ops : List (SkipList.Op K V)) :
    ∃ s as, SkipList.runAns cmp zk zv (SkipList.new zk zv) ops = .ok (s, as) ∧ SkipList.has cmp s k = .ok true := by
  obtain ⟨s, e, B⟩ := SkipList.run_row (comp := cmp) ops (SkipList.new_built zk zv)
  refine ⟨s, _, e, ?_⟩
  have := SkipList.lookup_exact cmp B k
  generalize (SkipList.rowRun cmp zk zv [] ops).1 = T at this
  have ht := top_pos T
  obtain ⟨i, hi⟩ : ∃ i, SkipList.top T = i + 1 := ⟨_, (Nat.sub_add_cancel ht).symm⟩
  rw [hi, SkipList.seek] at this
  simp only [(hk _).2, if_true] at this
  exact this.1

/-! ### The B+ tree -/

section
variable [Inhabited K] [Inhabited V]
open BPlus BPlus.BT BPlus.Tree

theorem bsearch_blind {cmp : Compare K} {k : K} (hk : Blind cmp k) (t : Tree K V) (p n : Nat) (hn : 0 < n) (hlen : n ≤ 2 * t.degree - 1) :
    bsearch cmp t (some p) k 0 n 0 = .ok (0, (n - 1) / 2, true) := by
  rw [bsearch, if_pos hn]
  have : (0 + (n - 1)) / 2 < 2 * t.degree - 1 := by omega
  simp only [Nat.zero_add] at this
  simp [getVal, (hk _).1, this]

theorem searchLoop_blind {cmp : Compare K} {k : K} (hk : Blind cmp k) (t : Tree K V) (hdeg : 2 ≤ t.degree) : ∀ (d : Nat) (b : BT K V d),
    BPlus.Rep t.h b → b.KidsOcc t.degree → b.vals.length ≤ 2 * t.degree - 1 → 1 ≤ b.vals.length →
    ∃ q i, searchLoop cmp t (some b.ptr) k = .ok (some q, i, true) ∧ i < 2 * t.degree - 1 ∧ t.h.values q i ∈ b.entries := by
  intro d
  induction d with
  | zero =>
    intro b hr _ hlen h1
    obtain ⟨p, vs, rfl⟩ := exists_leaf b
    obtain ⟨r1, r2, r3, r4⟩ := (rep_leaf _ _ _).1 hr
    simp only [leaf_ptr, leaf_vals, leaf_entries] at hlen h1 ⊢
    refine ⟨p, (vs.length - 1) / 2, ?_, by omega, ?_⟩
    · rw [searchLoop]
      simp [getNum, r2, bsearch_blind hk t p vs.length h1 hlen, getLeaf, r1]
    · rw [r3 _ (by omega)]; exact List.getElem_mem _
  | succ d ih =>
    intro b hr hocc hlen h1
    obtain ⟨p, vs, ks, rfl⟩ := exists_inner b
    obtain ⟨r1, r2, r3, r4, r5, r6⟩ := (rep_inner _ _ _ _).1 hr
    simp only [inner_ptr, inner_vals, inner_entries] at hlen h1 ⊢
    cases ks with
    | nil => simp at r4
    | cons c ks =>
      have hkc : t.h.children p 0 = some c.ptr := r5 0 (by simp)
      have hocck := (inner_kidsOcc _ _ _ _).1 hocc c (by simp)
      obtain ⟨q, i, e1, e2, e3⟩ := ih c (r6 c (by simp)) hocck.2 hocck.1.2 (by omega)
      refine ⟨q, i, ?_, e2, by simp [e3]⟩
      rw [searchLoop]
      have : 0 < 2 * t.degree := by omega
      simp [getNum, r2, bsearch_blind hk t p vs.length h1 hlen, getLeaf, r1, getKid, this, hkc, e1]

/-- C125: an empty B+ tree does not contain a NaN; one with entries says that it does, answers `Get` with the value of some entry, and refuses
`InsertUnique`. -/
theorem bplus_nan {cmp : Compare K} {k : K} (hk : Blind cmp k) (M : Nat) (hM : 2 ≤ M) (ops : List (Op K V)) (t : Tree K V) (os : List Out)
    (hrun : runNew cmp M ops = .ok (t, os)) (hnc : .clear ∉ ops) :
    ∃ d l es ss, Holds t d l es ss ∧
      ((es = [] ∧ containsKey cmp t k = .ok false ∧ getVerify cmp t k = .ok (default, false)) ∨
        ∃ x ∈ es, containsKey cmp t k = .ok true ∧ getVerify cmp t k = .ok (x.2, true) ∧ getEntry cmp t k = .ok (some x) ∧
          ∀ v, insertUnique cmp t k v = .ok (t, false)) := by
  obtain ⟨t0, h0, hd, g⟩ := newMap_good (K := K) (V := V) hM
  simp only [runNew, h0, Res.bind_ok] at hrun
  rcases run_live cmp ops t0 ⟨hd, 0, _, g⟩ with ⟨t', os', h, hc⟩ | h
  swap
  · rw [h] at hrun; cases hrun
  rw [hrun] at h
  injection h with h
  injection h with e1 e2
  subst e1 e2
  rcases hc with ⟨-, hd', d, b, g'⟩ | ⟨hc, -⟩
  swap
  · exact absurd hc hnc
  refine ⟨d, _, _, _, g'.holds, ?_⟩
  have hsz := g'.holds.size
  have hes := g'.holds.observers.2
  by_cases hz : b.entries = []
  · left
    have hs : t.size = 0 := by rw [g'.size, hz]; rfl
    refine ⟨hz, ?_, ?_⟩
    · simp [containsKey, search, hs]
    · simp [getVerify, search, hs]
  · right
    have hs : t.size ≠ 0 := by rw [g'.size]; have := List.length_pos_iff.2 hz; omega
    have hv : 1 ≤ b.vals.length := by
      cases d with
      | zero =>
        obtain ⟨p, vs, rfl⟩ := exists_leaf b
        have := List.length_pos_iff.2 hz; simp at this; simpa using Nat.succ_le_of_lt this
      | succ d => exact g'.lo (by omega)
    obtain ⟨q, i, e1, e2, e3⟩ := searchLoop_blind hk t g'.pre.deg d b g'.pre.rep g'.pre.occ g'.hi hv
    have hse : search cmp t k = .ok (some q, i, true) := by rw [search, if_neg hs, g'.root, e1]
    have hck : containsKey cmp t k = .ok true := by rw [containsKey, hse]; rfl
    refine ⟨t.h.values q i, ?_, hck, ?_, ?_, fun v => ?_⟩
    · exact e3
    · rw [getVerify, hse]; simp [getVal, e2]
    · rw [getEntry, hse]; simp [getVal, e2]
    · rw [insertUnique, hck]; rfl
end

/-! ### The priority queue -/

theorem push_last {T : Type} {cmp : Compare T} (q : PQ.Queue T) (x : T) (h1 : q.size < q.len) (h2 : q.size = 0 ∨ 0 ≤ cmp x (q.cell ((q.size - 1) / 2))) :
    PQ.push cmp q x = .ok { q with cell := fun k => if k = q.size then x else q.cell k, size := q.size + 1 } := by
  rw [PQ.push, if_neg (by omega)]
  simp only [PQ.Queue.set, h1, if_true, Res.bind_ok, Nat.add_sub_cancel]
  rw [PQ.percolateUp]
  have hi : (Int.tdiv ((q.size : Int) - 1) 2).toNat = (q.size - 1) / 2 := by
    rcases Nat.eq_zero_or_pos q.size with h | h
    · rw [h]; rfl
    · rw [show ((q.size : Int) - 1) = ((q.size - 1 : Nat) : Int) by omega]; rfl
  rw [hi]
  by_cases h0 : (q.size - 1) / 2 = q.size
  · rw [if_pos h0]; rfl
  · have h3 : q.size ≠ 0 := by intro h; rw [h] at h0; exact h0 rfl
    have h4 : (q.size - 1) / 2 < q.len := by omega
    rcases h2 with h2 | h2
    · exact absurd h2 h3
    simp only [h0, if_false, PQ.Queue.get, h1, h4, if_true, Res.bind_ok, ge_iff_le, h2, Res.pure_eq]

/-- C125 fails for the priority queue: with a NaN in it, `Pop` can answer with a value although a smaller one is there. -/
theorem pq_nan_refuted {T : Type} {cmp : Compare T} {n a b c : T} (hn : Blind cmp n) (hab : cmp a b < 0) (hcb : cmp c b > 0) (z : T) (size : Int) :
    ∃ q0 q, PQ.new z [size] = .ok q0 ∧ PQ.run cmp q0 [.push b, .push n, .push c, .push a, .pop] =
      .ok (q, [.pushed, .pushed, .pushed, .pushed, .val (some b)]) ∧ ∃ x ∈ q.elems, cmp x b < 0 := by
  refine ⟨{ cell := fun _ => z, len := 8, size := 0 },
    { cell := fun k => if k = 3 then b else if k = 0 then a else if k = 2 then c else if k = 1 then n else z, len := 8, size := 3 }, rfl, ?_, ?_⟩
  · simp only [PQ.run, PQ.step]
    rw [push_last _ _ (by simp) (by simp)]
    simp only [Res.bind_ok, Res.pure_eq]
    rw [push_last _ _ (by simp) (by simp [hn _])]
    simp only [Res.bind_ok]
    rw [push_last _ _ (by simp) (by right; simp; omega)]
    simp only [Res.bind_ok]
    rw [push_last _ _ (by simp) (by simp [hn _])]
    simp only [Res.bind_ok]
    simp [PQ.pop, PQ.Queue.swap, PQ.Queue.get, PQ.Queue.set]
    rw [PQ.percolateDown]
    simp [PQ.minChild, PQ.Queue.get, (hn _).1, (hn _).2]
    funext k
    by_cases h3 : k = 3 <;> by_cases h0 : k = 0 <;> simp_all
  · exact ⟨a, by simp [PQ.Queue.elems, List.range_succ], hab⟩

/-! ### With `fn.Comp` on float64 -/

theorem nan_is : Fn.isNaN 0x7ff8000000000001 := by decide

/-- Any history of a float-keyed tree, skip list and B+ tree. -/
example (ops : List (RBTree.Op (BitVec 64) Nat)) {s : RBTree.Tree (BitVec 64) Nat × List Nat} (e : RBTree.run Fn.comp64 (RBTree.new (0, 0), []) ops = .ok s) :=
  rbtree_nan (blind_nan nan_is) (0, 0) ops e
example : ∃ s as, SkipList.runAns Fn.comp64 0 0 (SkipList.new 0 (0 : Nat)) ([] : List (SkipList.Op (BitVec 64) Nat)) = .ok (s, as) ∧
    SkipList.has Fn.comp64 s 0x7ff8000000000001 = .ok true := skiplist_nan (blind_nan nan_is) _ _ _
example (ops : List (BPlus.Op (BitVec 64) Nat)) (t : BPlus.Tree (BitVec 64) Nat) (os : List BPlus.Out) (h : BPlus.runNew Fn.comp64 3 ops = .ok (t, os))
    (hc : .clear ∉ ops) := bplus_nan (blind_nan nan_is) 3 (by decide) ops t os h hc

/-- Push 2.0, NaN, 3.0, 1.0: `Pop` answers 2.0. -/
example : ∃ q0 q, PQ.new 0 [0] = .ok q0 ∧
    PQ.run Fn.comp64 q0 [.push 0x4000000000000000, .push 0x7ff8000000000001, .push 0x4008000000000000, .push 0x3ff0000000000000, .pop] =
      .ok (q, [.pushed, .pushed, .pushed, .pushed, .val (some 0x4000000000000000)]) ∧ ∃ x ∈ q.elems, Fn.comp64 x 0x4000000000000000 < 0 := by
  exact pq_nan_refuted (blind_nan nan_is) (a := 0x3ff0000000000000) (by rw [Fn.comp64_some.1]; decide) (by rw [Fn.comp64_some.2.1]; decide) 0 0

end Gds.NaN
