import Verif.RBTree.Anchor
import Verif.RBTree.Break

/-! C117: when a call of the red-black tree panics. -/

namespace Gds.RBTree

variable {K V : Type}

/-! ### The next call, after any history -/

/-- C117: after any history, with any comparator, `Delete` panics if and only if it finds an entry whose key is below the zero key and `LeftMost`
is nil. -/
theorem delete_panics_iff (cmp : Compare K) (z : K × V) (ops : List (Op K V)) {s : Tree K V × List Nat} (e : run cmp (new z, []) ops = .ok s) (k : K) :
    delete cmp s.1 k = .panic .nilDeref ↔
      leftMost s.1 = none ∧ ∃ i, search cmp s.1.heap k = .ok (some i) ∧ cmp (s.1.heap.kv i).1 z.1 < 0 := by
  obtain ⟨tr, U, h, -, -⟩ := run_inv cmp ops (inv_new z) e
  rcases search_any h cmp k with ⟨i, hi, es⟩ | es
  · obtain ⟨as, bs, hab⟩ := List.append_of_mem hi
    rw [delete, es]
    simp only [Res.bind_ok, leftMost]
    rcases removeNode_spec h hab cmp with ⟨h1, h2, e2⟩ | ⟨h0, rm, t2, tr', e2, R⟩
    · exact ⟨fun _ => ⟨h1, i, rfl, by omega⟩, fun _ => e2⟩
    · rw [e2]
      refine ⟨fun hh => (by cases hh), ?_⟩
      rintro ⟨h1, j, hj, hlt⟩
      cases hj
      have := h0 h1
      omega
  · rw [delete, es]
    simp

/-- C117: the same for `DeleteByWholeMapping`, which in addition has to find the value equal. -/
theorem deleteMapping_panics_iff (cmp : Compare K) (vc : Compare V) (z : K × V) (ops : List (Op K V)) {s : Tree K V × List Nat}
    (e : run cmp (new z, []) ops = .ok s) (k : K) (v : V) :
    deleteByWholeMapping cmp vc s.1 k v = .panic .nilDeref ↔
      leftMost s.1 = none ∧ ∃ i, search cmp s.1.heap k = .ok (some i) ∧ vc v (s.1.heap.kv i).2 = 0 ∧ cmp (s.1.heap.kv i).1 z.1 < 0 := by
  obtain ⟨tr, U, h, -, -⟩ := run_inv cmp ops (inv_new z) e
  rcases search_any h cmp k with ⟨i, hi, es⟩ | es
  · obtain ⟨as, bs, hab⟩ := List.append_of_mem hi
    rw [deleteByWholeMapping, es]
    simp only [Res.bind_ok, leftMost]
    by_cases hv : vc v (s.1.heap.kv i).2 = 0
    · rw [if_pos hv]
      rcases removeNode_spec h hab cmp with ⟨h1, h2, e2⟩ | ⟨h0, rm, t2, tr', e2, R⟩
      · rw [e2]; exact ⟨fun _ => ⟨h1, i, rfl, hv, by omega⟩, fun _ => rfl⟩
      · obtain ⟨t3, e3, -⟩ := freeNode_exact R.ok (h.sub _ R.mem) (rm_out h.holds.nodup hab R.ids).1
        rw [e2]; simp only [Res.bind_ok, e3]
        refine ⟨fun hh => (by cases hh), ?_⟩
        rintro ⟨h1, j, hj, -, hlt⟩
        cases hj
        have := h0 h1
        omega
    · rw [if_neg hv]
      refine ⟨fun hh => (by cases hh), ?_⟩
      rintro ⟨-, j, hj, hv', -⟩
      cases hj; exact absurd hv' hv
  · rw [deleteByWholeMapping, es]
    simp

/-- C117: `Put`, `Clear` and `PutNode` of a node that `Delete` returned always return, after any history and with any comparator. -/
theorem others_return (cmp : Compare K) (z : K × V) (ops : List (Op K V)) {s : Tree K V × List Nat} (e : run cmp (new z, []) ops = .ok s)
    (k : K) (v : V) (j : Nat) : (∃ s', step cmp s (.put k v) = .ok s') ∧ (∃ s', step cmp s (.clear : Op K V) = .ok s') ∧ ∃ s', step cmp s (.putNode j) = .ok s' := by
  obtain ⟨tr, U, ok, hn, ho⟩ := run_inv cmp ops (inv_new z) e
  refine ⟨?_, ⟨_, rfl⟩, ?_⟩
  · obtain ⟨b, t', tr', U', e', -⟩ := put_any ok cmp k v
    exact ⟨_, by rw [step, e']; rfl⟩
  · cases hj : s.2[j]? with
    | none => exact ⟨s, by rw [step, hj]; rfl⟩
    | some x =>
      have hx := List.mem_of_getElem? hj
      obtain ⟨b, t', tr', e', -⟩ := putNode_any ok cmp (ho x hx).1 (ho x hx).2
      exact ⟨_, by simp [step, hj, e']; rfl⟩

/-! ### One deletion of a key below the zero key -/

/-- How many keys below the zero key a call asks to delete. -/
def lowDeletes (cmp : Compare K) (zk : K) : Op K V → Nat
  | .delete k => if cmp k zk < 0 then 1 else 0
  | .deleteKeys ks => ks.countP (fun k => decide (cmp k zk < 0))
  | .deleteMapping k _ _ => if cmp k zk < 0 then 1 else 0
  | _ => 0

/-- The structure when `n` such requests are still to come: if there are any, then `LeftMost` is not nil while there are entries. -/
structure Marked (z : K × V) (t : Tree K V) (tr : T) (U : List Nat) (n : Nat) : Prop where
  ok : OK z t tr U
  len : (tr.ids.length : Int) ≤ t.size
  few : n ≤ 1
  first : n = 1 → tr.ids ≠ [] → t.heap.left 0 ≠ none

theorem Marked.put {z : K × V} {cmp : Compare K} {t : Tree K V} {tr : T} {U : List Nat} {n : Nat} (h : Marked z t tr U n) (k : K) (v : V) :
    ∃ b t' tr' U', RBTree.put cmp t k v = .ok (b, t') ∧ Marked z t' tr' U' n := by
  have hroot := h.ok.holds.root
  rcases descend_exact cmp k tr .top h.ok.holds with ⟨i, hi, e, es⟩ | ⟨es, ⟨rfl, e⟩ | ⟨c, l, r, i, rfl, hlr, -, e⟩⟩
  · refine ⟨false, { t with heap := rekv t.heap i ((t.heap.kv i).1, v) }, tr, U, ?_, h.ok.rekv (h.ok.holds.pos i hi) _, h.len, h.few, h.first⟩
    rw [RBTree.put, putInner, hroot]; simp only [Ctx.par] at e; rw [e]; rfl
  · obtain ⟨n', t', e', hn, ok', hsz, hkv, hl, -⟩ := insertAt_empty h.ok k v
    refine ⟨true, { t' with size := t'.size + 1 }, .node .nil n' .nil, n' :: U, ?_, ⟨ok'.holds, ok'.rb, ok'.buf, ok'.sub, ok'.zero⟩, ?_, h.few,
      fun _ _ => by show t'.heap.left 0 ≠ none; rw [hl]; simp⟩
    · have : putInner cmp t k v = .ok (true, t') := by rw [putInner, hroot]; simp only [Ctx.par] at e; rw [e]; exact e'
      rw [RBTree.put, this]; rfl
    · have := h.len; simp only [T.ids, List.nil_append, List.length_singleton, List.length_nil] at this ⊢; rw [hsz]; omega
  · have hlr' : l = .nil ∨ r = .nil := by rcases hlr with h | h <;> [exact .inl h.1; exact .inr h.1]
    obtain ⟨n', t', tr', e', hn, ok', hsz, hids, hkv, hl, -⟩ := insertAt_spec h.ok hlr' k v
    have hne : (c.plug (.node l i r)).ids ≠ [] := by rw [ids_plug]; simp [T.ids]
    refine ⟨true, { t' with size := t'.size + 1 }, tr', n' :: U, ?_, ⟨ok'.holds, ok'.rb, ok'.buf, ok'.sub, ok'.zero⟩, ?_, h.few, fun h1 _ => ?_⟩
    · have : putInner cmp t k v = .ok (true, t') := by rw [putInner, hroot]; simp only [Ctx.par, Ctx.plug] at e; rw [e]; exact e'
      rw [RBTree.put, this]; rfl
    · have := h.len
      rw [ids_plug] at this
      rw [hids]
      simp only [T.ids, List.length_append, List.length_cons] at this ⊢; rw [hsz]; push_cast at *; omega
    · show t'.heap.left 0 ≠ none; rw [hl]; exact h.first h1 hne

theorem Marked.remove {z : K × V} {cmp : Compare K} (hc : cmp.ThreeWay) {k : K} {t : Tree K V} {tr : T} {U : List Nat} {n : Nat}
    (h : Marked z t tr U ((if cmp k z.1 < 0 then 1 else 0) + n)) {i : Nat} (hi : i ∈ tr.ids) (e : search cmp t.heap k = .ok (some i)) :
    ∃ rm t' tr', removeNode cmp t i = .ok (some rm, t') ∧ Marked z t' tr' U n ∧ rm ∈ U ∧ rm ∉ tr'.ids := by
  have hit := search_hits h.ok.holds e
  have h0 : cmp k (t.heap.kv i).1 = 0 := by
    have := hc.range k (t.heap.kv i).1; have := hit.1; have := hit.2; omega
  have hlow : cmp (t.heap.kv i).1 z.1 < 0 → cmp k z.1 < 0 := fun hh =>
    hc.lt_of_le_of_lt (by omega : cmp k (t.heap.kv i).1 ≤ 0) hh
  obtain ⟨as, bs, hab⟩ := List.append_of_mem hi
  have hne : tr.ids ≠ [] := by rw [hab]; simp
  have hfew := h.few
  rcases removeNode_spec h.ok hab cmp with ⟨h1, h2, -⟩ | ⟨-, rm, t', tr', e1, R⟩
  · have hl := hlow (by omega)
    rw [if_pos hl] at hfew
    exact absurd h1 (h.first (by rw [if_pos hl]; omega) hne)
  · have hlen := R.len hab
    have hl' : (tr'.ids.length : Int) ≤ t'.size := by have := h.len; rw [R.size]; omega
    refine ⟨rm, t', tr', e1, ⟨R.ok, hl', by omega, fun hn hne' => ?_⟩, h.ok.sub _ R.mem, (rm_out h.ok.holds.nodup hab R.ids).1⟩
    have hnl : ¬ cmp k z.1 < 0 := by intro hh; rw [if_pos hh] at hfew; omega
    have := List.length_pos_iff.2 hne'
    rw [R.left, if_neg (by omega), leftAfter, h.ok.zero, if_pos]
    · exact h.first (by rw [if_neg hnl]; omega) hne
    · have : ¬ cmp (t.heap.kv i).1 z.1 < 0 := fun hh => hnl (hlow hh)
      omega

theorem Marked.less {z : K × V} {t : Tree K V} {tr : T} {U : List Nat} {m n : Nat} (h : Marked z t tr U (m + n)) : Marked z t tr U n :=
  ⟨h.ok, h.len, by have := h.few; omega, fun h1 => h.first (by have := h.few; omega)⟩

theorem Marked.free {z : K × V} {t : Tree K V} {tr : T} {U : List Nat} {n i : Nat} (h : Marked z t tr U n) (hn : i ∈ U) (hnt : i ∉ tr.ids) :
    ∃ t', freeNode t (some i) = .ok t' ∧ Marked z t' tr (U.filter (· ≠ i)) n := by
  obtain ⟨t', e, ok, hs, hkv, hl⟩ := freeNode_spec h.ok hn hnt
  exact ⟨t', e, ok, by rw [hs]; exact h.len, h.few, fun h1 h2 => by rw [hl]; exact h.first h1 h2⟩

theorem Marked.deleteKeys {z : K × V} {cmp : Compare K} (hc : cmp.ThreeWay) (ks : List K) {t : Tree K V} {tr : T} {U : List Nat} {n : Nat}
    (h : Marked z t tr U (ks.countP (fun k => decide (cmp k z.1 < 0)) + n)) :
    ∃ c t' tr' U', RBTree.deleteKeys cmp t ks = .ok (c, t') ∧ Marked z t' tr' U' n := by
  induction ks generalizing t tr U with
  | nil => exact ⟨0, t, tr, U, rfl, h.less⟩
  | cons k ks ih =>
    have heq : (k :: ks).countP (fun k => decide (cmp k z.1 < 0)) + n =
        (if cmp k z.1 < 0 then 1 else 0) + (ks.countP (fun k => decide (cmp k z.1 < 0)) + n) := by
      rw [List.countP_cons]; simp only [decide_eq_true_eq]; omega
    rw [heq] at h
    rcases search_any h.ok cmp k with ⟨i, hi, e⟩ | e
    · obtain ⟨rm, t1, tr1, e1, h1, hrU, hr1⟩ := h.remove hc hi e
      obtain ⟨t2, e2, h2⟩ := h1.free hrU hr1
      obtain ⟨n, t3, tr3, U3, e3, h3⟩ := ih h2
      have hd : delete cmp t k = .ok (some rm, t1) := by rw [delete, e]; exact e1
      refine ⟨n + 1, t3, tr3, U3, ?_, h3⟩
      rw [RBTree.deleteKeys, hd]
      simp only [Res.bind_ok, ne_eq, reduceCtorEq, not_false_eq_true, if_true, e2, e3]; rfl
    · obtain ⟨n, t3, tr3, U3, e3, h3⟩ := ih h.less
      have hd : delete cmp t k = .ok (none, t) := by rw [delete, e]; rfl
      refine ⟨n, t3, tr3, U3, ?_, h3⟩
      rw [RBTree.deleteKeys, hd]
      simp only [Res.bind_ok, ne_eq, not_true_eq_false, if_false, e3]

theorem Marked.step {z : K × V} {cmp : Compare K} (hc : cmp.ThreeWay) {s : Tree K V × List Nat} {tr : T} {U : List Nat} {n : Nat} (op : Op K V)
    (h : Marked z s.1 tr U (lowDeletes cmp z.1 op + n)) (hp : ∀ j, op ≠ .putNode j) : ∃ s' tr' U', RBTree.step cmp s op = .ok s' ∧ Marked z s'.1 tr' U' n := by
  cases op with
  | put k v =>
    obtain ⟨b, t', tr', U', e, h'⟩ := h.put (cmp := cmp) k v
    exact ⟨(t', s.2), tr', U', by rw [RBTree.step, e]; rfl, h'.less⟩
  | delete k =>
    rcases search_any h.ok cmp k with ⟨i, hi, e⟩ | e
    · obtain ⟨rm, t1, tr1, e1, h1, -⟩ := h.remove hc hi e
      have hd : delete cmp s.1 k = .ok (some rm, t1) := by rw [delete, e]; exact e1
      exact ⟨(t1, rm :: s.2), tr1, U, by rw [RBTree.step, hd]; rfl, h1⟩
    · have hd : delete cmp s.1 k = .ok (none, s.1) := by rw [delete, e]; rfl
      exact ⟨(s.1, s.2), tr, U, by rw [RBTree.step, hd]; rfl, h.less⟩
  | deleteKeys ks =>
    obtain ⟨n, t', tr', U', e, h'⟩ := h.deleteKeys hc ks
    exact ⟨(t', s.2), tr', U', by rw [RBTree.step, e]; rfl, h'⟩
  | deleteMapping k v vc =>
    rcases search_any h.ok cmp k with ⟨i, hi, e⟩ | e
    · by_cases hv : vc v (s.1.heap.kv i).2 = 0
      · obtain ⟨rm, t1, tr1, e1, h1, hrU, hr1⟩ := h.remove hc hi e
        obtain ⟨t2, e2, h2⟩ := h1.free hrU hr1
        refine ⟨(t2, s.2), tr1, _, ?_, h2⟩
        rw [RBTree.step, deleteByWholeMapping, e]; simp [hv, e1, e2]
      · refine ⟨(s.1, s.2), tr, U, ?_, h.less⟩
        rw [RBTree.step, deleteByWholeMapping, e]; simp [hv]
    · refine ⟨(s.1, s.2), tr, U, ?_, h.less⟩
      rw [RBTree.step, deleteByWholeMapping, e]; rfl
  | clear => exact ⟨(clear s.1, s.2), .nil, U, rfl, h.ok.clear, by simp [T.ids, clear], h.less.few, by simp [T.ids]⟩
  | putNode j => exact absurd rfl (hp j)

/-- C117: in a history without `PutNode` that asks at most once for the deletion of a key below the zero key, every call returns; everything
else, keys below the zero key put in any order included, is free. -/
theorem one_low_delete_returns {cmp : Compare K} (hc : cmp.ThreeWay) (z : K × V) (ops : List (Op K V)) (hp : NoPutNode ops)
    (hlow : (ops.map (lowDeletes cmp z.1)).sum ≤ 1) : ∃ s, run cmp (new z, []) ops = .ok s := by
  have : ∀ (s0 : Tree K V × List Nat) (tr : T) (U : List Nat), Marked z s0.1 tr U (ops.map (lowDeletes cmp z.1)).sum → ∃ s, run cmp s0 ops = .ok s := by
    clear hlow
    induction ops with
    | nil => intro s0 _ _ _; exact ⟨s0, rfl⟩
    | cons op ops ih =>
      intro s0 tr U h
      rw [List.map_cons, List.sum_cons] at h
      obtain ⟨s1, tr1, U1, e1, h1⟩ := h.step hc op (fun j hj => hp j (by simp [hj]))
      rw [run_cons e1]
      exact ih (fun j hj => hp j (by simp [hj])) s1 tr1 U1 h1
  exact this _ _ _ ⟨ok_new z, by simp [T.ids, new], hlow, by simp [T.ids]⟩

/-! ### Two are enough -/

/-- Whether a run ends in a nil dereference. -/
def died {α : Type} : Res α → Bool
  | .panic .nilDeref => true
  | _ => false

theorem died_eq {α : Type} {r : Res α} (h : died r = true) : r = .panic .nilDeref := by
  match r, h with
  | .panic .nilDeref, _ => rfl

set_option maxHeartbeats 4000000 in
/-- C117 (and C76): six ordinary calls with three integers suffice for a panic: `Put -1`, `Put -2`, `Put 1`, `Delete 1`, `Delete -2`, `Delete -1`.
Before the last one -1 is in the tree, `Size` is 1, and `LeftMost` is nil. -/
theorem plain_panic : run Fn.comp (new ((0 : Int), (0 : Int)), [])
    [.put (-1) 10, .put (-2) 20, .put 1 30, .delete 1, .delete (-2), .delete (-1)] = .panic .nilDeref := by
  apply died_eq
  cbv

set_option maxHeartbeats 4000000 in
theorem plain_before : ∃ s, run Fn.comp (new ((0 : Int), (0 : Int)), []) [.put (-1) 10, .put (-2) 20, .put 1 30, .delete 1, .delete (-2)] = .ok s ∧
    get Fn.comp s.1 (-1) = .ok (some 10) ∧ sizeOf s.1 = 1 ∧ leftMost s.1 = none := by
  have : chk (run Fn.comp (new ((0 : Int), (0 : Int)), []) [.put (-1) 10, .put (-2) 20, .put 1 30, .delete 1, .delete (-2)])
      (fun s => chk (get Fn.comp s.1 (-1)) (fun v => v == some 10) && sizeOf s.1 == 1 && leftMost s.1 == none) = true := by cbv
  obtain ⟨s, e, h⟩ := chk_ok this
  simp only [Bool.and_eq_true, beq_iff_eq] at h
  obtain ⟨⟨h1, h2⟩, h3⟩ := h
  obtain ⟨v, e1, h1⟩ := chk_ok h1
  simp only [beq_iff_eq] at h1
  exact ⟨s, e, by rw [e1, h1], h2, h3⟩

/-- The hypotheses of `delete_panics_iff` (left to right) are met by the run above. -/
example : ∃ s, run Fn.comp (new ((0 : Int), (0 : Int)), []) [.put (-1) 10, .put (-2) 20, .put 1 30, .delete 1, .delete (-2)] = .ok s ∧
    delete Fn.comp s.1 (-1) = .panic .nilDeref := by
  obtain ⟨s, e, h1, -, h3⟩ := plain_before
  refine ⟨s, e, (delete_panics_iff Fn.comp (0, 0) _ e (-1)).2 ⟨h3, ?_⟩⟩
  obtain ⟨tr, U, ok, -, -⟩ := run_inv Fn.comp _ (inv_new _) e
  rcases search_any ok Fn.comp (-1) with ⟨i, -, es⟩ | es
  · refine ⟨i, es, ?_⟩
    have hit := search_hits ok.holds es
    have h0 : Fn.comp (-1) (s.1.heap.kv i).1 = 0 := by
      have := Fn.comp_strict.range (-1 : Int) (s.1.heap.kv i).1; have := hit.1; have := hit.2; omega
    have := Fn.comp_strict.eq_of _ _ h0
    rw [← this]; decide
  · rw [get, es] at h1; cases h1

/-- `one_low_delete_returns` on the same calls without the last one but with a second deletion of a key that is not low. -/
example : ∃ s, run Fn.comp (new ((0 : Int), (0 : Int)), []) [.put (-1) 10, .put (-2) 20, .put 1 30, .delete 1, .put 7 70, .deleteKeys [7, -2, 3]] = .ok s :=
  one_low_delete_returns Fn.comp_strict.toThreeWay _ _ (by intro j h; simp at h) (by decide)

end Gds.RBTree
