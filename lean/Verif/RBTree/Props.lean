import Verif.RBTree.History
import Verif.Fn.Props

/-! C57–C62, C76, C77: the red-black tree. -/

namespace Gds.RBTree

variable {K V : Type}

/-! ### Small trees, for the refutations -/

theorem put_first {z : K × V} {t : Tree K V} {U : List Nat} (h : OK z t .nil U) (cmp : Compare K) (k : K) (v : V) :
    ∃ n t', put cmp t k v = .ok (true, t') ∧ n ∉ U ∧ OK z t' (.node .nil n .nil) (n :: U) ∧ t'.size = t.size + 1 ∧ t'.heap.kv n = (k, v) ∧
      (∀ j ∈ U, t'.heap.kv j = t.heap.kv j) ∧ t'.heap.left 0 = some n := by
  obtain ⟨n, t', e', hn, ok', hsz, hkv, hl, hr⟩ := insertAt_empty h k v
  refine ⟨n, { t' with size := t'.size + 1 }, ?_, hn, ⟨ok'.holds, ok'.rb, ok'.buf, ok'.sub, ok'.zero⟩, ?_, ?_, ?_, hl⟩
  · have : descend cmp t.heap k (t.heap.parent 0) none = .ok (.missing none) := by rw [h.holds.root, T.root_nil, descend]; rfl
    rw [put, putInner, this]
    simp only [Res.bind_ok]
    rw [show (allocNode t k v >>= fun x => link x.2.heap x.1 none >>= fun m => pure (true, { x.2 with heap := m })) = insertAt t k v none from rfl, e']; rfl
  · show t'.size + 1 = _; rw [hsz]
  · show t'.heap.kv n = _; rw [hkv, if_pos rfl]
  · intro j hj; show t'.heap.kv j = _; rw [hkv, if_neg]; rintro rfl; exact hn hj

/-- The descent ends at a root without left child: the key is below the root's, or there is no right child either. -/
theorem descend_root {z : K × V} {t : Tree K V} {U : List Nat} {a : Nat} {R : T} (h : OK z t (.node .nil a R) U) (cmp : Compare K) (k : K)
    (hk : cmp k (t.heap.kv a).1 = -1 ∨ (cmp k (t.heap.kv a).1 = 1 ∧ R = .nil)) :
    descend cmp t.heap k (t.heap.parent 0) none = .ok (.missing (some a)) := by
  have hl : t.heap.left a = none := h.holds.rep.2.1
  have hr : t.heap.right a = R.root := h.holds.rep.2.2.1
  rw [h.holds.root, T.root_node, descend]
  rcases hk with hk | ⟨hk, rfl⟩
  · simp only [hk, if_true, hl]; rw [descend]; rfl
  · rw [T.root_nil] at hr
    simp only [hk, hr]; rw [if_neg (by decide), if_pos trivial, descend]; rfl

theorem root_black {z : K × V} {t : Tree K V} {U : List Nat} {a : Nat} {L R : T} (h : OK z t (.node L a R) U) : t.heap.color a = Black := h.rb.1

theorem put_second {z : K × V} {t : Tree K V} {U : List Nat} {a : Nat} {R : T} (h : OK z t (.node .nil a R) U) (cmp : Compare K) (k : K) (v : V)
    (hk : cmp k (t.heap.kv a).1 = -1 ∨ (cmp k (t.heap.kv a).1 = 1 ∧ R = .nil)) :
    ∃ n t', put cmp t k v = .ok (true, t') ∧ n ∉ U ∧ OK z t' (.node .nil a (.node .nil n .nil)) (n :: U) ∧ t'.size = t.size + 1 ∧ t'.heap.kv n = (k, v) ∧
      (∀ j ∈ U, t'.heap.kv j = t.heap.kv j) ∧ t'.heap.left 0 = t.heap.left 0 := by
  obtain ⟨n, t', tr', e', hn, ok', hsz, hi', hkv, hl, hr, hsh⟩ := insertAt_spec (c := .top) h (.inl rfl) k v
  obtain rfl := hsh (root_black h)
  refine ⟨n, { t' with size := t'.size + 1 }, ?_, hn, ⟨ok'.holds, ok'.rb, ok'.buf, ok'.sub, ok'.zero⟩, ?_, ?_, ?_, hl⟩
  · rw [put, putInner, descend_root h cmp k hk]
    simp only [Res.bind_ok]
    rw [show (allocNode t k v >>= fun x => link x.2.heap x.1 (some a) >>= fun m => pure (true, { x.2 with heap := m })) = insertAt t k v (some a) from rfl, e']; rfl
  · show t'.size + 1 = _; rw [hsz]
  · show t'.heap.kv n = _; rw [hkv, if_pos rfl]
  · intro j hj; show t'.heap.kv j = _; rw [hkv, if_neg]; rintro rfl; exact hn hj

theorem run_cons {cmp : Compare K} {s s' : Tree K V × List Nat} {op : Op K V} {ops : List (Op K V)} (e : step cmp s op = .ok s') :
    run cmp s (op :: ops) = run cmp s' ops := by rw [run, e]; rfl

theorem run_nil (cmp : Compare K) (s : Tree K V × List Nat) : run cmp s [] = .ok s := rfl

/-! ### C57: the tree as a map -/

/-- C57 is false: after `Put` of three keys in the order middle, greatest, least, the greatest is not found, although `Size` is 3
and nothing was deleted. -/
theorem map_refuted {cmp : Compare K} (hc : cmp.ThreeWay) (z : K × V) {k1 k2 k3 : K} (h12 : cmp k1 k2 < 0) (h23 : cmp k2 k3 < 0) (v1 v2 v3 : V) :
    ∃ s, run cmp (new z, []) [.put k2 v2, .put k3 v3, .put k1 v1] = .ok s ∧ get cmp s.1 k3 = .ok none ∧ has cmp s.1 k3 = .ok false ∧
      get cmp s.1 k1 = .ok none ∧ s.1.size = 3 ∧
      specGet cmp k3 (specRun cmp [] [.put k2 v2, .put k3 v3, .put k1 v1]) = some v3 ∧
      specGet cmp k1 (specRun cmp [] [.put k2 v2, .put k3 v3, .put k1 v1]) = some v1 := by
  have h13 := hc.lt_trans h12 h23
  have r12 : cmp k1 k2 = -1 := by have := hc.range k1 k2; omega
  have r32 : cmp k3 k2 = 1 := by have := hc.range k3 k2; have := (hc.flip k2 k3).1 h23; omega
  have r31 : cmp k3 k1 = 1 := by have := hc.range k3 k1; have := (hc.flip k1 k3).1 h13; omega
  obtain ⟨a, t1, e1, ha, ok1, s1, kv1, -, -⟩ := put_first (ok_new z) cmp k2 v2
  obtain ⟨b, t2, e2, hb, ok2, s2, kv2, o2, -⟩ := put_second ok1 cmp k3 v3 (.inr ⟨by rw [kv1]; exact r32, rfl⟩)
  have kv2a : t2.heap.kv a = (k2, v2) := by rw [o2 a (by simp), kv1]
  obtain ⟨n, t3, e3, hn, ok3, s3, kv3, o3, -⟩ := put_second ok2 cmp k1 v1 (.inl (by rw [kv2a]; exact r12))
  have kv3a : t3.heap.kv a = (k2, v2) := by rw [o3 a (by simp), kv2a]
  have hs : search cmp t3.heap k3 = .ok none := by
    obtain ⟨-, la, ra, -, -, ln, rn, -⟩ := ok3.holds.rep
    rw [search, ok3.holds.root, T.root_node, searchFrom]
    simp only [kv3a, r32, ra, T.root_node]
    rw [if_neg (by decide), if_pos trivial, searchFrom]
    simp only [kv3, r31, rn, T.root_nil]
    rw [if_neg (by decide), if_pos trivial, searchFrom]; rfl
  have hs1 : search cmp t3.heap k1 = .ok none := by
    obtain ⟨-, la, ra, -, -, ln, rn, -⟩ := ok3.holds.rep
    rw [search, ok3.holds.root, T.root_node, searchFrom]
    simp only [kv3a, r12, la, T.root_nil]
    rw [if_pos trivial, searchFrom]; rfl
  refine ⟨(t3, []), ?_, by rw [get, hs]; rfl, by rw [has, hs]; rfl, by rw [get, hs1]; rfl, ?_, ?_, ?_⟩
  · rw [run_cons (s' := (t1, [])) (by rw [step, e1]; rfl), run_cons (s' := (t2, [])) (by rw [step, e2]; rfl), run_cons (s' := (t3, [])) (by rw [step, e3]; rfl)]; rfl
  · show t3.size = 3; rw [s3, s2, s1]; rfl
  · have p32 : ¬ cmp k3 k2 < 0 := by omega
    simp [specRun, specStep, specPut, specGet, r32, r12, r31, hc.self, h12]
  · simp [specRun, specStep, specPut, specGet, r32, r12, hc.self, h12]

/-- C57 for the histories that put keys in ascending order (`Ascending`: every key put is stored already or above all stored keys;
any deletions, in any order, by any of the three methods, and `Clear`): every call returns and the tree is the map. -/
theorem map_partial {cmp : Compare K} (hc : cmp.ThreeWay) (z : K × V) (ops : List (Op K V)) (ha : Ascending cmp [] ops) :
    ∃ s, run cmp (new z, []) ops = .ok s ∧
      ∀ k, get cmp s.1 k = .ok (specGet cmp k (specRun cmp [] ops)) ∧ has cmp s.1 k = .ok (specGet cmp k (specRun cmp [] ops)).isSome := by
  obtain ⟨s, e, h⟩ := Sim.run hc ops (g := False) (s := (new z, [])) (Sim.new z cmp _) ha (by simp)
  exact ⟨s, e, fun k => Sim.get hc h k⟩

/-- What the calls return in such histories: `Put` whether the key is new, `DeleteKeys` how many keys were stored, and
`DeleteByWholeMapping` whether the key was stored with that value. -/
theorem results_partial {cmp : Compare K} (hc : cmp.ThreeWay) (z : K × V) (ops : List (Op K V)) (ha : Ascending cmp [] ops) :
    ∃ s, run cmp (new z, []) ops = .ok s ∧
      (∀ k v, Ascending cmp (specRun cmp [] ops) [.put k v] → ∃ t', put cmp s.1 k v = .ok ((specGet cmp k (specRun cmp [] ops)).isNone, t')) ∧
      (∀ k, ∃ n t', delete cmp s.1 k = .ok (n, t') ∧ n.isSome = (specGet cmp k (specRun cmp [] ops)).isSome) ∧
      (∀ ks, ∃ n t', deleteKeys cmp s.1 ks = .ok (n, t') ∧ n + (specStep cmp (specRun cmp [] ops) (.deleteKeys ks)).length = (specRun cmp [] ops).length) ∧
      ∀ k v vc, ∃ b t', deleteByWholeMapping cmp vc s.1 k v = .ok (b, t') ∧ (b = true ↔ ∃ w, specGet cmp k (specRun cmp [] ops) = some w ∧ vc v w = 0) := by
  obtain ⟨s, e, h⟩ := Sim.run hc ops (g := False) (s := (new z, [])) (Sim.new z cmp _) ha (by simp)
  refine ⟨s, e, ?_, ?_, ?_, ?_⟩
  · intro k v hk; obtain ⟨t', e', -⟩ := Sim.put hc h k v hk.1; exact ⟨t', e'⟩
  · intro k
    obtain ⟨tr, U, h⟩ := h
    rcases Sim.delete hc h k (by simp) with ⟨e', h1, -⟩ | ⟨rm, t', tr', e', h1, -⟩
    · exact ⟨none, s.1, e', by rw [h1]; rfl⟩
    · refine ⟨some rm, t', e', ?_⟩
      cases hh : specGet cmp k (specRun cmp [] ops) with
      | none => exact absurd hh h1
      | some => rfl
  · intro ks; obtain ⟨n, t', e', -, hn⟩ := Sim.deleteKeys hc ks h (by simp); exact ⟨n, t', e', hn⟩
  · intro k v vc; obtain ⟨b, t', e', -, hb⟩ := Sim.deleteMapping hc h k v vc (by simp); exact ⟨b, t', e', hb⟩

/-! ### C58: balance -/

/-- C58: after any history whatever (also with misplaced keys, whatever the comparator does) the pointers form a binary tree that is
red-black: black root, no red node with a red child, equally many black nodes on every path; hence its height is at most
2·log2(n+1). -/
theorem balanced (cmp : Compare K) (z : K × V) (ops : List (Op K V)) {s : Tree K V × List Nat} (e : run cmp (new z, []) ops = .ok s) :
    ∃ t : T, Holds s.1.heap t ∧ RB s.1.heap.color t ∧ 2 ^ t.height ≤ (t.ids.length + 1) ^ 2 := by
  obtain ⟨tr, U, ok, -, -⟩ := run_inv cmp ops (inv_new z) e
  exact ⟨tr, ok.holds, ok.rb, rb_height ok.rb⟩

/-! ### C59: rotations -/

/-- C59: on any pointer tree, at any node with a right child, `leftRotate` returns, the result is a pointer tree with the same nodes in
the same order, entries and colours are untouched, and the child has become the parent. -/
theorem leftRotate_inorder {m : Heap K V} {t : T} (h : Holds m t) {x y : Nat} (hx : x ∈ t.ids) (hy : m.right x = some y) :
    ∃ m' t', leftRotate m (some x) = .ok m' ∧ Holds m' t' ∧ t'.ids = t.ids ∧ m'.kv = m.kv ∧ m'.color = m.color ∧
      m'.left y = some x ∧ m'.parent x = some y ∧ m'.right x = m.left y ∧ m'.left x = m.left x ∧ m'.right y = m.right y := by
  obtain ⟨c, l, r, hp⟩ := exists_ctx t x hx .top
  simp only [Ctx.plug] at hp; subst hp
  obtain ⟨-, -, hl, hr, -, hrr⟩ := h.split
  rw [hy] at hr
  cases r with
  | nil => cases hr
  | node B y' C =>
    obtain rfl : y = y' := by simpa using hr
    obtain ⟨m', e, h', hc, hk, -⟩ := leftRotate_spec h
    obtain ⟨-, -, h1, h2, ⟨h3, h4, h5, -⟩, -⟩ := h'.split
    refine ⟨m', _, e, h', by simp [ids_plug, T.ids], hk, hc, by simpa using h1, by simpa using h3, ?_, ?_, ?_⟩
    · rw [h5, hrr.2.1]
    · rw [h4, hl]
    · rw [h2, hrr.2.2.1]

theorem rightRotate_inorder {m : Heap K V} {t : T} (h : Holds m t) {x y : Nat} (hx : x ∈ t.ids) (hy : m.left x = some y) :
    ∃ m' t', rightRotate m (some x) = .ok m' ∧ Holds m' t' ∧ t'.ids = t.ids ∧ m'.kv = m.kv ∧ m'.color = m.color ∧
      m'.right y = some x ∧ m'.parent x = some y ∧ m'.left x = m.right y ∧ m'.right x = m.right x ∧ m'.left y = m.left y := by
  obtain ⟨c, l, r, hp⟩ := exists_ctx t x hx .top
  simp only [Ctx.plug] at hp; subst hp
  obtain ⟨-, -, hl, hr, hll, -⟩ := h.split
  rw [hy] at hl
  cases l with
  | nil => cases hl
  | node C y' B =>
    obtain rfl : y = y' := by simpa using hl
    obtain ⟨m', e, h', hc, hk, -⟩ := rightRotate_spec h
    obtain ⟨-, -, h1, h2, -, ⟨h3, h4, h5, -⟩⟩ := h'.split
    refine ⟨m', _, e, h', by simp [ids_plug, T.ids], hk, hc, by simpa using h2, by simpa using h3, ?_, ?_, ?_⟩
    · rw [h4, hll.2.2.1]
    · rw [h5, hr]
    · rw [h1, hll.2.1]

/-! ### C60: iteration -/

theorem minChild_self {m : Heap K V} (h : m.left 0 = some 0) : minChild m (some 0) = .hang := by
  apply minChild.fixpoint_induct m (fun f => f (some 0) = .hang)
  · exact Lean.Order.admissible_apply (fun _ (r : Res (Option Nat)) => r = .hang) (some 0) (Lean.Order.admissible_flatOrder (fun (r : Res (Option Nat)) => r = .hang) rfl)
  · intro f hf
    simp [Heap.leftOf, h, hf]

/-- C60 is false: the first pull of an iterator of a new tree (or a cleared one) never returns. -/
theorem iter_empty_refuted (cmp : Compare K) (z : K × V) (ops : List (Op K V)) (s : Tree K V × List Nat) (e : run cmp (new z, []) ops = .ok s) :
    iterCall (new z).heap ((new z).heap.left 0) = .hang ∧ toList (new z) = .hang ∧
    run cmp (new z, []) (ops ++ [.clear]) = .ok (clear s.1, s.2) ∧ toList (clear s.1) = .hang := by
  have key : ∀ t : Tree K V, t.heap.left 0 = some 0 → t.heap.right 0 = some 0 → iterCall t.heap (t.heap.left 0) = .hang ∧ toList t = .hang := by
    intro t hl hr
    have h1 : iterCall t.heap (t.heap.left 0) = .hang := by
      rw [hl, iterCall, next]; simp [Heap.rightOf, hr, minChild_self hl]
    exact ⟨h1, by rw [toList, drain, h1]; rfl⟩
  refine ⟨(key (new z) rfl rfl).1, (key (new z) rfl rfl).2, ?_, (key (clear s.1) rfl rfl).2⟩
  have : ∀ (s0 : Tree K V × List Nat), run cmp s0 ops = .ok s → run cmp s0 (ops ++ [.clear]) = .ok (clear s.1, s.2) := by
    clear e
    intro s0 e
    induction ops generalizing s0 with
    | nil => simp only [run, Res.pure_eq, Res.ok.injEq] at e; subst e; rfl
    | cons op ops ih =>
      rw [List.cons_append, run]
      rw [run] at e
      cases e1 : step cmp s0 op with
      | ok s1 => rw [e1] at e; exact ih s1 e
      | panic k => rw [e1] at e; cases e
      | hang => rw [e1] at e; cases e
  exact this _ e

theorem ids_singleton {t : T} {b : Nat} (h : t.ids = [b]) : t = .node .nil b .nil := by
  cases t with
  | nil => simp [T.ids] at h
  | node l i r =>
    have := congrArg List.length h
    simp only [T.ids, List.length_append, List.length_cons, List.length_nil] at this
    have hl : l.ids = [] := List.eq_nil_of_length_eq_zero (by omega)
    have hr : r.ids = [] := List.eq_nil_of_length_eq_zero (by omega)
    obtain rfl := T.eq_nil_of_ids hl
    obtain rfl := T.eq_nil_of_ids hr
    simp [T.ids] at h; rw [h]

/-- C60 is false: two ascending puts, then `Delete` of the lesser key `k1` (not below the zero key).  An iterator, if it returns,
still delivers `k1` first, although `Has k1` is false and `Size` is 1. -/
theorem iter_stale_refuted {cmp : Compare K} (hc : cmp.ThreeWay) (z : K × V) {k1 k2 : K} (h12 : cmp k1 k2 < 0) (hz : 0 ≤ cmp k1 z.1) (v1 v2 : V) :
    ∃ s nx, run cmp (new z, []) [.put k1 v1, .put k2 v2, .delete k1] = .ok s ∧ has cmp s.1 k1 = .ok false ∧ s.1.size = 1 ∧
      (iterCall s.1.heap (s.1.heap.left 0) = .ok (some (k1, v1), nx) ∨ (iterCall s.1.heap (s.1.heap.left 0)).isOk = false) ∧
      ∀ L, toList s.1 = .ok L → L.head? = some (k1, v1) := by
  have r21 : cmp k2 k1 = 1 := by have := hc.range k2 k1; have := (hc.flip k1 k2).1 h12; omega
  have r12 : cmp k1 k2 = -1 := by have := hc.range k1 k2; omega
  obtain ⟨a, t1, e1, ha, ok1, s1, kv1, -, l1⟩ := put_first (ok_new z) cmp k1 v1
  obtain ⟨b, t2, e2, hb, ok2, s2, kv2, o2, l2⟩ := put_second ok1 cmp k2 v2 (.inr ⟨by rw [kv1]; exact r21, rfl⟩)
  have kv2a : t2.heap.kv a = (k1, v1) := by rw [o2 a (by simp), kv1]
  have hab : b ≠ a := by rintro rfl; simp at hb
  have hsa : search cmp t2.heap k1 = .ok (some a) := by
    rw [search, ok2.holds.root, T.root_node, searchFrom]
    simp only [kv2a, hc.self]; rfl
  have hsz : t2.size = 2 := by rw [s2, s1]; rfl
  rcases removeNode_spec ok2 (as := []) (bs := [b]) (i := a) rfl cmp with ⟨h1, h2, -⟩ | ⟨-, rm, t3, tr3, e3, R⟩
  · rw [l2, l1] at h1; cases h1
  have hrm : rm = a ∧ tr3.ids = [b] := by rcases R.ids with ⟨h1, h2⟩ | ⟨h1, -⟩; exact ⟨h1, h2⟩; exact absurd rfl h1
  have hed : delete cmp t2 k1 = .ok (some a, t3) := by rw [delete, hsa]; rw [hrm.1] at e3; exact e3
  have hleft : t3.heap.left 0 = some a := by
    rw [R.left, R.size, hsz, if_neg (by omega), leftAfter, kv2a, ok2.zero, if_pos (by simp only; omega), l2, l1]
  have kva : t3.heap.kv a = (k1, v1) := by rw [R.kv, if_pos rfl, hrm.1, kv2a]
  have kvb : t3.heap.kv b = (k2, v2) := by rw [R.kv, if_neg hab, kv2]
  have hrn : run cmp (new z, []) [.put k1 v1, .put k2 v2, .delete k1] = .ok (t3, [a]) := by
    rw [run_cons (s' := (t1, [])) (by rw [step, e1]; rfl), run_cons (s' := (t2, [])) (by rw [step, e2]; rfl), run_cons (s' := (t3, [a])) (by rw [step, hed]; rfl)]; rfl
  have hhas : has cmp t3 k1 = .ok false := by
    have hsh := ids_singleton hrm.2
    have hh := R.ok.holds
    rw [hsh] at hh
    rw [has, search, hh.root, T.root_node, searchFrom]
    simp only [kvb, r12, if_true, hh.rep.2.1, T.root_nil]
    rw [searchFrom]; rfl
  have hL : ∀ L, toList t3 = .ok L → L.head? = some (k1, v1) := by
    intro L hL
    rw [toList, hleft, drain, iterCall] at hL
    cases hn : next t3.heap (some a) with
    | ok nx =>
      simp only [hn, Res.bind_ok, Res.pure_eq] at hL
      cases hd : drain t3.heap nx with
      | ok es => rw [hd] at hL; simp only [Res.bind_ok, Res.ok.injEq] at hL; rw [← hL, kva]; rfl
      | panic k => rw [hd] at hL; cases hL
      | hang => rw [hd] at hL; cases hL
    | panic k => simp [hn] at hL
    | hang => simp [hn] at hL
  cases hn : next t3.heap (some a) with
  | ok nx => exact ⟨(t3, [a]), nx, hrn, hhas, by show t3.size = 1; rw [R.size, hsz]; rfl, .inl (by rw [hleft, iterCall, hn, ← kva]; rfl), hL⟩
  | panic k => exact ⟨(t3, [a]), none, hrn, hhas, by show t3.size = 1; rw [R.size, hsz]; rfl, .inr (by rw [hleft, iterCall, hn]; rfl), hL⟩
  | hang => exact ⟨(t3, [a]), none, hrn, hhas, by show t3.size = 1; rw [R.size, hsz]; rfl, .inr (by rw [hleft, iterCall, hn]; rfl), hL⟩

/-- C60 for ascending histories that do not delete the least key while others remain, unless it is below the zero key (`KeepsFirst`):
if the map is not empty, iteration ends and delivers exactly its entries, in key order. -/
theorem iter_partial {cmp : Compare K} (hc : cmp.ThreeWay) (z : K × V) (ops : List (Op K V)) (ha : Ascending cmp [] ops) (hk : KeepsFirst cmp z.1 [] ops)
    (hne : specRun cmp [] ops ≠ []) :
    ∃ s, run cmp (new z, []) ops = .ok s ∧ toList s.1 = .ok (specRun cmp [] ops) ∧ (specRun cmp [] ops).Pairwise (fun a b => cmp a.1 b.1 < 0) := by
  obtain ⟨s, e, tr, U, h⟩ := Sim.run hc ops (g := True) (s := (new z, [])) (Sim.new z cmp _) ha (fun _ => hk)
  have hids : tr.ids ≠ [] := by rintro hh; apply hne; rw [← h.ents, entries, hh]; rfl
  refine ⟨s, e, ?_, ?_⟩
  · rw [toList, h.first trivial hids, drain_spec h.ok.holds tr.ids [] rfl]; exact congrArg _ h.ents
  · rw [← h.ents, entries, List.pairwise_map]; exact h.asc

/-- Whatever the history, stepping with `Next` from any node of the tree delivers the entries from there to the last one, and ends. -/
theorem next_enumerates (cmp : Compare K) (z : K × V) (ops : List (Op K V)) {s : Tree K V × List Nat} (e : run cmp (new z, []) ops = .ok s) :
    ∃ t : T, Holds s.1.heap t ∧ ∀ as bs, t.ids = as ++ bs → drain s.1.heap bs.head? = .ok (bs.map s.1.heap.kv) := by
  obtain ⟨tr, U, ok, -, -⟩ := run_inv cmp ops (inv_new z) e
  exact ⟨tr, ok.holds, fun as bs h => drain_spec ok.holds bs as h⟩

/-! ### C61: Size -/

/-- C61 is false: `Put k`, `Delete k` and `PutNode` of the returned node leave `Size` 0 with `k` stored. -/
theorem size_refuted {cmp : Compare K} (hc : cmp.ThreeWay) (z : K × V) (k : K) (v : V) :
    ∃ s, run cmp (new z, []) [.put k v, .delete k, .putNode 0] = .ok s ∧ has cmp s.1 k = .ok true ∧ get cmp s.1 k = .ok (some v) ∧ s.1.size = 0 := by
  obtain ⟨a, t1, e1, ha, ok1, s1, kv1, -, l1⟩ := put_first (ok_new z) cmp k v
  have hsa : search cmp t1.heap k = .ok (some a) := by
    rw [search, ok1.holds.root, T.root_node, searchFrom]
    simp only [kv1, hc.self]; rfl
  have hsz : t1.size = 1 := by rw [s1]; rfl
  rcases removeNode_spec ok1 (as := []) (bs := []) (i := a) rfl cmp with ⟨h1, h2, -⟩ | ⟨-, rm, t2, tr2, e2, R⟩
  · rw [l1] at h1; cases h1
  have hrm : rm = a ∧ tr2.ids = [] := by rcases R.ids with ⟨h1, h2⟩ | ⟨h1, -⟩; exact ⟨h1, h2⟩; exact absurd rfl h1
  have hed : delete cmp t1 k = .ok (some a, t2) := by rw [delete, hsa]; rw [hrm.1] at e2; exact e2
  have kva : t2.heap.kv a = (k, v) := by rw [R.kv, if_pos rfl, hrm.1, kv1]
  obtain rfl := T.eq_nil_of_ids hrm.2
  have ha2 : 2 ≤ a := ok1.pos a (by simp)
  obtain ⟨m', e', hh, hrb, hk, hl0, hr0, hs⟩ := link_empty (m := t2.heap) ha2
  have he3 : putNode cmp t2 a = .ok (true, { t2 with heap := m' }) := by
    have : descend cmp t2.heap (t2.heap.kv a).1 (t2.heap.parent 0) none = .ok (.missing none) := by rw [R.ok.holds.root, T.root_nil, descend]; rfl
    rw [putNode, this]; simp [e']
  have hse : search cmp m' k = .ok (some a) := by
    rw [search, hh.root, T.root_node, searchFrom]
    simp only [hk, kva, hc.self]; rfl
  refine ⟨({ t2 with heap := m' }, []), ?_, by rw [has, hse]; rfl, ?_, ?_⟩
  · rw [run_cons (s' := (t1, [])) (by rw [step, e1]; rfl), run_cons (s' := (t2, [a])) (by rw [step, hed]; rfl),
      run_cons (s' := ({ t2 with heap := m' }, [])) (by simp [step, he3])]; rfl
  · rw [get, hse]; simp [hk, kva]
  · show t2.size = 0; rw [R.size, hsz]; rfl

/-- C61 for ascending histories. -/
theorem size_partial {cmp : Compare K} (hc : cmp.ThreeWay) (z : K × V) (ops : List (Op K V)) (ha : Ascending cmp [] ops) :
    ∃ s, run cmp (new z, []) ops = .ok s ∧ s.1.size = (specRun cmp [] ops).length := by
  obtain ⟨s, e, tr, U, h⟩ := Sim.run hc ops (g := False) (s := (new z, [])) (Sim.new z cmp _) ha (by simp)
  exact ⟨s, e, h.size⟩

/-! ### C62: the node buffer -/

/-- The histories of a buffer: `U` are the nodes handed out and not given back.  Its user may write whatever it likes to those nodes,
and to the tree's header. -/
inductive Used (n : Nat) : Buf → Heap K V → List Nat → Prop
  | init (b : Buf) (m : Heap K V) (h : 2 ≤ b.fresh) : Used n (b.init m n).1 (b.init m n).2 []
  | alloc {b b' : Buf} {m m' : Heap K V} {U : List Nat} {x : Nat} : Used n b m U → b.alloc m = .ok (some x, b', m') → Used n b' m' (x :: U)
  | free {b b' : Buf} {m m' : Heap K V} {U : List Nat} {x : Nat} : Used n b m U → x ∈ U → b.free m (some x) = .ok (b', m') → Used n b' m' (U.filter (· ≠ x))
  | write {b : Buf} {m m' : Heap K V} {U : List Nat} : Used n b m U → (∀ i, i ≠ 0 → i ∉ U → m'.right i = m.right i) → Used n b m' U

theorem Used.ok {n : Nat} (hn : 1 ≤ n) {b : Buf} {m : Heap K V} {U : List Nat} (h : Used n b m U) : ∃ FL, BufOK b m U FL := by
  induction h with
  | init b m h => exact ⟨[], BufOK.init b m n hn h⟩
  | alloc _ e ih =>
    obtain ⟨FL, ih⟩ := ih
    obtain ⟨x, b', m', FL', e', -, -, h', -⟩ := ih.alloc
    rw [e] at e'; cases e'; exact ⟨FL', h'⟩
  | free _ hx e ih =>
    obtain ⟨FL, ih⟩ := ih
    obtain ⟨b', m', FL', e', h', -⟩ := ih.freeNode hx
    rw [e] at e'; cases e'; exact ⟨FL', h'⟩
  | write _ hs ih =>
    obtain ⟨FL, ih⟩ := ih
    exact ⟨FL, ih.write hs⟩

/-- C62: `Alloc` always returns a node, and never one that is in use, nor the header or the buffer's own head. -/
theorem alloc_fresh {n : Nat} (hn : 1 ≤ n) {b : Buf} {m : Heap K V} {U : List Nat} (h : Used n b m U) :
    ∃ x b' m', b.alloc m = .ok (some x, b', m') ∧ x ∉ U ∧ x ≠ 0 ∧ x ≠ 1 := by
  obtain ⟨FL, h⟩ := h.ok hn
  obtain ⟨x, b', m', FL', e', h1, h2, -⟩ := h.alloc
  exact ⟨x, b', m', e', h1, by omega, by omega⟩

/-- In the tree's own use of the buffer, the same: a `Put` in any history takes a node that is neither in the tree nor held by a caller. -/
theorem put_takes_fresh (cmp : Compare K) (z : K × V) (ops : List (Op K V)) {s : Tree K V × List Nat} (e : run cmp (new z, []) ops = .ok s) :
    ∃ t : T, Holds s.1.heap t ∧ ∃ x b' m', s.1.buf.alloc s.1.heap = .ok (some x, b', m') ∧ x ∉ t.ids ∧ x ∉ s.2 := by
  obtain ⟨tr, U, ok, -, hs⟩ := run_inv cmp ops (inv_new z) e
  obtain ⟨FL, hb⟩ := ok.buf
  obtain ⟨x, b', m', FL', e', h1, -⟩ := hb.alloc
  exact ⟨tr, ok.holds, x, b', m', e', fun h => h1 (ok.sub x h), fun h => h1 (hs x h).1⟩

/-! ### C76: calls return -/

theorem step_total {z : K × V} {s : Tree K V × List Nat} (cmp : Compare K) (h : Inv z s) (op : Op K V) :
    step cmp s op = .panic .nilDeref ∨ ∃ s', step cmp s op = .ok s' := by
  obtain ⟨tr, U, ok, hn, ho⟩ := h
  cases op with
  | put k v =>
    obtain ⟨b, t', tr', U', e', -⟩ := put_any ok cmp k v
    exact .inr ⟨(t', s.2), by rw [step, e']; rfl⟩
  | delete k =>
    rcases delete_any ok cmp k with e' | e' | ⟨rm, t', tr', e', -⟩
    · left; rw [step, e']; rfl
    · exact .inr ⟨(s.1, s.2), by rw [step, e']; rfl⟩
    · exact .inr ⟨(t', rm :: s.2), by rw [step, e']; rfl⟩
  | deleteKeys ks =>
    rcases deleteKeys_any cmp ks ok with e' | ⟨n, t', tr', U', e', -⟩
    · left; rw [step, e']; rfl
    · exact .inr ⟨(t', s.2), by rw [step, e']; rfl⟩
  | deleteMapping k v vc =>
    rcases deleteMapping_any ok cmp vc k v with e' | ⟨n, t', tr', U', e', -⟩
    · left; rw [step, e']; rfl
    · exact .inr ⟨(t', s.2), by rw [step, e']; rfl⟩
  | clear => exact .inr ⟨_, rfl⟩
  | putNode j =>
    cases hj : s.2[j]? with
    | none => exact .inr ⟨s, by simp [step, hj]⟩
    | some x =>
      have hx : x ∈ s.2 := List.mem_of_getElem? hj
      obtain ⟨b, t', tr', e', -⟩ := putNode_any ok cmp (ho x hx).1 (ho x hx).2
      exact .inr ⟨(t', if b then s.2.eraseIdx j else s.2), by simp [step, hj, e']⟩

/-- C76: no history of calls, whatever the comparator, gets stuck in a loop; a call that does not return dereferences nil. -/
theorem calls_terminate (cmp : Compare K) (z : K × V) (ops : List (Op K V)) :
    run cmp (new z, []) ops = .panic .nilDeref ∨ ∃ s, run cmp (new z, []) ops = .ok s := by
  have : ∀ s0 : Tree K V × List Nat, Inv z s0 → run cmp s0 ops = .panic .nilDeref ∨ ∃ s, run cmp s0 ops = .ok s := by
    induction ops with
    | nil => intro s0 _; exact .inr ⟨s0, rfl⟩
    | cons op ops ih =>
      intro s0 h
      rcases step_total cmp h op with e | ⟨s1, e⟩
      · left; rw [run, e]; rfl
      · rw [run_cons e]; exact ih s1 (step_inv cmp h op e)
  exact this _ (inv_new z)

/-- C76: lookups return in every history. -/
theorem lookups_return (cmp : Compare K) (z : K × V) (ops : List (Op K V)) {s : Tree K V × List Nat} (e : run cmp (new z, []) ops = .ok s) (k : K) :
    (∃ v, get cmp s.1 k = .ok v) ∧ ∃ b, has cmp s.1 k = .ok b := by
  obtain ⟨tr, U, ok, -, -⟩ := run_inv cmp ops (inv_new z) e
  rcases search_any ok cmp k with ⟨i, -, h⟩ | h
  · exact ⟨⟨some (s.1.heap.kv i).2, by rw [get, h]; rfl⟩, true, by rw [has, h]; rfl⟩
  · exact ⟨⟨none, by rw [get, h]; rfl⟩, false, by rw [has, h]; rfl⟩

theorem removeNode_ok {cmp : Compare K} {z : K × V} (hz : ∀ k, 0 ≤ cmp k z.1) {t : Tree K V} {tr : T} {U : List Nat} (h : OK z t tr U) {i : Nat} (hi : i ∈ tr.ids) :
    removeNode cmp t i ≠ .panic .nilDeref := by
  obtain ⟨as, bs, hab⟩ := List.append_of_mem hi
  rcases removeNode_spec h hab cmp with ⟨-, h1, -⟩ | ⟨-, rm, t', tr', e, -⟩
  · have := hz (t.heap.kv i).1; omega
  · rw [e]; simp

theorem delete_ok {cmp : Compare K} {z : K × V} (hz : ∀ k, 0 ≤ cmp k z.1) {t : Tree K V} {tr : T} {U : List Nat} (h : OK z t tr U) (k : K) :
    delete cmp t k ≠ .panic .nilDeref := by
  rw [delete]
  rcases search_any h cmp k with ⟨i, hi, e⟩ | e
  · rw [e]; exact removeNode_ok hz h hi
  · rw [e]; simp

theorem deleteKeys_ok {cmp : Compare K} {z : K × V} (hz : ∀ k, 0 ≤ cmp k z.1) (ks : List K) {t : Tree K V} {tr : T} {U : List Nat} (h : OK z t tr U) :
    deleteKeys cmp t ks ≠ .panic .nilDeref := by
  induction ks generalizing t tr U with
  | nil => simp [deleteKeys]
  | cons k ks ih =>
    rw [deleteKeys]
    rcases delete_any h cmp k with e | e | ⟨rm, t', tr', e, ok', h1, h2, h3, -⟩
    · exact absurd e (delete_ok hz h k)
    · rw [e]; simp only [Res.bind_ok, ne_eq, not_true_eq_false, if_false]; exact ih h
    · obtain ⟨t2, e2, ok2, -, -, -⟩ := freeNode_spec ok' (h.sub rm h1) h2
      rw [e]
      simp only [Res.bind_ok, ne_eq, reduceCtorEq, not_false_eq_true, if_true, e2]
      have := ih ok2
      cases hd : deleteKeys cmp t2 ks with
      | ok r => simp
      | panic k => rw [hd] at this; simpa using this
      | hang => simp

/-- C76: if no key is below the zero value of its type (strings, unsigned numbers), every call of every history returns. -/
theorem calls_return_partial {cmp : Compare K} {z : K × V} (hz : ∀ k, 0 ≤ cmp k z.1) (ops : List (Op K V)) : ∃ s, run cmp (new z, []) ops = .ok s := by
  have : ∀ s0 : Tree K V × List Nat, Inv z s0 → ∃ s, run cmp s0 ops = .ok s := by
    induction ops with
    | nil => intro s0 _; exact ⟨s0, rfl⟩
    | cons op ops ih =>
      intro s0 h
      rcases step_total cmp h op with e | ⟨s1, e⟩
      · exfalso
        obtain ⟨tr, U, ok, hn, ho⟩ := h
        cases op with
        | put k v =>
          obtain ⟨b, t', tr', U', e', -⟩ := put_any ok cmp k v
          rw [step, e'] at e; cases e
        | delete k =>
          have := delete_ok hz ok k
          rw [step] at e
          cases hd : delete cmp s0.1 k <;> rw [hd] at e this <;> simp_all
        | deleteKeys ks =>
          have := deleteKeys_ok hz ks ok
          rw [step] at e
          cases hd : deleteKeys cmp s0.1 ks <;> rw [hd] at e this <;> simp_all
        | deleteMapping k v vc =>
          rw [step] at e
          rcases deleteMapping_any ok cmp vc k v with e' | ⟨n, t', tr', U', e', -⟩
          · rw [deleteByWholeMapping] at e'
            rcases search_any ok cmp k with ⟨i, hi, es⟩ | es
            · rw [es] at e'
              simp only [Res.bind_ok] at e'
              have := removeNode_ok hz ok hi
              split at e'
              · obtain ⟨as, bs, hab⟩ := List.append_of_mem hi
                rcases removeNode_spec ok hab cmp with ⟨_, _, e2⟩ | ⟨_, rm, t', tr', e2, R⟩
                · exact this e2
                · obtain ⟨h1, h2⟩ := rm_out ok.holds.nodup hab R.ids
                  obtain ⟨t2, e3, ok2, -, -, -⟩ := freeNode_spec R.ok (ok.sub rm R.mem) h1
                  simp [e2, e3] at e'
              · cases e'
            · rw [es] at e'; cases e'
          · rw [e'] at e; cases e
        | clear => cases e
        | putNode j =>
          cases hj : s0.2[j]? with
          | none => simp [step, hj] at e
          | some x =>
            have hx : x ∈ s0.2 := List.mem_of_getElem? hj
            obtain ⟨b, t', tr', e', -⟩ := putNode_any ok cmp (ho x hx).1 (ho x hx).2
            simp [step, hj, e'] at e
      · rw [run_cons e]; exact ih s1 (step_inv cmp h op e)
  exact this _ (inv_new z)

/-- C76 is false in general: `Put b`, `Delete b`, `Put a`, `PutNode` of b's node, `Delete a`, `Delete b` panics, for a < b below the zero key. -/
theorem calls_return_refuted {cmp : Compare K} (hc : cmp.ThreeWay) (z : K × V) {k1 k2 : K} (h12 : cmp k1 k2 < 0) (hz : cmp k2 z.1 < 0) (v1 v2 : V) :
    run cmp (new z, []) [.put k2 v2, .delete k2, .put k1 v1, .putNode 0, .delete k1, .delete k2] = .panic .nilDeref := by
  have r21 : cmp k2 k1 = 1 := by have := hc.range k2 k1; have := (hc.flip k1 k2).1 h12; omega
  obtain ⟨a, t1, e1, ha, ok1, s1, kv1, -, l1⟩ := put_first (ok_new z) cmp k2 v2
  have hsa : search cmp t1.heap k2 = .ok (some a) := by
    rw [search, ok1.holds.root, T.root_node, searchFrom]
    simp only [kv1, hc.self]; rfl
  have hsz : t1.size = 1 := by rw [s1]; rfl
  rcases removeNode_spec ok1 (as := []) (bs := []) (i := a) rfl cmp with ⟨h1, h2, -⟩ | ⟨-, rm, t2, tr2, e2, R⟩
  · rw [l1] at h1; cases h1
  have hrm : rm = a ∧ tr2.ids = [] := by rcases R.ids with ⟨h1, h2⟩ | ⟨h1, -⟩; exact ⟨h1, h2⟩; exact absurd rfl h1
  have hed : delete cmp t1 k2 = .ok (some a, t2) := by rw [delete, hsa]; rw [hrm.1] at e2; exact e2
  have kva : t2.heap.kv a = (k2, v2) := by rw [R.kv, if_pos rfl, hrm.1, kv1]
  obtain rfl := T.eq_nil_of_ids hrm.2
  have s2 : t2.size = 0 := by rw [R.size, hsz]; rfl
  obtain ⟨b, t3, e3, hb, ok3, s3, kv3, o3, l3⟩ := put_first R.ok cmp k1 v1
  have kv3a : t3.heap.kv a = (k2, v2) := by rw [o3 a (by simp), kva]
  have hab : a ≠ b := by rintro rfl; simp at hb
  have ha2 : 2 ≤ a := ok1.pos a (by simp)
  obtain ⟨m4, tr4, e4, hh4, -, hrb4, hk4, hl4, -, hs4, hsh4⟩ := link_spec (c := .top) ok3.holds ok3.rb (.inl rfl) ha2 (by simpa [T.ids, Ctx.plug] using hab)
  obtain rfl := hsh4 (root_black ok3)
  simp only [Ctx.plug] at hh4 hrb4
  obtain ⟨FL, hb3⟩ := ok3.buf
  have ok4 : OK z { t3 with heap := m4 } (.node .nil b (.node .nil a .nil)) (b :: a :: []) := by
    refine ⟨hh4, hrb4, ⟨FL, hb3.write (fun j h0 hj => ?_)⟩, by simp [T.ids], by show m4.kv 0 = z; rw [hk4]; exact ok3.zero⟩
    simp only [List.mem_cons, List.not_mem_nil, or_false, not_or] at hj
    exact (hs4 j h0 (by simpa [T.ids, Ctx.plug] using hj.1) hj.2).2.2
  have hp4 : putNode cmp t3 a = .ok (true, { t3 with heap := m4 }) := by
    have : descend cmp t3.heap (t3.heap.kv a).1 (t3.heap.parent 0) none = .ok (.missing (some b)) :=
      descend_root ok3 cmp _ (.inr ⟨by rw [kv3, kv3a]; exact r21, rfl⟩)
    rw [putNode, this]; simp [e4]
  have hs5 : search cmp m4 k1 = .ok (some b) := by
    rw [search, hh4.root, T.root_node, searchFrom]
    simp only [hk4, kv3, hc.self]; rfl
  rcases removeNode_spec ok4 (as := []) (bs := [a]) (i := b) rfl cmp with ⟨h1, h2, -⟩ | ⟨-, rm5, t5, tr5, e5, R5⟩
  · have : t3.heap.left 0 = none := by rw [← hl4]; exact h1
    rw [l3] at this; cases this
  have hrm5 : rm5 = b ∧ tr5.ids = [a] := by rcases R5.ids with ⟨h1, h2⟩ | ⟨h1, -⟩; exact ⟨h1, h2⟩; exact absurd rfl h1
  have hed5 : delete cmp { t3 with heap := m4 } k1 = .ok (some b, t5) := by rw [delete, hs5]; rw [hrm5.1] at e5; exact e5
  have s5 : t5.size = 0 := by rw [R5.size]; show t3.size - 1 = 0; rw [s3, s2]; rfl
  have kv5 : t5.heap.kv a = (k2, v2) := by rw [R5.kv, if_neg hab]; show m4.kv a = _; rw [hk4, kv3a]
  have l5 : t5.heap.left 0 = none := by rw [R5.left, s5, if_pos rfl]
  have sh5 := ids_singleton hrm5.2
  have ok5 := R5.ok
  rw [sh5] at ok5
  have hs6 : search cmp t5.heap k2 = .ok (some a) := by
    rw [search, ok5.holds.root, T.root_node, searchFrom]
    simp only [kv5, hc.self]; rfl
  have e6 : delete cmp t5 k2 = .panic .nilDeref := by
    rw [delete, hs6]
    rcases removeNode_spec ok5 (as := []) (bs := []) (i := a) rfl cmp with ⟨h1, h2, h3⟩ | ⟨h1, -⟩
    · exact h3
    · have := h1 l5; rw [kv5] at this; simp only at this; omega
  rw [run_cons (s' := (t1, [])) (by rw [step, e1]; rfl), run_cons (s' := (t2, [a])) (by rw [step, hed]; rfl), run_cons (s' := (t3, [a])) (by rw [step, e3]; rfl),
    run_cons (s' := ({ t3 with heap := m4 }, [])) (by simp [step, hp4]), run_cons (s' := (t5, [b])) (by rw [step, hed5]; rfl), run, step, e6]; rfl

/-! ### C77: what `Delete` returns -/

/-- C77, what holds: in an ascending history the node `Delete k` returns holds the deleted entry, or (when the deleted key is not the
least) the entry that followed it. -/
theorem delete_returns_partial {cmp : Compare K} (hc : cmp.ThreeWay) (z : K × V) (ops : List (Op K V)) (ha : Ascending cmp [] ops) :
    ∃ s, run cmp (new z, []) ops = .ok s ∧ ∀ k rm t', delete cmp s.1 k = .ok (some rm, t') →
      ∃ A e B, specRun cmp [] ops = A ++ e :: B ∧ cmp k e.1 = 0 ∧ (t'.heap.kv rm = e ∨ (A ≠ [] ∧ ∃ f B', B = f :: B' ∧ t'.heap.kv rm = f)) := by
  obtain ⟨s, e, tr, U, h⟩ := Sim.run hc ops (g := False) (s := (new z, [])) (Sim.new z cmp _) ha (by simp)
  refine ⟨s, e, ?_⟩
  intro k rm t' hd
  rw [delete] at hd
  rcases Sim.search hc h k with ⟨as, i, bs, hab, es, he, hL, h1, h2⟩ | ⟨es, hno⟩
  · rw [es] at hd
    simp only [Res.bind_ok] at hd
    rcases removeNode_spec h.ok hab cmp with ⟨_, _, e'⟩ | ⟨_, rm', t2, tr2, e', R⟩
    · rw [e'] at hd; cases hd
    · rw [e'] at hd; cases hd
      refine ⟨as.map s.1.heap.kv, s.1.heap.kv i, bs.map s.1.heap.kv, hL, he, ?_⟩
      rcases R.ids with ⟨rfl, -⟩ | ⟨hne, bs', rfl, -⟩
      · left; rw [R.kv, if_pos rfl]
      · right
        refine ⟨by simpa using hne, s.1.heap.kv rm, bs'.map s.1.heap.kv, rfl, ?_⟩
        rw [R.kv]; split
        next hh => rfl
        next => rfl
  · rw [es] at hd; cases hd

theorem three_shape {col : Nat → Bool} {t : T} {a b c : Nat} (h : RB col t) (e : t.ids = [a, b, c]) : t = .node (.node .nil a .nil) b (.node .nil c .nil) := by
  obtain ⟨h1, n, h2⟩ := h
  have one : ∀ {t : T} {n : Nat}, Bal col t n → t.ids.length = 2 → n = 1 := by
    intro t n hb hl
    have := bal_size hb
    rw [hl] at this
    cases t with
    | nil => simp [T.ids] at hl
    | node l i r =>
      simp only [T.ids, List.length_append, List.length_cons] at hl
      match n, this, hb with
      | 0, _, hb =>
        exfalso
        rcases hb with ⟨_, k, hk, _⟩ | ⟨hi, hb1, hb2, b1, b2⟩
        · omega
        · cases l with
          | nil => cases r with
            | nil => simp [T.ids] at hl
            | node rl j rr =>
              rcases hb2 with ⟨_, k, hk, _⟩ | ⟨hj, _⟩
              · omega
              · have b2' : col j = Black := b2
                rw [hj] at b2'; cases b2'
          | node ll j lr =>
            rcases hb1 with ⟨_, k, hk, _⟩ | ⟨hj, _⟩
            · omega
            · have b1' : col j = Black := b1
              rw [hj] at b1'; cases b1'
      | 1, _, _ => rfl
      | n + 2, this, _ =>
        have : 2 ^ (n + 2) = 4 * 2 ^ n := by rw [Nat.pow_add]; omega
        have : 1 ≤ 2 ^ n := Nat.one_le_two_pow
        omega
  cases t with
  | nil => simp [T.ids] at e
  | node l i r =>
    have hi : col i = Black := h1
    have hlen := congrArg List.length e
    simp only [T.ids, List.length_append, List.length_cons, List.length_nil] at hlen
    rcases h2 with ⟨_, k, rfl, bl, br⟩ | ⟨hr, _⟩
    swap
    · rw [hi] at hr; cases hr
    have hl0 : l.ids.length ≠ 0 := by
      intro h0
      have hl : l = .nil := T.eq_nil_of_ids (List.eq_nil_of_length_eq_zero h0)
      subst hl
      have hk : k = 0 := bl
      have := one br (by omega)
      omega
    have hr0 : r.ids.length ≠ 0 := by
      intro h0
      have hr : r = .nil := T.eq_nil_of_ids (List.eq_nil_of_length_eq_zero h0)
      subst hr
      have hk : k = 0 := br
      have := one bl (by omega)
      omega
    obtain ⟨x, hx⟩ := List.length_eq_one_iff.1 (show l.ids.length = 1 by omega)
    obtain ⟨y, hy⟩ := List.length_eq_one_iff.1 (show r.ids.length = 1 by omega)
    have := ids_singleton hx
    have := ids_singleton hy
    subst_vars
    simp [T.ids] at e
    obtain ⟨rfl, rfl, rfl⟩ := e
    rfl

/-- C77 is false: after ascending puts of three keys, `Delete` of the middle one returns a node that holds the greatest key, which is
still stored. -/
theorem delete_returns_refuted {cmp : Compare K} (hc : cmp.ThreeWay) (z : K × V) {k1 k2 k3 : K} (h12 : cmp k1 k2 < 0) (h23 : cmp k2 k3 < 0) (v1 v2 v3 : V) :
    ∃ s rm t', run cmp (new z, []) [.put k1 v1, .put k2 v2, .put k3 v3] = .ok s ∧ delete cmp s.1 k2 = .ok (some rm, t') ∧ t'.heap.kv rm = (k3, v3) ∧
      get cmp t' k2 = .ok none ∧ get cmp t' k3 = .ok (some v3) := by
  have h13 := hc.lt_trans h12 h23
  have r21 := (hc.flip k1 k2).1 h12
  have r31 := (hc.flip k1 k3).1 h13
  have r32 := (hc.flip k2 k3).1 h23
  have hL : specRun cmp [] [.put k1 v1, .put k2 v2, .put k3 v3] = [(k1, v1), (k2, v2), (k3, v3)] := by
    have a1 : ¬ cmp k2 k1 < 0 := by omega
    have a2 : ¬ cmp k2 k1 = 0 := by omega
    have a3 : ¬ cmp k3 k1 < 0 := by omega
    have a4 : ¬ cmp k3 k1 = 0 := by omega
    have a5 : ¬ cmp k3 k2 < 0 := by omega
    have a6 : ¬ cmp k3 k2 = 0 := by omega
    simp only [specRun, List.foldl_cons, List.foldl_nil, specStep, specPut, a1, a2, a3, a4, a5, a6, if_false]
  have ha : Ascending cmp [] [.put k1 v1, .put k2 v2, .put k3 v3] := by
    have a1 : ¬ cmp k2 k1 < 0 := by omega
    have a2 : ¬ cmp k2 k1 = 0 := by omega
    refine ⟨.inr (by simp), .inr ?_, .inr ?_, trivial⟩
    · simp [specStep, specPut, r21]
    · simp [specStep, specPut, a1, a2, r31, r32]
  obtain ⟨s, e, tr, U, h⟩ := Sim.run hc _ (g := False) (s := (new z, [])) (Sim.new z cmp _) ha (by simp)
  rw [hL] at h
  obtain ⟨a, b, c, habc⟩ : ∃ a b c, tr.ids = [a, b, c] := by
    have := congrArg List.length h.ents
    simp only [entries, List.length_map, List.length_cons, List.length_nil] at this
    match hh : tr.ids, this with
    | [a, b, c], _ => exact ⟨a, b, c, rfl⟩
  have hsh := three_shape h.ok.rb habc
  have hkv := h.ents
  rw [entries, habc] at hkv
  simp only [List.map_cons, List.map_nil, List.cons.injEq, and_true] at hkv
  obtain ⟨kva, kvb, kvc⟩ := hkv
  have hrep := h.ok.holds.rep
  rw [hsh] at hrep
  obtain ⟨-, hlb, hrb, -⟩ := hrep
  have hs : search cmp s.1.heap k2 = .ok (some b) := by
    rw [search, h.ok.holds.root, hsh, T.root_node, searchFrom]
    simp only [kvb, hc.self]; rfl
  rcases removeNode_spec h.ok (as := [a]) (bs := [c]) (i := b) (by rw [habc]; rfl) cmp with ⟨h0, -, -⟩ | ⟨-, rm, t', tr', e', R⟩
  · exact absurd h0 (h.nonnil (by rw [habc]; simp))
  have hrm : rm = c := by
    rcases R.ids with ⟨hrm, -⟩ | ⟨-, bs', hb, -⟩
    · have := R.which.1 hrm
      rw [hlb, hrb] at this; simp at this
    · simpa using hb.symm |> fun h => (List.cons.inj h).1
  have hcb : c ≠ b := by
    have := h.ok.holds.nodup
    rw [habc] at this; simp at this; exact fun hh => this.2 hh.symm
  have hd : delete cmp s.1 k2 = .ok (some rm, t') := by rw [delete, hs]; exact e'
  refine ⟨s, rm, t', e, hd, ?_, ?_⟩
  · rw [R.kv, hrm, if_neg hcb, kvc]
  · rcases Sim.delete hc h k2 (by simp) with ⟨e2, -⟩ | ⟨rm2, t2, tr2, e2, -, S, -⟩
    · rw [hd] at e2; cases e2
    · rw [hd] at e2; cases e2
      have hdel : specDel cmp k2 [(k1, v1), (k2, v2), (k3, v3)] = [(k1, v1), (k3, v3)] := by
        have : cmp k2 k3 ≠ 0 := by omega
        have : cmp k2 k1 ≠ 0 := by omega
        have := hc.self k2
        simp [specDel, *]
      rw [hdel] at S
      have q1 : cmp k2 k1 ≠ 0 := by omega
      have q2 : cmp k2 k3 ≠ 0 := by omega
      have q3 : cmp k3 k1 ≠ 0 := by omega
      refine ⟨?_, ?_⟩
      · rw [(Sim.get hc ⟨_, _, S⟩ k2).1]; simp [specGet, q1, q2]
      · rw [(Sim.get hc ⟨_, _, S⟩ k3).1]; simp [specGet, q3, hc.self]

/-! ### The hypotheses are met by real histories -/

/-- An ascending history with all kinds of calls; its first key is never deleted while others remain. -/
def ascOps : List (Op Int Nat) :=
  [.put 1 10, .put 3 30, .put 5 50, .put 7 70, .delete 5, .put 7 71, .put 9 90, .deleteKeys [7, 4], .deleteMapping 9 91 Fn.comp, .put 12 120]

theorem ascOps_spec : specRun Fn.comp [] ascOps = [(1, 10), (3, 30), (9, 90), (12, 120)] := by decide

theorem ascOps_asc : Ascending Fn.comp [] ascOps := by
  simp [ascOps, Ascending, specStep, specPut, specDel, specGet, Fn.comp]

theorem ascOps_keeps : KeepsFirst Fn.comp (0 : Int) [] ascOps := by
  simp [ascOps, KeepsFirst, okDels, okDel, specStep, specPut, specDel, specGet, Fn.comp]

/-- C57, C60 and C61 apply to it: lookups, iteration and count. -/
example : ∃ s, run Fn.comp (new (0, 0), []) ascOps = .ok s ∧ get Fn.comp s.1 9 = .ok (some 90) ∧ has Fn.comp s.1 7 = .ok false := by
  obtain ⟨s, e, h⟩ := map_partial Fn.comp_strict.toThreeWay (0, 0) ascOps ascOps_asc
  refine ⟨s, e, ?_, ?_⟩
  · rw [(h 9).1, ascOps_spec]; rfl
  · rw [(h 7).2, ascOps_spec]; rfl

example : ∃ s, run Fn.comp (new (0, 0), []) ascOps = .ok s ∧ toList s.1 = .ok [(1, 10), (3, 30), (9, 90), (12, 120)] := by
  obtain ⟨s, e, h, -⟩ := iter_partial Fn.comp_strict.toThreeWay (0, 0) ascOps ascOps_asc ascOps_keeps (by rw [ascOps_spec]; simp)
  exact ⟨s, e, by rw [h, ascOps_spec]⟩

example : ∃ s, run Fn.comp (new (0, 0), []) ascOps = .ok s ∧ s.1.size = 4 := by
  obtain ⟨s, e, h⟩ := size_partial Fn.comp_strict.toThreeWay (0, 0) ascOps ascOps_asc
  exact ⟨s, e, by rw [h, ascOps_spec]; rfl⟩

/-- C57 refuted, on integers. -/
example : ∃ s, run Fn.comp (new ((0 : Int), 0), []) [.put 2 20, .put 3 30, .put 1 10] = .ok s ∧ has Fn.comp s.1 3 = .ok false := by
  obtain ⟨s, e, -, h, -⟩ := map_refuted Fn.comp_strict.toThreeWay ((0 : Int), 0) (k1 := 1) (k2 := 2) (k3 := 3) (by decide) (by decide) 10 20 30
  exact ⟨s, e, h⟩

/-- C60 refuted, on integers: keys 1 and 2. -/
example : ∃ s, run Fn.comp (new ((0 : Int), 0), []) [.put 1 10, .put 2 20, .delete 1] = .ok s ∧ has Fn.comp s.1 1 = .ok false ∧
    ∀ L, toList s.1 = .ok L → L.head? = some (1, 10) := by
  obtain ⟨s, nx, e, h, -, -, h'⟩ := iter_stale_refuted Fn.comp_strict.toThreeWay ((0 : Int), 0) (k1 := 1) (k2 := 2) (by decide) (by decide) 10 20
  exact ⟨s, e, h, h'⟩

/-- C76 refuted, on integers: keys -2 and -1; for natural numbers it holds. -/
example : run Fn.comp (new ((0 : Int), 0), []) [.put (-1) 10, .delete (-1), .put (-2) 20, .putNode 0, .delete (-2), .delete (-1)] = .panic .nilDeref :=
  calls_return_refuted Fn.comp_strict.toThreeWay ((0 : Int), 0) (by decide) (by decide) 20 10

example (ops : List (Op Nat Nat)) : ∃ s, run Fn.comp (new (0, 0), []) ops = .ok s :=
  calls_return_partial (fun k => by unfold Fn.comp; split <;> simp_all) ops

/-- C62: a buffer from which three nodes were taken, one of them given back. -/
example (m : Heap Nat Nat) : ∃ (b : Buf) (m' : Heap Nat Nat) (U : List Nat), Used 2 b m' U ∧ U.length = 2 := by
  have h0 : Used 2 _ _ [] := .init { base := 0, sliceCursor := 0, linkedListSize := 0, bufferedLength := 0, fresh := 2 } m (by simp)
  obtain ⟨x1, b1, m1, e1, n1, -⟩ := alloc_fresh (by omega) h0
  have h1 := h0.alloc e1
  obtain ⟨x2, b2, m2, e2, n2, -⟩ := alloc_fresh (by omega) h1
  have h2 := h1.alloc e2
  obtain ⟨x3, b3, m3, e3, n3, -⟩ := alloc_fresh (by omega) h2
  have h3 := h2.alloc e3
  obtain ⟨FL, hb⟩ := h3.ok (by omega)
  obtain ⟨b4, m4, FL', e4, -⟩ := hb.freeNode (n := x1) (by simp)
  refine ⟨b4, m4, _, h3.free (by simp) e4, ?_⟩
  simp only [List.mem_cons, List.not_mem_nil, or_false, not_or] at n2 n3
  simp [n2, n3]

end Gds.RBTree
