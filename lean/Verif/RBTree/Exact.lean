import Verif.RBTree.Nav

/-! C114: every history of the tree and every answer, exactly: the tree does what the pure description in `FSpec` says. -/

namespace Gds.RBTree

variable {K V : Type}

theorem map_eraseIdx {A B : Type} (f : A → B) (l : List A) (j : Nat) : (l.eraseIdx j).map f = (l.map f).eraseIdx j := by
  induction l generalizing j with
  | nil => rfl
  | cons a l ih => cases j with
    | zero => rfl
    | succ j => simp [ih]

/-! ### The search -/

theorem descend_seek (cmp : Compare K) {m : Heap K V} (key : K) : ∀ (t : T) (c : Ctx), Holds m (c.plug t) →
    ∃ c' t', c'.plug t' = c.plug t ∧
      seek cmp key (paintC m.color m.kv c) (paint m.color m.kv t) = (paintC m.color m.kv c', paint m.color m.kv t') ∧
      (t' = .nil ∧ descend cmp m key t.root c.par = .ok (.missing c'.par) ∧ searchFrom cmp m key t.root = .ok none ∨
        ∃ l i r, t' = .node l i r ∧ descend cmp m key t.root c.par = .ok (.found i) ∧ searchFrom cmp m key t.root = .ok (some i)) := by
  intro t
  induction t with
  | nil =>
    intro c h
    refine ⟨c, .nil, rfl, rfl, .inl ⟨rfl, ?_, ?_⟩⟩
    · rw [T.root_nil, descend]; rfl
    · rw [T.root_nil, searchFrom]; rfl
  | node l i r ihl ihr =>
    intro c h
    obtain ⟨hc, h1, h2, h3, h4, h5⟩ := h.split
    rw [T.root_node, descend, searchFrom]
    by_cases k1 : cmp key (m.kv i).1 = -1
    · simp only [k1, if_true, h2, paint, seek]
      exact ihl (.left i r c) h
    · by_cases k2 : cmp key (m.kv i).1 = 1
      · simp only [k2, if_true, h3, paint, seek]
        exact ihr (.right l i c) h
      · refine ⟨c, .node l i r, rfl, by simp [paint, seek, k1, k2], .inr ⟨l, i, r, rfl, ?_, ?_⟩⟩ <;> simp [k1, k2]

/-- The search from the root. -/
theorem OK.seek {z : K × V} {t : Tree K V} {tr : T} {U : List Nat} (h : OK z t tr U) (cmp : Compare K) (key : K) :
    ∃ c' t', tr = c'.plug t' ∧
      RBTree.seek cmp key [] (paint t.heap.color t.heap.kv tr) = (paintC t.heap.color t.heap.kv c', paint t.heap.color t.heap.kv t') ∧
      (t' = .nil ∧ descend cmp t.heap key (t.heap.parent 0) none = .ok (.missing c'.par) ∧ search cmp t.heap key = .ok none ∨
        ∃ l i r, t' = .node l i r ∧ descend cmp t.heap key (t.heap.parent 0) none = .ok (.found i) ∧ search cmp t.heap key = .ok (some i)) := by
  obtain ⟨c', t', h1, h2, h3⟩ := descend_seek cmp key tr .top h.holds
  rw [search, h.holds.root]
  exact ⟨c', t', h1.symm, h2, h3⟩

/-! ### Insertion -/

/-- Linking a node `x` outside the tree at the place where the search ended. -/
theorem link_at {z : K × V} {t : Tree K V} {tr : T} {U : List Nat} (h : OK z t tr U) {c : Ctx} (ht : tr = c.plug .nil) {x : Nat} (hx : x ∈ U) (hxt : x ∉ tr.ids) :
    ∃ m' tr', link t.heap (some x) c.par = .ok m' ∧ OK z { t with heap := m' } tr' U ∧ m'.kv = t.heap.kv ∧
      (∀ u ∈ U, u ∉ tr.ids → u ≠ x → u ∉ tr'.ids) ∧
      paint m'.color t.heap.kv tr' = (match paintC t.heap.color t.heap.kv c with
        | [] => .node true .nil (t.heap.kv x) .nil
        | .left b e _ :: up => CT.fixPut (.right b .nil e :: up) (.node false .nil (t.heap.kv x) .nil)
        | .right b l e :: up => CT.fixPut (.right b l e :: up) (.node false .nil (t.heap.kv x) .nil)) := by
  have hx2 := h.pos x hx
  obtain ⟨FL, hb⟩ := h.buf
  have key : ∀ (c : Ctx) (l r : T) (i : Nat), tr = c.plug (.node l i r) → (l = .nil ∨ r = .nil) →
      ∃ m' tr', link t.heap (some x) (some i) = .ok m' ∧ OK z { t with heap := m' } tr' U ∧ m'.kv = t.heap.kv ∧
        (∀ u ∈ U, u ∉ tr.ids → u ≠ x → u ∉ tr'.ids) ∧
        paint m'.color t.heap.kv tr' =
          CT.fixPut (.right (t.heap.color i) (paint t.heap.color t.heap.kv l) (t.heap.kv i) :: paintC t.heap.color t.heap.kv c) (.node false .nil (t.heap.kv x) .nil) := by
    intro c l r i ht hlr
    subst ht
    obtain ⟨m', t', e', hh, hids, hrb, hk, hl0, hr0, hs, -, hp⟩ := link_exact h.holds h.rb hlr hx2 hxt
    refine ⟨m', t', e', ⟨hh, hrb, ⟨FL, ?_⟩, ?_, ?_⟩, hk, ?_, hp _ _⟩
    · exact hb.write (fun j h0 hj => (hs j h0 (fun hi => hj (h.sub j hi)) (by rintro rfl; exact hj hx)).2.2)
    · intro j hj
      rw [hids] at hj
      by_cases hjn : j = x
      · subst hjn; exact hx
      · refine h.sub j ?_
        rw [Ctx.mem_plug]; simp only [List.mem_append, List.mem_cons, Ctx.ids, T.ids] at hj ⊢; tauto
    · show m'.kv 0 = z; rw [hk]; exact h.zero
    · intro u hu hnu hux hu'
      rw [hids] at hu'
      apply hnu
      rw [Ctx.mem_plug]
      simp only [List.mem_append, List.mem_cons, Ctx.ids, T.ids] at hu' ⊢; tauto
  cases c with
  | top =>
    simp only [Ctx.plug] at ht; subst ht
    obtain ⟨m', e', hh, hrb, hk, hl0, hr0, hs⟩ := link_empty (m := t.heap) hx2
    refine ⟨m', _, e', ⟨hh, hrb, ⟨FL, ?_⟩, ?_, ?_⟩, hk, ?_, ?_⟩
    · exact hb.write (fun i h0 hi => (hs i h0 (by rintro rfl; exact hi hx)).2.2)
    · simp [T.ids, hx]
    · show m'.kv 0 = z; rw [hk]; exact h.zero
    · intro u hu _ hux; simpa [T.ids] using hux
    · have : m'.color x = true := hrb.1
      simp [paint, paintC, this]
  | left i r c => exact key c .nil r i ht (.inl rfl)
  | right l i c => exact key c l .nil i ht (.inr rfl)

/-- The new value of an entry whose key was found. -/
theorem rekv_at {z : K × V} {t : Tree K V} {tr : T} {U : List Nat} (h : OK z t tr U) {c : Ctx} {l r : T} {i : Nat} (ht : tr = c.plug (.node l i r)) (e : K × V) :
    OK z { t with heap := rekv t.heap i e } tr U ∧
      paint t.heap.color (rekv t.heap i e).kv tr =
        CT.climb (paintC t.heap.color t.heap.kv c) (.node (t.heap.color i) (paint t.heap.color t.heap.kv l) e (paint t.heap.color t.heap.kv r)) := by
  subst ht
  have hi : i ∈ (c.plug (.node l i r)).ids := by rw [Ctx.mem_plug]; simp [T.ids]
  refine ⟨h.rekv (h.holds.pos i hi) e, ?_⟩
  have hn := h.holds.nodup
  have hne : ∀ j, j ∈ c.ids ∨ j ∈ l.ids ∨ j ∈ r.ids → (rekv t.heap i e).kv j = t.heap.kv j := by
    intro j hj
    refine if_neg ?_
    rintro rfl
    rw [ids_plug] at hn
    simp only [T.ids, List.nodup_append, List.nodup_cons, Ctx.ids, List.mem_append, List.mem_cons] at hn hj
    grind
  rw [paint_plug]
  simp only [paint]
  rw [paintC_congr (col := t.heap.color) (col' := t.heap.color) (f := t.heap.kv) (fun _ _ => rfl) (fun j hj => hne j (.inl hj)),
    paint_congr (col := t.heap.color) (col' := t.heap.color) (f := t.heap.kv) (fun _ _ => rfl) (fun j hj => hne j (.inr (.inl hj))),
    paint_congr (col := t.heap.color) (col' := t.heap.color) (f := t.heap.kv) (fun _ _ => rfl) (fun j hj => hne j (.inr (.inr hj)))]
  simp [rekv]

theorem putInner_exact {z : K × V} {t : Tree K V} {tr : T} {U : List Nat} (h : OK z t tr U) (cmp : Compare K) (key : K) (val : V) :
    ∃ t' tr' U', putInner cmp t key val = .ok ((putTree cmp key val (paint t.heap.color t.heap.kv tr)).1, t') ∧ OK z t' tr' U' ∧
      paint t'.heap.color t'.heap.kv tr' = (putTree cmp key val (paint t.heap.color t.heap.kv tr)).2 ∧ t'.size = t.size ∧
      ∀ u ∈ U, u ∉ tr.ids → u ∈ U' ∧ u ∉ tr'.ids ∧ t'.heap.kv u = t.heap.kv u := by
  obtain ⟨c, t', ht, hs, ⟨rfl, e, -⟩ | ⟨l, i, r, rfl, e, -⟩⟩ := h.seek cmp key
  · obtain ⟨n, t1, e1, hn, hn2, ok1, hsz, hkv, hl, hp, hr, hc⟩ := allocNode_spec h key val
    have hnt : n ∉ tr.ids := fun hi => hn (h.sub n hi)
    obtain ⟨m', tr', e2, ok2, hk2, hu2, hp2⟩ := link_at ok1 ht (x := n) (by simp) hnt
    have hpc : paintC t1.heap.color t1.heap.kv c = paintC t.heap.color t.heap.kv c := by
      have hj : ∀ j ∈ c.ids, j ≠ n := by
        rintro j hj rfl
        exact hnt (by rw [ht, Ctx.mem_plug]; exact .inl hj)
      exact paintC_congr (fun j h => hc j (hj j h)) (fun j h => by rw [hkv, if_neg (hj j h)])
    have hkn : t1.heap.kv n = (key, val) := by rw [hkv, if_pos rfl]
    rw [hpc, hkn] at hp2
    have hE : putTree cmp key val (paint t.heap.color t.heap.kv tr) = (true, paint m'.color t1.heap.kv tr') := by
      rw [putTree, hs, hp2]
      simp only [paint]
      cases c with
      | top => rfl
      | left i r c => rfl
      | right l i c => rfl
    refine ⟨{ t1 with heap := m' }, tr', n :: U, ?_, ok2, ?_, hsz, ?_⟩
    · rw [putInner, e, hE]; simp [e1, e2]
    · rw [hE]; show paint m'.color m'.kv tr' = _; rw [hk2]
    · intro u hu hut
      have hun : u ≠ n := by rintro rfl; exact hn hu
      exact ⟨by simp [hu], hu2 u (by simp [hu]) hut hun, by show m'.kv u = _; rw [hk2, hkv, if_neg hun]⟩
  · obtain ⟨ok', hp⟩ := rekv_at h ht ((t.heap.kv i).1, val)
    have hE : putTree cmp key val (paint t.heap.color t.heap.kv tr) =
        (false, paint t.heap.color (rekv t.heap i ((t.heap.kv i).1, val)).kv tr) := by
      rw [putTree, hs, hp]; simp only [paint]
    refine ⟨{ t with heap := rekv t.heap i ((t.heap.kv i).1, val) }, tr, U, ?_, ok', ?_, rfl, ?_⟩
    · rw [putInner, e, hE]; rfl
    · rw [hE]; rfl
    · intro u hu hut
      refine ⟨hu, hut, if_neg ?_⟩
      rintro rfl; exact hut (by rw [ht, Ctx.mem_plug]; simp [T.ids])

theorem putNode_exact {z : K × V} {t : Tree K V} {tr : T} {U : List Nat} (h : OK z t tr U) (cmp : Compare K) {x : Nat} (hx : x ∈ U) (hxt : x ∉ tr.ids) :
    ∃ t' tr', putNode cmp t x = .ok ((putTree cmp (t.heap.kv x).1 (t.heap.kv x).2 (paint t.heap.color t.heap.kv tr)).1, t') ∧ OK z t' tr' U ∧
      paint t'.heap.color t'.heap.kv tr' = (putTree cmp (t.heap.kv x).1 (t.heap.kv x).2 (paint t.heap.color t.heap.kv tr)).2 ∧ t'.size = t.size ∧
      ∀ u ∈ U, u ∉ tr.ids → t'.heap.kv u = t.heap.kv u ∧
        (u ≠ x ∨ (putTree cmp (t.heap.kv x).1 (t.heap.kv x).2 (paint t.heap.color t.heap.kv tr)).1 = false → u ∉ tr'.ids) := by
  obtain ⟨c, t', ht, hs, ⟨rfl, e, -⟩ | ⟨l, i, r, rfl, e, -⟩⟩ := h.seek cmp (t.heap.kv x).1
  · obtain ⟨m', tr', e2, ok2, hk2, hu2, hp2⟩ := link_at h ht hx hxt
    have hE : putTree cmp (t.heap.kv x).1 (t.heap.kv x).2 (paint t.heap.color t.heap.kv tr) = (true, paint m'.color t.heap.kv tr') := by
      rw [putTree, hs, hp2]
      simp only [paint]
      cases c with
      | top => rfl
      | left i r c => rfl
      | right l i c => rfl
    refine ⟨{ t with heap := m' }, tr', ?_, ok2, ?_, rfl, ?_⟩
    · rw [putNode, e, hE]; simp [e2]
    · rw [hE]; show paint m'.color m'.kv tr' = _; rw [hk2]
    · intro u hu hut
      refine ⟨by show m'.kv u = _; rw [hk2], ?_⟩
      rintro (hux | hb)
      · exact hu2 u hu hut hux
      · rw [hE] at hb; cases hb
  · obtain ⟨ok', hp⟩ := rekv_at h ht ((t.heap.kv i).1, (t.heap.kv x).2)
    have hE : putTree cmp (t.heap.kv x).1 (t.heap.kv x).2 (paint t.heap.color t.heap.kv tr) =
        (false, paint t.heap.color (rekv t.heap i ((t.heap.kv i).1, (t.heap.kv x).2)).kv tr) := by
      rw [putTree, hs, hp]; simp only [paint]
    refine ⟨{ t with heap := rekv t.heap i ((t.heap.kv i).1, (t.heap.kv x).2) }, tr, ?_, ok', ?_, rfl, ?_⟩
    · rw [putNode, e, hE]; rfl
    · rw [hE]; rfl
    · intro u hu hut
      refine ⟨if_neg ?_, fun _ => hut⟩
      rintro rfl; exact hut (by rw [ht, Ctx.mem_plug]; simp [T.ids])

/-! ### Removal -/

theorem remove_exact {z : K × V} {t : Tree K V} {tr : T} {U : List Nat} (h : OK z t tr U) (cmp : Compare K) {c : Ctx} {l r : T} {i : Nat} (ht : tr = c.plug (.node l i r)) :
    removeNode cmp t i = .panic .nilDeref ∨
    ∃ rm t' tr', removeNode cmp t i = .ok (some rm, t') ∧ OK z t' tr' U ∧ t'.size = t.size - 1 ∧ rm ∈ tr.ids ∧ rm ∉ tr'.ids ∧
      CT.removeAt (paintC t.heap.color t.heap.kv c) (paint t.heap.color t.heap.kv (.node l i r)) = (some (t.heap.kv rm), paint t'.heap.color t'.heap.kv tr') ∧
      t'.heap.kv rm = t.heap.kv rm ∧ ∀ u ∈ U, u ∉ tr.ids → u ∉ tr'.ids ∧ t'.heap.kv u = t.heap.kv u := by
  have hi : i ∈ tr.ids := by rw [ht, Ctx.mem_plug]; simp [T.ids]
  obtain ⟨as, bs, hab⟩ := List.append_of_mem hi
  rcases removeNode_ctx h ht hab cmp with ⟨_, _, e'⟩ | ⟨_, rm, t', tr', e', R, hp⟩
  · exact .inl e'
  · right
    obtain ⟨h1, h2⟩ := rm_out h.holds.nodup hab R.ids
    refine ⟨rm, t', tr', e', R.ok, R.size, R.mem, h1, hp, ?_, ?_⟩
    · rw [R.kv]; split
      · rfl
      · rfl
    · intro u hu hut
      refine ⟨fun hh => hut (h2 u hh), ?_⟩
      rw [R.kv, if_neg]
      rintro rfl; exact hut hi

/-- `Delete`: what leaves, and what remains. -/
theorem delete_exact {z : K × V} {t : Tree K V} {tr : T} {U : List Nat} (h : OK z t tr U) (cmp : Compare K) (key : K) :
    delete cmp t key = .panic .nilDeref ∨
    (delete cmp t key = .ok (none, t) ∧ (delTree cmp key (paint t.heap.color t.heap.kv tr)).1 = none) ∨
    ∃ rm t' tr', delete cmp t key = .ok (some rm, t') ∧ OK z t' tr' U ∧ t'.size = t.size - 1 ∧ rm ∈ tr.ids ∧ rm ∉ tr'.ids ∧
      delTree cmp key (paint t.heap.color t.heap.kv tr) = (some (t'.heap.kv rm), paint t'.heap.color t'.heap.kv tr') ∧
      ∀ u ∈ U, u ∉ tr.ids → u ∉ tr'.ids ∧ t'.heap.kv u = t.heap.kv u := by
  obtain ⟨c, t', ht, hs, ⟨rfl, -, e⟩ | ⟨l, i, r, rfl, -, e⟩⟩ := h.seek cmp key
  · right; left
    refine ⟨by rw [delete, e]; rfl, ?_⟩
    rw [delTree, hs]; rfl
  · rcases remove_exact h cmp ht with e' | ⟨rm, t', tr', e', ok', h1, h2, h3, h4, h5, h6⟩
    · left; rw [delete, e]; simpa using e'
    · right; right
      refine ⟨rm, t', tr', by rw [delete, e]; simpa using e', ok', h1, h2, h3, ?_, h6⟩
      rw [delTree, hs, h5, ← h4]; simp only [paint]

/-! ### The relation -/

/-- The tree `s.1` and the nodes `s.2` the user holds are what the description `fs` says. -/
def Rel (z : K × V) (s : Tree K V × List Nat) (fs : FT K V) : Prop :=
  ∃ tr U, OK z s.1 tr U ∧ s.2.Nodup ∧ (∀ o ∈ s.2, o ∈ U ∧ o ∉ tr.ids) ∧ paint s.1.heap.color s.1.heap.kv tr = fs.tree ∧
    s.1.size = fs.size ∧ s.2.map s.1.heap.kv = fs.held

theorem rel_new (z : K × V) : Rel z (new z, []) FT.empty := ⟨.nil, [], ok_new z, by simp, by simp, rfl, rfl, rfl⟩

theorem Rel.get {z : K × V} {s : Tree K V × List Nat} {fs : FT K V} (h : Rel z s fs) (cmp : Compare K) (k : K) :
    get cmp s.1 k = .ok (fs.get cmp k) ∧ has cmp s.1 k = .ok (fs.get cmp k).isSome := by
  obtain ⟨tr, U, ok, -, -, hp, -, -⟩ := h
  rw [FT.get, ← hp, RBTree.get, has]
  obtain ⟨c, t', ht, hs, ⟨rfl, -, e⟩ | ⟨l, i, r, rfl, -, e⟩⟩ := ok.seek cmp k
  · rw [hs, e]; exact ⟨rfl, rfl⟩
  · rw [hs, e]; exact ⟨rfl, rfl⟩

theorem deleteKeys_exact {z : K × V} (cmp : Compare K) (ks : List K) {t : Tree K V} {H : List Nat} {fs : FT K V} (h : Rel z (t, H) fs) :
    deleteKeys cmp t ks = .panic .nilDeref ∨ ∃ t', deleteKeys cmp t ks = .ok ((delKeys cmp ks fs).1, t') ∧ Rel z (t', H) (delKeys cmp ks fs).2 := by
  induction ks generalizing t fs with
  | nil => exact .inr ⟨t, rfl, h⟩
  | cons k ks ih =>
    have h0 := h
    obtain ⟨tr, U, ok, hn, ho, hp, hsz, hh⟩ := h
    simp only at ok hn ho hp hsz hh
    rw [deleteKeys, delKeys]
    rcases delete_exact ok cmp k with e | ⟨e, hd⟩ | ⟨rm, t', tr', e, ok', h1, h2, h3, h4, h5⟩
    · left; rw [e]; rfl
    · rw [hp] at hd
      rw [e]; simp only [Res.bind_ok, ne_eq, not_true_eq_false, if_false]
      rcases hd' : delTree cmp k fs.tree with ⟨_ | x, y⟩
      · exact ih h0
      · rw [hd'] at hd; cases hd
    · rw [hp] at h4
      obtain ⟨t2, e2, ok2, hs2, hkv2, -, hc2⟩ := freeNode_exact ok' (ok.sub rm h2) h3
      rw [e, h4]
      simp only [Res.bind_ok, ne_eq, reduceCtorEq, not_false_eq_true, if_true, e2]
      have hR : Rel z (t2, H) { fs with tree := paint t'.heap.color t'.heap.kv tr', size := fs.size - 1 } := by
        refine ⟨tr', _, ok2, hn, ?_, ?_, ?_, ?_⟩
        · intro o hoH
          obtain ⟨ho1, ho2⟩ := ho o hoH
          refine ⟨?_, (h5 o ho1 ho2).1⟩
          simp only [ne_eq, decide_not, List.mem_filter, ho1, true_and, Bool.not_eq_true', decide_eq_false_iff_not]
          rintro rfl; exact ho2 h2
        · simp only [hc2, hkv2]
        · simp only [hs2, h1, hsz]
        · simp only [hkv2, ← hh]
          exact List.map_congr_left (fun o hoH => (h5 o (ho o hoH).1 (ho o hoH).2).2)
      rcases ih hR with e3 | ⟨t3, e3, hR3⟩
      · left; rw [e3]; rfl
      · right; exact ⟨t3, by rw [e3]; rfl, hR3⟩

/-! ### Histories with answers -/

/-- One call with its answer, on the tree and the list of nodes the user holds; the answer of `Delete` is read through the node it returns
(the functions called: see `RBTree/Model.lean`). -/
def stepAns (cmp : Compare K) (s : Tree K V × List Nat) : Call K V → Res (Ans K V × Tree K V × List Nat)
  | .put k v => do
    let (b, t) ← put cmp s.1 k v
    pure (.bool b, t, s.2)
  | .get k => do
    let v ← get cmp s.1 k
    pure (.value v, s)
  | .has k => do
    let b ← has cmp s.1 k
    pure (.bool b, s)
  | .size => pure (.number (sizeOf s.1), s)
  | .isEmpty => pure (.bool (isEmpty s.1), s)
  | .delete k => do
    let (n, t) ← delete cmp s.1 k
    match n with
    | none => pure (.entry none, t, s.2)
    | some i => do
      let e ← entryAt t.heap (some i)
      pure (.entry (some e), t, i :: s.2)
  | .deleteKeys ks => do
    let (n, t) ← deleteKeys cmp s.1 ks
    pure (.number n, t, s.2)
  | .deleteMapping k v vc => do
    let (b, t) ← deleteByWholeMapping cmp vc s.1 k v
    pure (.bool b, t, s.2)
  | .clear => pure (.unit, clear s.1, s.2)
  | .putNode j => match s.2[j]? with
    | none => pure (.unit, s)
    | some x => do
      let (b, t) ← putNode cmp s.1 x
      pure (.bool b, t, if b then s.2.eraseIdx j else s.2)

/-- A history of calls with all answers. -/
def runAns (cmp : Compare K) (s : Tree K V × List Nat) : List (Call K V) → Res (List (Ans K V) × Tree K V × List Nat)
  | [] => pure ([], s)
  | c :: cs => do
    let (a, s) ← stepAns cmp s c
    let (as, s) ← runAns cmp s cs
    pure (a :: as, s)

theorem step_exact {z : K × V} {s : Tree K V × List Nat} {fs : FT K V} (h : Rel z s fs) (cmp : Compare K) (c : Call K V) :
    stepAns cmp s c = .panic .nilDeref ∨ ∃ s', stepAns cmp s c = .ok ((fs.step cmp c).1, s') ∧ Rel z s' (fs.step cmp c).2 := by
  obtain ⟨t, H⟩ := s
  have h0 := h
  obtain ⟨tr, U, ok, hn, ho, hp, hsz, hh⟩ := h
  simp only at ok hn ho hp hsz hh
  cases c with
  | put k v =>
    right
    obtain ⟨t', tr', U', e, ok', hp', hs', hu⟩ := putInner_exact ok cmp k v
    rw [hp] at e hp'
    rw [stepAns, put, FT.step, e]
    cases hb : (putTree cmp k v fs.tree).1
    · refine ⟨(t', H), rfl, tr', U', ok', hn, fun o hoH => ?_, hp', ?_, ?_⟩
      · have := hu o (ho o hoH).1 (ho o hoH).2; exact ⟨this.1, this.2.1⟩
      · simp only [hs', hsz]; rfl
      · rw [← hh]; exact List.map_congr_left (fun o hoH => (hu o (ho o hoH).1 (ho o hoH).2).2.2)
    · refine ⟨({ t' with size := t'.size + 1 }, H), rfl, tr', U', ⟨ok'.holds, ok'.rb, ok'.buf, ok'.sub, ok'.zero⟩, hn, fun o hoH => ?_, hp', ?_, ?_⟩
      · have := hu o (ho o hoH).1 (ho o hoH).2; exact ⟨this.1, this.2.1⟩
      · simp only [hs', hsz]; rfl
      · rw [← hh]; exact List.map_congr_left (fun o hoH => (hu o (ho o hoH).1 (ho o hoH).2).2.2)
  | get k => right; exact ⟨(t, H), by rw [stepAns, (h0.get cmp k).1]; rfl, h0⟩
  | has k => right; exact ⟨(t, H), by rw [stepAns, (h0.get cmp k).2]; rfl, h0⟩
  | size => right; exact ⟨(t, H), by simp only [stepAns, sizeOf, hsz]; rfl, h0⟩
  | isEmpty => right; exact ⟨(t, H), by simp only [stepAns, isEmpty, hsz]; rfl, h0⟩
  | delete k =>
    rw [stepAns, FT.step]
    rcases delete_exact ok cmp k with e | ⟨e, hd⟩ | ⟨rm, t', tr', e, ok', h1, h2, h3, h4, h5⟩
    · left; rw [e]; rfl
    · right
      rw [hp] at hd
      rcases hd' : delTree cmp k fs.tree with ⟨_ | x, y⟩
      · exact ⟨(t, H), by rw [e]; rfl, h0⟩
      · rw [hd'] at hd; cases hd
    · right
      rw [hp] at h4
      rw [h4, e]
      refine ⟨(t', rm :: H), rfl, tr', U, ok', ?_, ?_, rfl, ?_, ?_⟩
      · exact List.nodup_cons.2 ⟨fun hrm => (ho rm hrm).2 h2, hn⟩
      · intro o hoH
        rcases List.mem_cons.1 hoH with rfl | hoH
        · exact ⟨ok.sub _ h2, h3⟩
        · exact ⟨(ho o hoH).1, (h5 o (ho o hoH).1 (ho o hoH).2).1⟩
      · simp only [h1, hsz]
      · simp only [List.map_cons, List.cons.injEq, true_and]
        rw [← hh]; exact List.map_congr_left (fun o hoH => (h5 o (ho o hoH).1 (ho o hoH).2).2)
  | deleteKeys ks =>
    rw [stepAns, FT.step]
    rcases deleteKeys_exact cmp ks h0 with e | ⟨t', e, hR⟩
    · left; simp only [e]; rfl
    · right; exact ⟨(t', H), by simp only [e]; rfl, hR⟩
  | deleteMapping k v vc =>
    rw [stepAns, FT.step, deleteByWholeMapping]
    simp only
    have hg := (h0.get cmp k).1
    rw [RBTree.get] at hg
    obtain ⟨c, t', ht, hs, ⟨rfl, -, e⟩ | ⟨l, i, r, rfl, -, e⟩⟩ := ok.seek cmp k
    · right
      rw [e] at hg ⊢
      simp only [Res.bind_ok, Res.pure_eq, Res.ok.injEq] at hg
      rw [← hg]
      exact ⟨(t, H), rfl, h0⟩
    · rw [e] at hg ⊢
      simp only [Res.bind_ok, Res.pure_eq, Res.ok.injEq] at hg
      rw [← hg]
      simp only [Res.bind_ok]
      by_cases hv : vc v (t.heap.kv i).2 = 0
      · simp only [hv, if_true]
        rcases remove_exact ok cmp ht with e' | ⟨rm, t', tr', e', ok', h1, h2, h3, h4, h5, h6⟩
        · left; rw [e']; rfl
        · right
          obtain ⟨t2, e2, ok2, hs2, hkv2, -, hc2⟩ := freeNode_exact ok' (ok.sub rm h2) h3
          have hd : delTree cmp k fs.tree = (some (t.heap.kv rm), paint t'.heap.color t'.heap.kv tr') := by
            rw [← hp, delTree, hs, ← h4]; simp only [paint]
          rw [e', hd]
          simp only [Res.bind_ok, e2]
          refine ⟨(t2, H), rfl, tr', _, ok2, hn, ?_, ?_, ?_, ?_⟩
          · intro o hoH
            obtain ⟨ho1, ho2⟩ := ho o hoH
            refine ⟨?_, (h6 o ho1 ho2).1⟩
            simp only [ne_eq, decide_not, List.mem_filter, ho1, true_and, Bool.not_eq_true', decide_eq_false_iff_not]
            rintro rfl; exact ho2 h2
          · simp only [hc2, hkv2]
          · simp only [hs2, h1, hsz]
          · simp only [hkv2, ← hh]
            exact List.map_congr_left (fun o hoH => (h6 o (ho o hoH).1 (ho o hoH).2).2)
      · right
        simp only [hv, if_false]
        exact ⟨(t, H), rfl, h0⟩
  | clear =>
    right
    refine ⟨(clear t, H), rfl, .nil, U, ok.clear, hn, fun o hoH => ⟨(ho o hoH).1, by simp [T.ids]⟩, rfl, rfl, hh⟩
  | putNode j =>
    right
    have hj : fs.held[j]? = (H[j]?).map t.heap.kv := by rw [← hh, List.getElem?_map]
    rw [stepAns, FT.step, hj]
    cases hjx : H[j]? with
    | none => exact ⟨(t, H), rfl, h0⟩
    | some x =>
      have hx : x ∈ H := List.mem_of_getElem? hjx
      obtain ⟨t', tr', e, ok', hp', hs', hu⟩ := putNode_exact ok cmp (ho x hx).1 (ho x hx).2
      rw [hp] at e hp' hu
      simp only [Option.map_some]
      rw [e]
      cases hb : (putTree cmp (t.heap.kv x).1 (t.heap.kv x).2 fs.tree).1
      · refine ⟨(t', H), rfl, tr', U, ok', hn, fun o hoH => ?_, hp', ?_, ?_⟩
        · exact ⟨(ho o hoH).1, (hu o (ho o hoH).1 (ho o hoH).2).2 (.inr hb)⟩
        · simp only [hs', hsz]
        · show List.map t'.heap.kv H = fs.held
          rw [← hh]; exact List.map_congr_left (fun o hoH => (hu o (ho o hoH).1 (ho o hoH).2).1)
      · refine ⟨(t', H.eraseIdx j), rfl, tr', U, ok', hn.eraseIdx j, fun o hoH => ?_, hp', ?_, ?_⟩
        · have hoH' := List.mem_of_mem_eraseIdx hoH
          refine ⟨(ho o hoH').1, (hu o (ho o hoH').1 (ho o hoH').2).2 (.inl ?_)⟩
          rintro rfl
          obtain ⟨i, hij, hi⟩ := List.mem_eraseIdx_iff_getElem?.1 hoH
          have hlt : j < H.length := (List.getElem?_eq_some_iff.1 hjx).1
          exact hij ((List.getElem?_inj hlt hn).1 (by rw [hjx, hi])).symm
        · simp only [hs', hsz]
        · show List.map t'.heap.kv (H.eraseIdx j) = fs.held.eraseIdx j
          rw [← hh, map_eraseIdx]
          congr 1
          exact List.map_congr_left (fun o hoH => (hu o (ho o hoH).1 (ho o hoH).2).1)

theorem run_exact {z : K × V} (cmp : Compare K) (cs : List (Call K V)) {s : Tree K V × List Nat} {fs : FT K V} (h : Rel z s fs) :
    runAns cmp s cs = .panic .nilDeref ∨ ∃ s', runAns cmp s cs = .ok ((fs.run cmp cs).1, s') ∧ Rel z s' (fs.run cmp cs).2 := by
  induction cs generalizing s fs with
  | nil => exact .inr ⟨s, rfl, h⟩
  | cons c cs ih =>
    rw [runAns, FT.run]
    rcases step_exact h cmp c with e | ⟨s1, e, h1⟩
    · left; rw [e]; rfl
    · rw [e]
      rcases ih h1 with e2 | ⟨s2, e2, h2⟩
      · left; simp [e2]
      · right; exact ⟨s2, by simp [e2], h2⟩

/-- The call as one of the histories of `run`, if it changes anything. -/
def Call.op : Call K V → Option (Op K V)
  | .put k v => some (.put k v)
  | .delete k => some (.delete k)
  | .deleteKeys ks => some (.deleteKeys ks)
  | .deleteMapping k v vc => some (.deleteMapping k v vc)
  | .clear => some .clear
  | .putNode j => some (.putNode j)
  | _ => none

theorem step_op {z : K × V} {s : Tree K V × List Nat} {fs : FT K V} (h : Rel z s fs) (cmp : Compare K) (c : Call K V) :
    match c.op with
    | none => ∃ a, stepAns cmp s c = .ok (a, s)
    | some op => step cmp s op = (stepAns cmp s c >>= fun r => pure r.2) := by
  cases c with
  | put k v => simp only [Call.op, stepAns, step]; cases put cmp s.1 k v <;> rfl
  | get k => exact ⟨_, by rw [stepAns, (h.get cmp k).1]; rfl⟩
  | has k => exact ⟨_, by rw [stepAns, (h.get cmp k).2]; rfl⟩
  | size => exact ⟨_, rfl⟩
  | isEmpty => exact ⟨_, rfl⟩
  | delete k =>
    simp only [Call.op, stepAns, step]
    rcases delete cmp s.1 k with ⟨_ | i, t⟩ | _ | _ <;> rfl
  | deleteKeys ks => simp only [Call.op, stepAns, step]; cases deleteKeys cmp s.1 ks <;> rfl
  | deleteMapping k v vc => simp only [Call.op, stepAns, step]; cases deleteByWholeMapping cmp vc s.1 k v <;> rfl
  | clear => rfl
  | putNode j =>
    simp only [Call.op, stepAns, step]
    cases s.2[j]? with
    | none => rfl
    | some x => simp only; cases putNode cmp s.1 x <;> rfl

/-- Forgetting the answers and the calls that only ask. -/
theorem runAns_run {z : K × V} (cmp : Compare K) (cs : List (Call K V)) {s : Tree K V × List Nat} {fs : FT K V} (h : Rel z s fs) :
    run cmp s (cs.filterMap Call.op) = (runAns cmp s cs >>= fun r => pure r.2) := by
  induction cs generalizing s fs with
  | nil => rfl
  | cons c cs ih =>
    have hop := step_op h cmp c
    rcases step_exact h cmp c with e | ⟨s1, e, h1⟩
    · cases hc : c.op with
      | none => rw [hc] at hop; obtain ⟨a, ha⟩ := hop; rw [ha] at e; cases e
      | some op =>
        simp only [hc, e] at hop
        simp only [List.filterMap_cons, hc, run, runAns, e, hop]; rfl
    · cases hc : c.op with
      | none =>
        rw [hc] at hop; obtain ⟨a, ha⟩ := hop; rw [ha] at e
        simp only [Res.ok.injEq, Prod.mk.injEq] at e
        obtain ⟨-, rfl⟩ := e
        simp only [List.filterMap_cons, hc, runAns, ha, ih h1, Res.bind_ok]
        cases runAns cmp s cs <;> rfl
      | some op =>
        simp only [hc, e] at hop
        simp only [List.filterMap_cons, hc, run, runAns, hop, e, Res.bind_ok, Res.pure_eq, ih h1]
        cases runAns cmp s1 cs <;> rfl

/-! ### C114 -/

/-- C114: every answer of every history, whatever the comparator, is the one of the pure description, unless some call dereferences nil;
afterwards `Size` is its size, the records reachable from the root are, in order, its labels, the records the user holds carry the entries it says. -/
theorem history_exact (cmp : Compare K) (z : K × V) (cs : List (Call K V)) :
    runAns cmp (new z, []) cs = .panic .nilDeref ∨
    ∃ s, runAns cmp (new z, []) cs = .ok ((FT.run cmp FT.empty cs).1, s) ∧
      s.1.size = (FT.run cmp FT.empty cs).2.size ∧
      (∃ L, Navigable s.1.heap (s.1.heap.parent 0) L ∧ L.map s.1.heap.kv = (FT.run cmp FT.empty cs).2.tree.labels) ∧
      s.2.map s.1.heap.kv = (FT.run cmp FT.empty cs).2.held := by
  rcases run_exact cmp cs (rel_new z) with e | ⟨s, e, tr, U, ok, -, -, hp, hs, hh⟩
  · exact .inl e
  · exact .inr ⟨s, e, hs, ⟨tr.ids, ok.holds.navigable, by rw [← hp, labels_paint]⟩, hh⟩

/-- C114: with a comparator for which no key is below the zero value's key, no call dereferences nil. -/
theorem history_exact_returns {cmp : Compare K} {z : K × V} (hz : ∀ k, 0 ≤ cmp k z.1) (cs : List (Call K V)) :
    ∃ s, runAns cmp (new z, []) cs = .ok ((FT.run cmp FT.empty cs).1, s) := by
  rcases history_exact cmp z cs with e | ⟨s, e, -⟩
  · obtain ⟨s, e'⟩ := calls_return_partial hz (cs.filterMap Call.op)
    rw [runAns_run cmp cs (rel_new z), e] at e'
    cases e'
  · exact ⟨s, e⟩

/-- C114: two different histories that the description cannot tell apart give the same answers from then on. -/
theorem history_exact_same {cmp : Compare K} {z : K × V} (hz : ∀ k, 0 ≤ cmp k z.1) (as bs cs : List (Call K V))
    (h : (FT.run cmp FT.empty as).2 = (FT.run cmp FT.empty bs).2) :
    ∃ ra rb, runAns cmp (new z, []) (as ++ cs) = .ok ra ∧ runAns cmp (new z, []) (bs ++ cs) = .ok rb ∧
      ra.1.drop as.length = rb.1.drop bs.length := by
  have happ : ∀ (as : List (Call K V)) (s : FT K V), FT.run cmp s (as ++ cs) =
      ((FT.run cmp s as).1 ++ (FT.run cmp (FT.run cmp s as).2 cs).1, (FT.run cmp (FT.run cmp s as).2 cs).2) := by
    intro as
    induction as with
    | nil => intro s; simp [FT.run]
    | cons a as ih => intro s; simp [FT.run, ih]
  have hlen : ∀ (as : List (Call K V)) (s : FT K V), (FT.run cmp s as).1.length = as.length := by
    intro as
    induction as with
    | nil => intro s; simp [FT.run]
    | cons a as ih => intro s; simp [FT.run, ih]
  obtain ⟨sa, ea⟩ := history_exact_returns hz (as ++ cs)
  obtain ⟨sb, eb⟩ := history_exact_returns hz (bs ++ cs)
  refine ⟨_, _, ea, eb, ?_⟩
  rw [happ, happ, h]
  rw [List.drop_left' (hlen as _), List.drop_left' (hlen bs _)]

/-! Concrete histories of the model itself, answers included (natural numbers, zero entry (0, 0)). -/

/-- The put of 3 loses the record of 8, and neither is found; `Delete 2` hands over the record of 3, and `PutNode` puts 3 back. -/
def showCalls : List (Call Nat Nat) :=
  [.put 5 50, .put 8 80, .put 3 30, .get 8, .get 3, .size, .delete 5, .get 5, .size, .clear,
    .put 1 10, .put 2 20, .put 3 30, .put 4 40, .put 5 50, .delete 2, .get 2, .get 3, .putNode 0, .size, .deleteKeys [1, 4, 9], .has 5]

/-- The answers to `showCalls`. -/
def showAnswers : List (Ans Nat Nat) :=
  [.bool true, .bool true, .bool true, .value none, .value none, .number 3, .entry (some (5, 50)), .value none, .number 2, .unit,
    .bool true, .bool true, .bool true, .bool true, .bool true, .entry (some (3, 30)), .value none, .value (some 30), .bool false, .number 4, .number 2, .bool true]

example : (FT.run (Fn.comp (T := Nat)) FT.empty showCalls).1 = showAnswers := by decide +kernel

example : ∃ s, runAns (Fn.comp (T := Nat)) (new (0, 0), []) showCalls = .ok (showAnswers, s) := by
  obtain ⟨s, e⟩ := history_exact_returns (cmp := Fn.comp (T := Nat)) (z := (0, 0)) (fun k => by unfold Fn.comp; split <;> simp_all) showCalls
  exact ⟨s, by rw [e]; congr 2⟩

end Gds.RBTree
