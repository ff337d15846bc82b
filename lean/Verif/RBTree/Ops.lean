import Verif.RBTree.Buffer

/-! The operations of the tree, whatever the comparator. -/

namespace Gds.RBTree

variable {K V : Type}

/-- A tree with the nodes `tr`, when the nodes `U` have been taken from its buffer. -/
structure OK (z : K × V) (t : Tree K V) (tr : T) (U : List Nat) : Prop where
  holds : Holds t.heap tr
  rb : RB t.heap.color tr
  buf : ∃ FL, BufOK t.buf t.heap U FL
  sub : ∀ i ∈ tr.ids, i ∈ U
  zero : t.heap.kv 0 = z

/-- The entries, in the order of the nodes. -/
def entries (t : Tree K V) (tr : T) : List (K × V) := tr.ids.map t.heap.kv

theorem OK.pos {z : K × V} {t : Tree K V} {tr : T} {U : List Nat} (h : OK z t tr U) : ∀ u ∈ U, 2 ≤ u := by
  obtain ⟨FL, hb⟩ := h.buf
  exact fun u hu => (hb.used u hu).1

theorem rb_nil (col : Nat → Bool) : RB col .nil := ⟨trivial, 0, rfl⟩

theorem ok_new (z : K × V) : OK z (new z) .nil [] := by
  refine ⟨⟨rfl, trivial, by simp [T.ids], by simp [T.ids]⟩, rb_nil _, ⟨[], ?_⟩, by simp [T.ids], rfl⟩
  exact BufOK.init _ _ 16 (by omega) (by simp)

theorem OK.clear {z : K × V} {t : Tree K V} {tr : T} {U : List Nat} (h : OK z t tr U) : OK z (clear t) .nil U := by
  obtain ⟨FL, hb⟩ := h.buf
  refine ⟨⟨by simp [RBTree.clear], trivial, by simp [T.ids], by simp [T.ids]⟩, rb_nil _, ⟨FL, ?_⟩, by simp [T.ids], h.zero⟩
  exact hb.write (fun i h0 _ => by simp [RBTree.clear, h0])

/-- Overwriting the entry of a node. -/
theorem OK.rekv {z : K × V} {t : Tree K V} {tr : T} {U : List Nat} (h : OK z t tr U) {i : Nat} (hi : 2 ≤ i) (e : K × V) :
    OK z { t with heap := rekv t.heap i e } tr U := by
  obtain ⟨FL, hb⟩ := h.buf
  refine ⟨h.holds.rekv i e, h.rb, ⟨FL, hb.write (fun _ _ _ => rfl)⟩, h.sub, ?_⟩
  show (if 0 = i then e else t.heap.kv 0) = z
  rw [if_neg (by omega)]; exact h.zero

/-! ### Insertion -/

theorem allocNode_spec {z : K × V} {t : Tree K V} {tr : T} {U : List Nat} (h : OK z t tr U) (key : K) (val : V) :
    ∃ n t', allocNode t key val = .ok (some n, t') ∧ n ∉ U ∧ 2 ≤ n ∧ OK z t' tr (n :: U) ∧ t'.size = t.size ∧
      (∀ j, t'.heap.kv j = if j = n then (key, val) else t.heap.kv j) ∧ t'.heap.left = t.heap.left ∧ t'.heap.parent = t.heap.parent ∧
      (∀ j, j ≠ 1 → t'.heap.right j = t.heap.right j) ∧ (∀ j, j ≠ n → t'.heap.color j = t.heap.color j) := by
  obtain ⟨FL, hb⟩ := h.buf
  obtain ⟨n, b', m', FL', e, hn, hn2, hb', hc, hk, hp, hl, hr⟩ := hb.alloc
  have hnt : n ∉ tr.ids := fun hi => hn (h.sub n hi)
  refine ⟨n, { t with heap := recol (rekv m' n (key, val)) n Red, buf := b' }, ?_, hn, hn2, ?_, rfl, ?_, hl, hp, hr, ?_⟩
  · rw [allocNode, e]; rfl
  · refine ⟨?_, ?_, ⟨FL', ?_⟩, fun i hi => by simp [h.sub i hi], ?_⟩
    · refine ⟨?_, h.holds.rep.congr (fun i hi => ?_), h.holds.nodup, h.holds.pos⟩
      · show m'.parent 0 = _; rw [hp]; exact h.holds.root
      · have := h.holds.pos i hi
        exact ⟨by show m'.parent i = _; rw [hp], by show m'.left i = _; rw [hl], by show m'.right i = _; rw [hr i (by omega)]⟩
    · obtain ⟨h1, k, h2⟩ := h.rb
      rw [← hc] at h1 h2
      exact ⟨(rootBlack_upd hnt).2 h1, k, (bal_upd hnt).2 h2⟩
    · exact hb'.write (fun _ _ _ => rfl)
    · show (if 0 = n then _ else m'.kv 0) = z
      rw [if_neg (by omega), hk]; exact h.zero
  · intro j; show (if j = n then _ else m'.kv j) = _; rw [hk]
  · intro j hj; show upd m'.color n Red j = _; rw [upd_ne _ _ hj, hc]

/-- The second half of `put`. -/
def insertAt (t : Tree K V) (key : K) (val : V) (p : Option Nat) : Res (Bool × Tree K V) := do
  let (n, t) ← allocNode t key val
  let m ← link t.heap n p
  pure (true, { t with heap := m })

theorem insertAt_empty {z : K × V} {t : Tree K V} {U : List Nat} (h : OK z t .nil U) (key : K) (val : V) :
    ∃ n t', insertAt t key val none = .ok (true, t') ∧ n ∉ U ∧ OK z t' (.node .nil n .nil) (n :: U) ∧ t'.size = t.size ∧
      (∀ j, t'.heap.kv j = if j = n then (key, val) else t.heap.kv j) ∧ t'.heap.left 0 = some n ∧ t'.heap.right 0 = some n := by
  obtain ⟨n, t1, e1, hn, hn2, ok1, hsz, hkv, hl, hp, hr, hc⟩ := allocNode_spec h key val
  obtain ⟨m', e, hh, hrb, hk, hl0, hr0, hs⟩ := link_empty (m := t1.heap) hn2
  obtain ⟨FL, hb⟩ := ok1.buf
  refine ⟨n, { t1 with heap := m' }, ?_, hn, ⟨hh, hrb, ⟨FL, ?_⟩, by simp [T.ids], ?_⟩, hsz, ?_, hl0, hr0⟩
  · rw [insertAt, e1]; simp [e]
  · exact hb.write (fun i h0 hi => (hs i h0 (by rintro rfl; simp at hi)).2.2)
  · show m'.kv 0 = z; rw [hk]; exact ok1.zero
  · intro j; show m'.kv j = _; rw [hk, hkv]

theorem insertAt_spec {z : K × V} {t : Tree K V} {c : Ctx} {l r : T} {i : Nat} {U : List Nat} (h : OK z t (c.plug (.node l i r)) U)
    (hlr : l = .nil ∨ r = .nil) (key : K) (val : V) :
    ∃ n t' tr', insertAt t key val (some i) = .ok (true, t') ∧ n ∉ U ∧ OK z t' tr' (n :: U) ∧ t'.size = t.size ∧
      tr'.ids = c.before ++ l.ids ++ i :: n :: c.after ∧
      (∀ j, t'.heap.kv j = if j = n then (key, val) else t.heap.kv j) ∧ t'.heap.left 0 = t.heap.left 0 ∧
      t'.heap.right 0 = (if t.heap.right 0 = some i then some n else t.heap.right 0) ∧
      (t.heap.color i = Black → tr' = c.plug (.node l i (.node .nil n .nil))) := by
  obtain ⟨n, t1, e1, hn, hn2, ok1, hsz, hkv, hl, hp, hr, hc⟩ := allocNode_spec h key val
  have hnt : n ∉ (c.plug (.node l i r)).ids := fun hi => hn (h.sub n hi)
  obtain ⟨m', t', e, hh, hids, hrb, hk, hl0, hr0, hs, hsh⟩ := link_spec ok1.holds ok1.rb hlr hn2 hnt
  obtain ⟨FL, hb⟩ := ok1.buf
  have hin : n ≠ i := by rintro rfl; exact hnt (by rw [Ctx.mem_plug]; simp [T.ids])
  refine ⟨n, { t1 with heap := m' }, t', ?_, hn, ⟨hh, hrb, ⟨FL, ?_⟩, ?_, ?_⟩, hsz, hids, ?_, ?_, ?_, ?_⟩
  · rw [insertAt, e1]; simp [e]
  · refine hb.write (fun j h0 hj => (hs j h0 ?_ ?_).2.2)
    · intro hi; exact hj (by simp [h.sub j hi])
    · rintro rfl; simp at hj
  · intro j hj
    rw [hids] at hj
    by_cases hjn : j = n
    · simp [hjn]
    · have : j ∈ (c.plug (.node l i r)).ids := by
        rw [Ctx.mem_plug]; simp only [List.mem_append, List.mem_cons, Ctx.ids, T.ids] at hj ⊢; tauto
      simp [h.sub j this]
  · show m'.kv 0 = z; rw [hk]; exact ok1.zero
  · intro j; show m'.kv j = _; rw [hk, hkv]
  · show m'.left 0 = _; rw [hl0, hl]
  · show m'.right 0 = _; rw [hr0, hr 0 (by omega)]
  · intro hb; exact hsh (by rw [hc i (Ne.symm hin)]; exact hb)

/-- `put` with any comparator: the value of one node changes, or one node is added (possibly in place of others). -/
theorem putInner_any {z : K × V} {t : Tree K V} {tr : T} {U : List Nat} (h : OK z t tr U) (cmp : Compare K) (key : K) (val : V) :
    ∃ b t' tr' U', putInner cmp t key val = .ok (b, t') ∧ OK z t' tr' U' ∧ t'.size = t.size ∧ (∀ u ∈ U, u ∈ U') ∧
      (∀ u ∈ U, u ∉ tr.ids → u ∉ tr'.ids) ∧
      (b = false → tr' = tr) ∧ tr'.ids.length ≤ tr.ids.length + 1 ∧ (t.heap.left 0 ≠ none → t'.heap.left 0 ≠ none) ∧ (b = true → t.heap.left 0 ≠ none ∨ tr = .nil → t'.heap.left 0 ≠ none) ∧
      ∃ u e, (∀ j, t'.heap.kv j = if j = u then e else t.heap.kv j) ∧ e.2 = val ∧ (e.1 = key ∨ cmp key e.1 ≠ -1 ∧ cmp key e.1 ≠ 1) ∧ (∀ w ∈ U', w = u ∨ w ∈ U) ∧
        (b = true → u ∈ tr'.ids) := by
  have hroot := h.holds.root
  rcases descend_any cmp key tr .top h.holds with ⟨i, hi, e⟩ | ⟨rfl, e⟩ | ⟨c, l, r, i, rfl, hlr, e⟩
  · refine ⟨false, { t with heap := rekv t.heap i ((t.heap.kv i).1, val) }, tr, U, ?_, h.rekv (h.holds.pos i hi) _, rfl, fun _ h => h, fun _ _ h => h, fun _ => rfl, by omega, fun h => h, by simp,
      i, ((t.heap.kv i).1, val), fun _ => rfl, rfl, .inr (descend_hit tr none none h.holds.rep e), fun w hw => .inr hw, by simp⟩
    rw [putInner, hroot]; simp only [Ctx.par] at e; rw [e]; rfl
  · obtain ⟨n, t', e', hn, ok', hsz, hkv, hl, -⟩ := insertAt_empty h key val
    refine ⟨true, t', _, _, ?_, ok', hsz, fun u hu => by simp [hu], ?_, by simp, by simp [T.ids], fun _ => by rw [hl]; simp, fun _ _ => by rw [hl]; simp,
      n, (key, val), hkv, rfl, .inl rfl, by simp, by simp [T.ids]⟩
    · rw [putInner, hroot]; simp only [Ctx.par] at e; rw [e]; exact e'
    · intro u hu _; simp only [T.ids, List.nil_append, List.mem_singleton]; rintro rfl; exact hn hu
  · obtain ⟨n, t', tr', e', hn, ok', hsz, hids, hkv, hl, -⟩ := insertAt_spec h hlr key val
    refine ⟨true, t', tr', _, ?_, ok', hsz, fun u hu => by simp [hu], ?_, by simp, ?_, fun hh => by rw [hl]; exact hh, ?_,
      n, (key, val), hkv, rfl, .inl rfl, by simp, fun _ => by rw [hids]; simp⟩
    · rw [putInner, hroot]; simp only [Ctx.par, Ctx.plug] at e; rw [e]; exact e'
    · intro u hu hnu hu'
      rw [hids] at hu'
      apply hnu
      rw [Ctx.mem_plug]
      have : u ≠ n := by rintro rfl; exact hn hu
      simp only [List.mem_append, List.mem_cons, Ctx.ids, T.ids] at hu' ⊢; tauto
    · rw [hids, ids_plug]; simp [T.ids]; omega
    · rintro _ (hh | hh)
      · rw [hl]; exact hh
      · have : (c.plug (.node l i r)).ids = [] := by rw [hh]; rfl
        rw [ids_plug] at this; simp [T.ids] at this

/-- `PutNode` of a node that was taken out of the tree (or never put in). -/
theorem putNode_any {z : K × V} {t : Tree K V} {tr : T} {U : List Nat} (h : OK z t tr U) (cmp : Compare K) {x : Nat} (hx : x ∈ U) (hxt : x ∉ tr.ids) :
    ∃ b t' tr', putNode cmp t x = .ok (b, t') ∧ OK z t' tr' U ∧ t'.size = t.size ∧ (∀ u ∈ U, u ∉ tr.ids → u ≠ x → u ∉ tr'.ids) ∧
      (b = false → tr' = tr) ∧ tr'.ids.length ≤ tr.ids.length + 1 ∧
      ∀ j, t'.heap.kv j = t.heap.kv j ∨
        t'.heap.kv j = ((t.heap.kv j).1, (t.heap.kv x).2) ∧ cmp (t.heap.kv x).1 (t.heap.kv j).1 ≠ -1 ∧ cmp (t.heap.kv x).1 (t.heap.kv j).1 ≠ 1 := by
  have hroot := h.holds.root
  have hx2 := h.pos x hx
  obtain ⟨FL, hb⟩ := h.buf
  rcases descend_any cmp (t.heap.kv x).1 tr .top h.holds with ⟨i, hi, e⟩ | ⟨rfl, e⟩ | ⟨c, l, r, i, rfl, hlr, e⟩
  · refine ⟨false, { t with heap := rekv t.heap i ((t.heap.kv i).1, (t.heap.kv x).2) }, tr, ?_, h.rekv (h.holds.pos i hi) _, rfl, fun _ _ h _ => h, fun _ => rfl, by omega, ?_⟩
    swap
    · intro j
      by_cases hj : j = i
      · subst hj
        exact .inr ⟨by simp [rekv], descend_hit tr none none h.holds.rep e⟩
      · exact .inl (by simp [rekv, hj])
    rw [putNode, hroot]; simp only [Ctx.par] at e; rw [e]; rfl
  · obtain ⟨m', e', hh, hrb, hk, hl0, hr0, hs⟩ := link_empty (m := t.heap) hx2
    refine ⟨true, { t with heap := m' }, _, ?_, ⟨hh, hrb, ⟨FL, ?_⟩, ?_, ?_⟩, rfl, ?_, by simp, by simp [T.ids], fun j => .inl (by show m'.kv j = _; rw [hk])⟩
    · rw [putNode, hroot]; simp only [Ctx.par] at e; rw [e]; simp [e']
    · exact hb.write (fun i h0 hi => (hs i h0 (by rintro rfl; exact hi hx)).2.2)
    · simp [T.ids, hx]
    · show m'.kv 0 = z; rw [hk]; exact h.zero
    · intro u hu _ hux; simpa [T.ids] using hux
  · obtain ⟨m', t', e', hh, hids, hrb, hk, hl0, hr0, hs, -⟩ := link_spec h.holds h.rb hlr hx2 hxt
    refine ⟨true, { t with heap := m' }, t', ?_, ⟨hh, hrb, ⟨FL, ?_⟩, ?_, ?_⟩, rfl, ?_, by simp, ?_, fun j => .inl (by show m'.kv j = _; rw [hk])⟩
    · rw [putNode, hroot]; simp only [Ctx.par, Ctx.plug] at e; rw [e]; simp [e']
    · exact hb.write (fun j h0 hj => (hs j h0 (fun hi => hj (h.sub j hi)) (by rintro rfl; exact hj hx)).2.2)
    · intro j hj
      rw [hids] at hj
      by_cases hjn : j = x
      · subst hjn; exact hx
      · refine h.sub j ?_
        rw [Ctx.mem_plug]; simp only [List.mem_append, List.mem_cons, Ctx.ids, T.ids] at hj ⊢; tauto
    · show m'.kv 0 = z; rw [hk]; exact h.zero
    · intro u hu hnu hux hu'
      rw [hids] at hu'
      apply hnu
      rw [Ctx.mem_plug]
      simp only [List.mem_append, List.mem_cons, Ctx.ids, T.ids] at hu' ⊢; tauto
    · rw [hids, ids_plug]; simp [T.ids]; omega

/-! ### Removal -/

/-- The header's left pointer after `remove`. -/
def leftAfter (cmp : Compare K) (m : Heap K V) (i : Nat) (bs : List Nat) : Option Nat :=
  if cmp (m.kv i).1 (m.kv 0).1 > -1 then m.left 0
  else match m.left 0 with
    | none => none
    | some h => if cmp (m.kv h).1 (m.kv i).1 > -1 then bs.head? else some h

theorem removeEnds_spec {m : Heap K V} {t : T} {as bs : List Nat} {i : Nat} (h : Holds m t) (e : t.ids = as ++ i :: bs) (cmp : Compare K) :
    (m.left 0 = none ∧ ¬ cmp (m.kv i).1 (m.kv 0).1 > -1 ∧ removeEnds cmp m (some i) = .panic .nilDeref) ∨
    (m.left 0 = none → cmp (m.kv i).1 (m.kv 0).1 > -1) ∧
    ∃ m', removeEnds cmp m (some i) = .ok m' ∧ m'.color = m.color ∧ m'.kv = m.kv ∧ m'.parent = m.parent ∧ m'.left 0 = leftAfter cmp m i bs ∧
      m'.right 0 = (if cmp (m.kv i).1 (m.kv 0).1 > -1 then as.getLast? else m.right 0) ∧
      ∀ j, j ≠ 0 → m'.left j = m.left j ∧ m'.right j = m.right j := by
  by_cases h1 : cmp (m.kv i).1 (m.kv 0).1 > -1
  · right
    refine ⟨fun _ => h1, { m with right := fun j => if j = 0 then as.getLast? else m.right j }, ?_, rfl, rfl, rfl, ?_, by simp [h1], fun j hj => ⟨rfl, ?_⟩⟩
    · rw [removeEnds]; simp [h1, prev_spec h e, Heap.setRight]
    · simp only [leftAfter, if_pos h1]
    · simp [hj]
  · cases hl : m.left 0 with
    | none =>
      left
      refine ⟨rfl, h1, ?_⟩
      rw [removeEnds]; simp [h1, hl, Heap.kvOf]
    | some q =>
      right
      refine ⟨by simp, ?_⟩
      by_cases h2 : cmp (m.kv q).1 (m.kv i).1 > -1
      · refine ⟨{ m with left := fun j => if j = 0 then bs.head? else m.left j }, ?_, rfl, rfl, rfl, ?_, by simp [h1], fun j hj => ⟨?_, rfl⟩⟩
        · rw [removeEnds]; simp [h1, hl, h2, next_spec h e, Heap.setLeft]
        · simp [leftAfter, h1, hl, h2]
        · simp [hj]
      · refine ⟨m, ?_, rfl, rfl, rfl, ?_, by simp [h1], fun j hj => ⟨rfl, rfl⟩⟩
        · rw [removeEnds]; simp [h1, hl, h2]
        · simp [leftAfter, h1, hl, h2]

/-- What a removal leaves. -/
structure Removed (z : K × V) (cmp : Compare K) (t t' : Tree K V) (tr tr' : T) (U as : List Nat) (i : Nat) (bs : List Nat) (rm : Nat) : Prop where
  ok : OK z t' tr' U
  size : t'.size = t.size - 1
  mem : rm ∈ tr.ids
  kv : ∀ j, t'.heap.kv j = if j = i then t.heap.kv rm else t.heap.kv j
  ids : (rm = i ∧ tr'.ids = as ++ bs) ∨ (as ≠ [] ∧ ∃ bs', bs = rm :: bs' ∧ tr'.ids = as ++ i :: bs')
  which : rm = i ↔ t.heap.left i = none ∨ t.heap.right i = none
  /-- The node that leaves keeps its own pointers. -/
  same : Same t.heap t'.heap rm
  leaf : ∀ q, t.heap.left rm = none → t.heap.right rm = some q → t.heap.left q = none ∧ t'.heap.left q = none
  near : rm ≠ i → t.heap.left rm = none ∧ ∃ y, t.heap.parent rm = some y ∧ (y = i ∧ t.heap.right i = some rm ∨ t.heap.left y = some rm)
  left : t'.heap.left 0 = if t'.size = 0 then none else leftAfter cmp t.heap i bs
  right : t'.heap.right 0 = if t'.size = 0 then none else if cmp (t.heap.kv i).1 z.1 > -1 then as.getLast? else t.heap.right 0

set_option maxHeartbeats 1000000 in
theorem removeNode_ctx {z : K × V} {t : Tree K V} {tr : T} {U as bs : List Nat} {i : Nat} {c : Ctx} {l r : T} (h : OK z t tr U)
    (ht : tr = c.plug (.node l i r)) (e : tr.ids = as ++ i :: bs) (cmp : Compare K) :
    (t.heap.left 0 = none ∧ ¬ cmp (t.heap.kv i).1 z.1 > -1 ∧ removeNode cmp t i = .panic .nilDeref) ∨
    (t.heap.left 0 = none → cmp (t.heap.kv i).1 z.1 > -1) ∧
    ∃ rm t' tr', removeNode cmp t i = .ok (some rm, t') ∧ Removed z cmp t t' tr tr' U as i bs rm ∧
      CT.removeAt (paintC t.heap.color t.heap.kv c) (paint t.heap.color t.heap.kv (.node l i r)) =
        (some (t.heap.kv rm), paint t'.heap.color t'.heap.kv tr') := by
  rw [← h.zero]
  rcases removeEnds_spec h.holds e cmp with ⟨h1, h2, h3⟩ | ⟨h1, m1, e1, hc, hk, hp, hl, hr0, hlr⟩
  · left; refine ⟨h1, h2, ?_⟩; rw [removeNode, remove, h3]; rfl
  right
  refine ⟨h1, ?_⟩
  have hh1 : Holds m1 tr := by
    refine ⟨by rw [hp]; exact h.holds.root, h.holds.rep.congr (fun j hj => ?_), h.holds.nodup, h.holds.pos⟩
    have := h.holds.pos j hj
    obtain ⟨a, b⟩ := hlr j (by omega)
    exact ⟨by rw [hp], a, b⟩
  obtain ⟨m2, t2, rm, e2, hh2, hrb2, hrm, hf, hkv, hids, hwh, hsm, hlf, hnr, hpt⟩ :=
    unlink_ctx (c := c) (l := l) (r := r) (ht ▸ hh1) (by rw [hc, ← ht]; exact h.rb) (ht ▸ e)
  rw [← ht] at hrm hf
  rw [hc, hk] at hpt
  have hrm0 : rm ≠ 0 := by have := h.holds.pos rm hrm; omega
  have hi0 : i ≠ 0 := by have := h.holds.pos i (by rw [e]; simp); omega
  have hsm : Same t.heap m2 rm := by
    obtain ⟨s1, s2, s3⟩ := hsm
    exact ⟨by rw [s1, hp], by rw [s2, (hlr rm hrm0).1], by rw [s3, (hlr rm hrm0).2]⟩
  have hlf : ∀ q, t.heap.left rm = none → t.heap.right rm = some q → t.heap.left q = none ∧ m2.left q = none := by
    intro q h1 h2
    have hq := hlf q (by rw [(hlr rm hrm0).1, h1]) (by rw [(hlr rm hrm0).2, h2])
    have hq0 : q ≠ 0 := by
      rintro rfl
      obtain ⟨c, l, r, ht⟩ := exists_ctx tr rm hrm .top
      simp only [Ctx.plug] at ht
      have hh := h.holds
      rw [ht] at hh
      have := hh.split.2.2.2.1
      rw [h2] at this
      have := hh.pos 0 (by rw [Ctx.mem_plug]; right; simp [T.ids, T.root_mem this.symm])
      omega
    rw [(hlr q hq0).1] at hq; exact hq
  have hnr : rm ≠ i → t.heap.left rm = none ∧ ∃ y, t.heap.parent rm = some y ∧ (y = i ∧ t.heap.right i = some rm ∨ t.heap.left y = some rm) := by
    intro hne
    obtain ⟨q1, y, q2, q3⟩ := hnr hne
    rw [(hlr rm hrm0).1] at q1
    rw [hp] at q2
    refine ⟨q1, y, q2, q3.imp (fun q => ⟨q.1, by rw [← (hlr i hi0).2]; exact q.2⟩) (fun q => ?_)⟩
    have hy0 : y ≠ 0 := by
      rintro rfl
      obtain ⟨c, l, r, ht⟩ := exists_ctx tr rm hrm .top
      simp only [Ctx.plug] at ht
      have hh := h.holds
      rw [ht] at hh
      have := hh.split.2.1
      rw [q2] at this
      have := hh.pos 0 (by rw [Ctx.mem_plug]; exact .inl (Ctx.par_mem this.symm))
      omega
    rw [← (hlr y hy0).1]; exact q
  have hwh : rm = i ↔ t.heap.left i = none ∨ t.heap.right i = none := by
    have hi := h.holds.pos i (by rw [e]; simp)
    rw [hwh, (hlr i (by omega)).1, (hlr i (by omega)).2]
  obtain ⟨FL, hb⟩ := h.buf
  have hw : ∀ i, i ≠ 0 → i ∉ U → m2.right i = t.heap.right i := by
    intro j h0 hj
    rw [(hf.out j (fun hh => hj (h.sub j hh)) h0).2.2, (hlr j h0).2]
  have hsub : ∀ j ∈ t2.ids, j ∈ U := by
    intro j hj
    apply h.sub
    rw [e]
    rcases hids with ⟨_, h2⟩ | ⟨_, bs', h2, h3⟩
    · rw [h2] at hj; simp at hj ⊢; tauto
    · rw [h3] at hj; simp [h2] at hj ⊢; tauto
  have hzero : m2.kv 0 = t.heap.kv 0 := by
    have : i ∈ tr.ids := by rw [e]; simp
    have := h.holds.pos i this
    rw [hkv, if_neg (by omega), hk]
  have hrem : remove cmp t.heap (some i) = .ok (some rm, m2) := by rw [remove, e1]; simp [e2]
  have hkv' : ∀ j, m2.kv j = if j = i then t.heap.kv rm else t.heap.kv j := by intro j; rw [hkv, hk]
  by_cases hs : t.size - 1 = 0
  · refine ⟨rm, { t with size := t.size - 1, heap := { m2 with
        right := fun j => if j = 0 then none else m2.right j
        left := fun j => if j = 0 then none else m2.left j } }, t2, by rw [removeNode, hrem]; simp only [Res.bind_ok, hs, if_true]; rfl, ⟨⟨?_, ?_, ⟨FL, ?_⟩, hsub, ?_⟩, rfl, hrm, hkv', hids, hwh, ?_, ?_, hnr, ?_, ?_⟩, hpt⟩
    · refine ⟨hh2.root, hh2.rep.congr (fun j hj => ⟨rfl, ?_, ?_⟩), hh2.nodup, hh2.pos⟩
      · have := hh2.pos j hj; simp only; rw [if_neg (by omega)]
      · have := hh2.pos j hj; simp only; rw [if_neg (by omega)]
    · exact hrb2
    · refine hb.write (fun j h0 hj => ?_)
      simp only; rw [if_neg h0]; exact hw j h0 hj
    · exact hzero
    · obtain ⟨s1, s2, s3⟩ := hsm
      exact ⟨s1, by simp only [if_neg hrm0]; exact s2, by simp only [if_neg hrm0]; exact s3⟩
    · intro q h1 h2
      refine ⟨(hlf q h1 h2).1, ?_⟩
      simp only; split
      · rfl
      · exact (hlf q h1 h2).2
    · simp [hs]
    · simp [hs]
  · refine ⟨rm, { t with size := t.size - 1, heap := m2 }, t2, by rw [removeNode, hrem]; simp only [Res.bind_ok, hs, if_false]; rfl, ⟨⟨hh2, hrb2, ⟨FL, hb.write hw⟩, hsub, hzero⟩, rfl, hrm, hkv', hids, hwh, hsm, hlf, hnr, ?_, ?_⟩, hpt⟩
    · simp only [hs, if_false]; rw [hf.hl, hl]
    · simp only [hs, if_false]; rw [hf.hr, hr0, h.zero]

theorem removeNode_spec {z : K × V} {t : Tree K V} {tr : T} {U as bs : List Nat} {i : Nat} (h : OK z t tr U) (e : tr.ids = as ++ i :: bs) (cmp : Compare K) :
    (t.heap.left 0 = none ∧ ¬ cmp (t.heap.kv i).1 z.1 > -1 ∧ removeNode cmp t i = .panic .nilDeref) ∨
    (t.heap.left 0 = none → cmp (t.heap.kv i).1 z.1 > -1) ∧
    ∃ rm t' tr', removeNode cmp t i = .ok (some rm, t') ∧ Removed z cmp t t' tr tr' U as i bs rm := by
  obtain ⟨c, l, r, ht⟩ := exists_ctx tr i (by rw [e]; simp) .top
  simp only [Ctx.plug] at ht
  rcases removeNode_ctx h ht e cmp with h1 | ⟨h1, rm, t', tr', h2, h3, -⟩
  · exact .inl h1
  · exact .inr ⟨h1, rm, t', tr', h2, h3⟩

theorem search_any {z : K × V} {t : Tree K V} {tr : T} {U : List Nat} (h : OK z t tr U) (cmp : Compare K) (key : K) :
    (∃ i ∈ tr.ids, search cmp t.heap key = .ok (some i)) ∨ search cmp t.heap key = .ok none := by
  rw [search, h.holds.root]
  exact searchFrom_any cmp key tr none h.holds.rep

theorem freeNode_exact {z : K × V} {t : Tree K V} {tr : T} {U : List Nat} {n : Nat} (h : OK z t tr U) (hn : n ∈ U) (hnt : n ∉ tr.ids) :
    ∃ t', freeNode t (some n) = .ok t' ∧ OK z t' tr (U.filter (· ≠ n)) ∧ t'.size = t.size ∧ t'.heap.kv = t.heap.kv ∧ t'.heap.left = t.heap.left ∧ t'.heap.color = t.heap.color := by
  obtain ⟨FL, hb⟩ := h.buf
  obtain ⟨b', m', FL', e, hb', hc, hk, hp, hl, hr⟩ := hb.freeNode hn
  refine ⟨{ t with heap := m', buf := b' }, ?_, ⟨?_, ?_, ⟨FL', hb'⟩, ?_, ?_⟩, rfl, hk, hl, hc⟩
  · rw [freeNode, e]; rfl
  · refine ⟨by rw [hp]; exact h.holds.root, h.holds.rep.congr (fun j hj => ?_), h.holds.nodup, h.holds.pos⟩
    have := h.holds.pos j hj
    exact ⟨by rw [hp], by rw [hl], hr j (by omega) (by rintro rfl; exact hnt hj)⟩
  · show RB m'.color tr; rw [hc]; exact h.rb
  · intro j hj; simp [h.sub j hj]; rintro rfl; exact hnt hj
  · show m'.kv 0 = z; rw [hk]; exact h.zero

theorem freeNode_spec {z : K × V} {t : Tree K V} {tr : T} {U : List Nat} {n : Nat} (h : OK z t tr U) (hn : n ∈ U) (hnt : n ∉ tr.ids) :
    ∃ t', freeNode t (some n) = .ok t' ∧ OK z t' tr (U.filter (· ≠ n)) ∧ t'.size = t.size ∧ t'.heap.kv = t.heap.kv ∧ t'.heap.left = t.heap.left := by
  obtain ⟨t', h1, h2, h3, h4, h5, -⟩ := freeNode_exact h hn hnt
  exact ⟨t', h1, h2, h3, h4, h5⟩

end Gds.RBTree
