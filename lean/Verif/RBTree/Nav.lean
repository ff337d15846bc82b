import Verif.RBTree.Ends

/-! C94: walking over the nodes with `Next`, `Prev`, `GetLeft`, `GetRight`, `GetParent`, `MinChildNode` and `MaxChildNode`.
C95: `String`.  C96: `SetValue`. -/

namespace Gds.RBTree

variable {K V : Type}

/-! ### C94: navigation -/

/-- `j` can be reached from the node `n` with `GetLeft` and `GetRight`. -/
inductive Below (m : Heap K V) : Option Nat → Nat → Prop
  | here (i : Nat) : Below m (some i) i
  | left {i j : Nat} (h : Below m (m.left i) j) : Below m (some i) j
  | right {i j : Nat} (h : Below m (m.right i) j) : Below m (some i) j

theorem below_iff {m : Heap K V} {t : T} {p : Option Nat} (h : Rep m p t) (j : Nat) : Below m t.root j ↔ j ∈ t.ids := by
  induction t generalizing p with
  | nil => simp only [T.root_nil, T.ids, List.not_mem_nil, iff_false]; intro h; cases h
  | node l i r ihl ihr =>
    obtain ⟨h1, h2, h3, h4, h5⟩ := h
    simp only [T.root_node, T.ids, List.mem_append, List.mem_cons]
    constructor
    · intro hb
      cases hb with
      | here => exact .inr (.inl rfl)
      | left hb => rw [h2] at hb; exact .inl ((ihl h4).1 hb)
      | right hb => rw [h3] at hb; exact .inr (.inr ((ihr h5).1 hb))
    · rintro (hj | rfl | hj)
      · exact .left (by rw [h2]; exact (ihl h4).2 hj)
      · exact .here _
      · exact .right (by rw [h3]; exact (ihr h5).2 hj)

/-- What navigating over the nodes of a tree shows: one list `L`, without repetitions, of the nodes below the root, such that
`Next` and `Prev` go to the neighbour in `L` (nil at the ends); every child's parent is the node itself, only the root has none;
the nodes below a node are a block of `L`, left descendants before it, right descendants behind it, and `MinChildNode` and
`MaxChildNode` are the ends of the block. -/
structure Navigable (m : Heap K V) (root : Option Nat) (L : List Nat) : Prop where
  nodup : L.Nodup
  mem : ∀ i, i ∈ L ↔ Below m root i
  next : ∀ as i bs, L = as ++ i :: bs → next m (some i) = .ok bs.head?
  prev : ∀ as i bs, L = as ++ i :: bs → prev m (some i) = .ok as.getLast?
  child : ∀ i ∈ L, ∀ j, m.leftOf (some i) = .ok (some j) ∨ m.rightOf (some i) = .ok (some j) → j ∈ L ∧ m.parentOf (some j) = .ok (some i)
  parent : ∀ i ∈ L, ∀ p, m.parentOf (some i) = .ok (some p) → p ∈ L ∧ (m.leftOf (some p) = .ok (some i) ∨ m.rightOf (some p) = .ok (some i))
  top : ∀ i ∈ L, m.parentOf (some i) = .ok none ↔ root = some i
  block : ∀ i ∈ L, ∃ as ls rs bs, L = as ++ ls ++ i :: rs ++ bs ∧ (∀ j, j ∈ ls ↔ Below m (m.left i) j) ∧ (∀ j, j ∈ rs ↔ Below m (m.right i) j) ∧
    minChild m (some i) = .ok (ls ++ i :: rs).head? ∧ maxChild m (some i) = .ok (ls ++ i :: rs).getLast?

theorem Holds.navigable {m : Heap K V} {t : T} (h : Holds m t) : Navigable m (m.parent 0) t.ids := by
  refine ⟨h.nodup, fun i => ?_, fun as i bs e => next_spec h e, fun as i bs e => prev_spec h e, ?_, ?_, ?_, ?_⟩
  · rw [h.root, below_iff h.rep]
  · intro i hi j hj
    obtain ⟨c, l, r, ht⟩ := exists_ctx t i hi .top
    simp only [Ctx.plug] at ht; subst ht
    obtain ⟨hc, h1, h2, h3, h4, h5⟩ := h.split
    simp only [leftOf_some, rightOf_some, Res.ok.injEq, h2, h3] at hj
    rcases hj with hj | hj
    · cases l with
      | nil => cases hj
      | node a k b => cases hj; exact ⟨by simp [ids_plug, T.ids], by rw [parentOf_some, h4.1]⟩
    · cases r with
      | nil => cases hj
      | node a k b => cases hj; exact ⟨by simp [ids_plug, T.ids], by rw [parentOf_some, h5.1]⟩
  · intro i hi p hp
    obtain ⟨c, l, r, ht⟩ := exists_ctx t i hi .top
    simp only [Ctx.plug] at ht; subst ht
    obtain ⟨hc, h1, h2, h3, h4, h5⟩ := h.split
    rw [parentOf_some, h1, Res.ok.injEq] at hp
    cases c with
    | top => cases hp
    | left q s c => cases hp; exact ⟨by simp [ids_plug, Ctx.after], .inl (by rw [leftOf_some, hc.1]; rfl)⟩
    | right s q c => cases hp; exact ⟨by simp [ids_plug, Ctx.before], .inr (by rw [rightOf_some, hc.1]; rfl)⟩
  · intro i hi
    obtain ⟨c, l, r, ht⟩ := exists_ctx t i hi .top
    simp only [Ctx.plug] at ht; subst ht
    obtain ⟨hc, h1, h2, h3, h4, h5⟩ := h.split
    obtain ⟨nc, nt, nd⟩ := Ctx.nodup_plug h.nodup
    rw [parentOf_some, h1, h.root, Res.ok.injEq]
    by_cases hct : c = .top
    · subst hct; simp [Ctx.par, Ctx.plug]
    · obtain ⟨q, hq, hr⟩ := Ctx.root_plug hct .nil
      rw [hr]
      constructor
      · intro hp; cases c <;> simp [Ctx.par] at hp hct
      · intro hp; cases hp; exact absurd (by simp [T.ids]) (nd i hq)
  · intro i hi
    obtain ⟨c, l, r, ht⟩ := exists_ctx t i hi .top
    simp only [Ctx.plug] at ht; subst ht
    obtain ⟨hc, hrep⟩ := h.split
    obtain ⟨h1, h2, h3, h4, h5⟩ := hrep
    refine ⟨c.before, l.ids, r.ids, c.after, by simp [ids_plug, T.ids], fun j => ?_, fun j => ?_, ?_, ?_⟩
    · rw [h2, below_iff h4]
    · rw [h3, below_iff h5]
    · exact minChild_spec (t := .node l i r) ⟨h1, h2, h3, h4, h5⟩ (by simp)
    · exact maxChild_spec (t := .node l i r) ⟨h1, h2, h3, h4, h5⟩ (by simp)

theorem Navigable.unique {m : Heap K V} {root : Option Nat} {L L' : List Nat} (h' : Navigable m root L) (h0 : Navigable m root L') : L = L' := by
  have : ∀ (as bs : List Nat) (xs ys : List Nat), L = as ++ xs → L' = bs ++ ys → xs.head? = ys.head? → xs = ys := by
    intro as bs xs
    induction xs generalizing as bs with
    | nil => intro ys _ _ hh; cases ys with
      | nil => rfl
      | cons y ys => cases hh
    | cons x xs ih =>
      intro ys e1 e2 hh
      cases ys with
      | nil => cases hh
      | cons y ys =>
        cases hh
        have h1 := h'.next as x xs e1
        have h2 := h0.next bs x ys e2
        rw [h1, Res.ok.injEq] at h2
        rw [ih (as ++ [x]) (bs ++ [x]) ys (by simp [e1]) (by simp [e2]) h2]
  refine this [] [] L L' rfl rfl ?_
  cases L with
  | nil =>
    cases ht : L' with
    | nil => rfl
    | cons y ys => exact absurd ((h'.mem y).2 ((h0.mem y).1 (by rw [ht]; simp))) (by simp)
  | cons x xs =>
    obtain ⟨as, bs, hab⟩ := List.append_of_mem ((h0.mem x).2 ((h'.mem x).1 (by simp)))
    have h1 := h'.prev [] x xs rfl
    have h2 := h0.prev as x bs hab
    rw [h1, Res.ok.injEq, List.getLast?_nil] at h2
    have : as = [] := List.getLast?_eq_none_iff.1 h2.symm
    rw [hab, this]; rfl

/-- C94, for every history of every operation (misplaced keys included): the nodes of the tree can be walked. -/
theorem nodes_navigable (cmp : Compare K) (z : K × V) (ops : List (Op K V)) {s : Tree K V × List Nat} (e : run cmp (new z, []) ops = .ok s) :
    ∃ L, Navigable s.1.heap (s.1.heap.parent 0) L := by
  obtain ⟨tr, U, ok, -, -⟩ := run_inv cmp ops (inv_new z) e
  exact ⟨tr.ids, ok.holds.navigable⟩

/-- C94: whatever the history, `Prev` undoes `Next` and `Next` undoes `Prev`, at every node of the tree. -/
theorem prev_next (cmp : Compare K) (z : K × V) (ops : List (Op K V)) {s : Tree K V × List Nat} (e : run cmp (new z, []) ops = .ok s)
    {i : Nat} (hi : Below s.1.heap (s.1.heap.parent 0) i) :
    (∃ n, next s.1.heap (some i) = .ok n ∧ ∀ j, n = some j → Below s.1.heap (s.1.heap.parent 0) j ∧ prev s.1.heap (some j) = .ok (some i)) ∧
    ∃ p, prev s.1.heap (some i) = .ok p ∧ ∀ j, p = some j → Below s.1.heap (s.1.heap.parent 0) j ∧ next s.1.heap (some j) = .ok (some i) := by
  obtain ⟨L, h⟩ := nodes_navigable cmp z ops e
  obtain ⟨as, bs, hL⟩ := List.append_of_mem ((h.mem i).2 hi)
  constructor
  · refine ⟨_, h.next as i bs hL, fun j hj => ?_⟩
    cases bs with
    | nil => cases hj
    | cons b bs =>
      cases hj
      refine ⟨(h.mem j).1 (by rw [hL]; simp), ?_⟩
      rw [h.prev (as ++ [i]) j bs (by simp [hL])]; simp
  · refine ⟨_, h.prev as i bs hL, fun j hj => ?_⟩
    obtain ⟨as', rfl⟩ := List.getLast?_eq_some_iff.1 hj
    refine ⟨(h.mem j).1 (by rw [hL]; simp), ?_⟩
    rw [h.next as' j (i :: bs) (by simp [hL])]; simp

/-- Stepping with `Prev` until it returns nil (a client's loop). -/
def drainBack (m : Heap K V) (n : Option Nat) : Res (List (K × V)) := do
  match n with
  | none => pure []
  | some i =>
    let p ← prev m (some i)
    let es ← drainBack m p
    pure (m.kv i :: es)
partial_fixpoint

theorem drainBack_spec {m : Heap K V} {t : T} (h : Holds m t) : ∀ (as bs : List Nat), t.ids = as.reverse ++ bs → drainBack m as.head? = .ok (as.map m.kv) := by
  intro as
  induction as with
  | nil => intro bs _; exact (drainBack.eq_def ..).trans rfl
  | cons i as ih =>
    intro bs e
    have e' : t.ids = as.reverse ++ i :: bs := by simpa using e
    have := ih (i :: bs) e'
    refine (drainBack.eq_def ..).trans ?_
    simp [prev_spec h e', this]

/-- C94 for ascending histories: the node of every stored key is found from any other by stepping: behind the node of an entry `e` of the map
`A ++ e :: B`, `Next` enumerates `B` and `Prev` enumerates `A` backwards. -/
theorem neighbours_partial {cmp : Compare K} (hc : cmp.ThreeWay) (z : K × V) (ops : List (Op K V)) (ha : Ascending cmp [] ops)
    {A B : List (K × V)} {e : K × V} (hL : specRun cmp [] ops = A ++ e :: B) :
    ∃ s i, run cmp (new z, []) ops = .ok s ∧ search cmp s.1.heap e.1 = .ok (some i) ∧ entryAt s.1.heap (some i) = .ok e ∧
      drain s.1.heap (some i) = .ok (e :: B) ∧ drainBack s.1.heap (some i) = .ok (e :: A.reverse) := by
  obtain ⟨s, er, tr, U, h⟩ := Sim.run hc ops (g := False) (s := (new z, [])) (Sim.new z cmp _) ha (by simp)
  have hent := h.ents
  change specRun cmp [] ops = _ at hL
  rw [hL, entries] at hent
  obtain ⟨as, bs, hab, hA, hB⟩ := List.map_eq_append_iff.1 hent
  cases bs with
  | nil => cases hB
  | cons i bs =>
    rw [List.map_cons, List.cons.injEq] at hB
    obtain ⟨he, hB⟩ := hB
    refine ⟨s, i, er, ?_, ?_, ?_, ?_⟩
    · rcases searchFrom_spec hc e.1 tr none h.ok.holds.rep h.asc with ⟨j, hj, ej, e0⟩ | ⟨-, hno⟩
      · rw [search, h.ok.holds.root, ej]
        rcases eq_or_ne j i with rfl | hji
        · rfl
        exfalso
        have hasc := h.asc
        rw [Asc, hab] at hasc
        rw [hab] at hj
        rw [← he] at e0
        simp only [List.pairwise_append, List.pairwise_cons, List.mem_cons] at hasc
        simp only [List.mem_append, List.mem_cons] at hj
        rcases hj with hj | hj | hj
        · have := hasc.2.2 j hj i (.inl rfl); have := hc.flip (s.1.heap.kv j).1 (s.1.heap.kv i).1; omega
        · exact hji hj
        · have := hasc.2.1.1 j hj; omega
      · exact absurd (by rw [he]; exact hc.self _) (hno i (by rw [hab]; simp))
    · rw [entryAt, kvOf_some, he]
    · have := drain_spec h.ok.holds (i :: bs) as hab
      rw [List.map_cons, he, hB] at this; exact this
    · have := drainBack_spec h.ok.holds (i :: as.reverse) bs (by simp [hab])
      rw [List.map_cons, he, List.map_reverse, hA] at this; exact this

/-! ### C95: String -/

/-- How a map should be printed. -/
def specString (fmt : K × V → String) (L : List (K × V)) : String := "[" ++ " ".intercalate (L.map fmt) ++ "]"

theorem intercalate_cons (s a b : String) (l : List String) : s.intercalate (a :: b :: l) = a ++ s ++ s.intercalate (b :: l) := by
  simp only [String.intercalate_cons_cons]

theorem stringLoop_spec (fmt : K × V → String) {m : Heap K V} {t : T} (h : Holds m t) : ∀ (bs as : List Nat) (buf : String), t.ids = as ++ bs →
    stringLoop fmt m buf bs.head? = .ok (buf ++ " ".intercalate (bs.map (fun i => fmt (m.kv i)))) := by
  intro bs
  induction bs with
  | nil => intro as buf _; rw [stringLoop]; simp [isValid]
  | cons i bs ih =>
    intro as buf e
    rw [stringLoop]
    simp only [List.head?_cons, isValid, Option.isSome_some, if_true, kvOf_some, Res.bind_ok, next_spec h e]
    rw [ih (as ++ [i]) _ (by simp [e])]
    cases bs with
    | nil => simp
    | cons b bs => simp [String.append_assoc]

/-- C95 is false: on a new tree, or after `Clear`, `String` never returns. -/
theorem string_refuted (fmt : K × V → String) (z : K × V) (t : Tree K V) : toString fmt (new z) = .hang ∧ toString fmt (clear t) = .hang := by
  have key : ∀ t : Tree K V, t.heap.left 0 = some 0 → t.heap.right 0 = some 0 → toString fmt t = .hang := by
    intro t hl hr
    have h1 : next t.heap (some 0) = .hang := by rw [next]; simp [Heap.rightOf, hr, minChild_self hl]
    rw [toString, hl, stringLoop]; simp [isValid, h1]
  exact ⟨key _ rfl rfl, key _ rfl rfl⟩

/-- C95 for ascending histories that keep the first node, on maps that are not empty: the entries in key order, separated by blanks. -/
theorem string_partial {cmp : Compare K} (hc : cmp.ThreeWay) (z : K × V) (fmt : K × V → String) (ops : List (Op K V)) (ha : Ascending cmp [] ops)
    (hk : KeepsFirst cmp z.1 [] ops) (hne : specRun cmp [] ops ≠ []) :
    ∃ s, run cmp (new z, []) ops = .ok s ∧ toString fmt s.1 = .ok (specString fmt (specRun cmp [] ops)) := by
  obtain ⟨s, e, tr, U, h⟩ := Sim.run hc ops (g := True) (s := (new z, [])) (Sim.new z cmp _) ha (fun _ => hk)
  have hids : tr.ids ≠ [] := by rintro hh; apply hne; rw [← h.ents, entries, hh]; rfl
  refine ⟨s, e, ?_⟩
  rw [toString, h.first trivial hids, stringLoop_spec fmt h.ok.holds tr.ids [] _ rfl]
  rw [specString, ← h.ents, entries, List.map_map]; rfl

/-- C95 when `Delete` has taken the last entry. -/
theorem string_emptied (fmt : K × V → String) (cmp : Compare K) (t t' : Tree K V) (k : K) (n : Nat) (e : delete cmp t k = .ok (some n, t')) (hs : t'.size = 0) :
    toString fmt t' = .ok "[]" := by
  rw [delete] at e
  cases hq : search cmp t.heap k with
  | panic _ => rw [hq] at e; cases e
  | hang => rw [hq] at e; cases e
  | ok r =>
    rw [hq] at e
    cases r with
    | none => cases e
    | some i =>
      simp only [Res.bind_ok, removeNode] at e
      cases hr : remove cmp t.heap (some i) with
      | panic _ => rw [hr] at e; cases e
      | hang => rw [hr] at e; cases e
      | ok rm =>
        rw [hr] at e
        simp only [Res.bind_ok] at e
        split at e
        · simp only [Res.pure_eq, Res.ok.injEq, Prod.mk.injEq] at e
          obtain ⟨-, rfl⟩ := e
          rw [toString, stringLoop]; rfl
        · simp only [Res.pure_eq, Res.ok.injEq, Prod.mk.injEq] at e
          obtain ⟨-, rfl⟩ := e
          contradiction

/-! ### C96: SetValue -/

theorem searchFrom_congr {cmp : Compare K} {m m' : Heap K V} (hl : m'.left = m.left) (hr : m'.right = m.right) (hk : ∀ i, (m'.kv i).1 = (m.kv i).1) (k : K) :
    ∀ (t : T) (p : Option Nat), Rep m p t → searchFrom cmp m' k t.root = searchFrom cmp m k t.root := by
  intro t
  induction t with
  | nil => intro p _; rw [T.root_nil, searchFrom, searchFrom]
  | node l i r ihl ihr =>
    intro p h
    obtain ⟨h1, h2, h3, h4, h5⟩ := h
    rw [T.root_node, searchFrom, searchFrom]
    simp only [hk, hl, hr, h2, h3, ihl _ h4, ihr _ h5]

/-- C96, for every history of every operation and every comparator: `SetValue` on a node `i` of the tree (or writing through the pointer to its
entry that an iterator delivered) returns; walking over the nodes then meets the same nodes in the same order, with the same entries except
that the value at `i` is `v`; every lookup that reached `i` answers `v` and every other one what it answered before; and if a lookup of `k` reaches
`i`, the tree is the one `Put(k, v)` leaves. -/
theorem setValue_exact (cmp : Compare K) (z : K × V) (ops : List (Op K V)) {s : Tree K V × List Nat} (e : run cmp (new z, []) ops = .ok s)
    {i : Nat} (hi : Below s.1.heap (s.1.heap.parent 0) i) (v : V) :
    ∃ m', setValue s.1.heap (some i) v = .ok m' ∧
      (∀ L, Navigable s.1.heap (s.1.heap.parent 0) L → Navigable m' (m'.parent 0) L) ∧
      (∀ j, entryAt m' (some j) = .ok (if j = i then ((s.1.heap.kv i).1, v) else s.1.heap.kv j)) ∧
      (∀ k, has cmp { s.1 with heap := m' } k = has cmp s.1 k) ∧
      (∀ k, get cmp { s.1 with heap := m' } k = if search cmp s.1.heap k = .ok (some i) then .ok (some v) else get cmp s.1 k) ∧
      ∀ k, search cmp s.1.heap k = .ok (some i) → put cmp s.1 k v = .ok (false, { s.1 with heap := m' }) := by
  obtain ⟨tr, U, ok, -, -⟩ := run_inv cmp ops (inv_new z) e
  have hroot := ok.holds.root
  have hsearch : ∀ k, search cmp (rekv s.1.heap i ((s.1.heap.kv i).1, v)) k = search cmp s.1.heap k := by
    intro k
    rw [search, search, show (rekv s.1.heap i ((s.1.heap.kv i).1, v)).parent 0 = tr.root from hroot, hroot]
    refine searchFrom_congr (m := s.1.heap) (m' := rekv s.1.heap i ((s.1.heap.kv i).1, v)) rfl rfl ?_ k tr none ok.holds.rep
    intro j; simp only [rekv]; split
    · next h => rw [h]
    · rfl
  have hit : i ∈ tr.ids := by rw [hroot] at hi; exact (below_iff ok.holds.rep i).1 hi
  refine ⟨rekv s.1.heap i ((s.1.heap.kv i).1, v), rfl, ?_, ?_, ?_, ?_, ?_⟩
  · intro L hL
    rw [hL.unique ok.holds.navigable]
    exact (ok.rekv (ok.holds.pos i hit) ((s.1.heap.kv i).1, v)).holds.navigable
  · intro j; simp only [entryAt, kvOf_some, rekv]
  · intro k; rw [has, has]; simp only [hsearch]
  · intro k
    rw [get, get]
    simp only [hsearch]
    rcases search_any ok cmp k with ⟨j, hj, ej⟩ | ej
    · rw [ej]
      simp only [Res.bind_ok, Res.pure_eq, Res.ok.injEq, Option.some.injEq, rekv]
      by_cases hji : j = i <;> simp [hji]
    · rw [ej]; simp
  · intro k hk
    rw [search, hroot] at hk
    have hd := descend_of_search tr none none ok.holds.rep hk
    rw [put, putInner, hroot, hd]; rfl

/-- C96 for nodes a caller got from `Delete`: writing to them changes no lookup and no entry of the tree. -/
theorem setValue_deleted (cmp : Compare K) (z : K × V) (ops : List (Op K V)) {s : Tree K V × List Nat} (e : run cmp (new z, []) ops = .ok s)
    {i : Nat} (hi : i ∈ s.2) (k' : K) (v : V) :
    ∃ m1 m', setKey s.1.heap (some i) k' = .ok m1 ∧ setValue m1 (some i) v = .ok m' ∧ entryAt m' (some i) = .ok (k', v) ∧
      (∀ j, Below s.1.heap (s.1.heap.parent 0) j → entryAt m' (some j) = entryAt s.1.heap (some j)) ∧
      (∀ k, has cmp { s.1 with heap := m' } k = has cmp s.1 k) ∧ ∀ k, get cmp { s.1 with heap := m' } k = get cmp s.1 k := by
  obtain ⟨tr, U, ok, -, ho⟩ := run_inv cmp ops (inv_new z) e
  have hroot := ok.holds.root
  have hit := (ho i hi).2
  have hs : ∀ k, ∀ (t : T) (p : Option Nat), Rep s.1.heap p t → i ∉ t.ids →
      searchFrom cmp (rekv (rekv s.1.heap i (k', (s.1.heap.kv i).2)) i (k', v)) k t.root = searchFrom cmp s.1.heap k t.root := by
    intro k t
    induction t with
    | nil => intro p _ _; rw [T.root_nil, searchFrom, searchFrom]
    | node l x r ihl ihr =>
      intro p h hx
      obtain ⟨h1, h2, h3, h4, h5⟩ := h
      simp only [T.ids, List.mem_append, List.mem_cons, not_or] at hx
      rw [T.root_node, searchFrom, searchFrom]
      have hxi : x ≠ i := fun h => hx.2.1 h.symm
      have e1 : (rekv (rekv s.1.heap i (k', (s.1.heap.kv i).2)) i (k', v)).kv x = s.1.heap.kv x := by simp [rekv, hxi]
      have e2 : (rekv (rekv s.1.heap i (k', (s.1.heap.kv i).2)) i (k', v)).left x = s.1.heap.left x := rfl
      have e3 : (rekv (rekv s.1.heap i (k', (s.1.heap.kv i).2)) i (k', v)).right x = s.1.heap.right x := rfl
      simp only [e1, e2, e3, h2, h3, ihl _ h4 hx.1, ihr _ h5 hx.2.2]
  have hsearch : ∀ k, search cmp (rekv (rekv s.1.heap i (k', (s.1.heap.kv i).2)) i (k', v)) k = search cmp s.1.heap k := by
    intro k
    rw [search, search, show (rekv (rekv s.1.heap i (k', (s.1.heap.kv i).2)) i (k', v)).parent 0 = tr.root from hroot, hroot]
    exact hs k tr none ok.holds.rep hit
  refine ⟨rekv s.1.heap i (k', (s.1.heap.kv i).2), rekv (rekv s.1.heap i (k', (s.1.heap.kv i).2)) i (k', v), rfl, ?_, by simp [entryAt, rekv], ?_, ?_, ?_⟩
  · simp [setValue, Heap.setKv, rekv]
  · intro j hj
    rw [hroot] at hj
    have hj := (below_iff ok.holds.rep j).1 hj
    have hji : j ≠ i := by rintro rfl; exact hit hj
    simp [entryAt, rekv, hji]
  · intro k; rw [has, has]; simp only [hsearch]
  · intro k
    rw [get, get]
    simp only [hsearch]
    rcases search_any ok cmp k with ⟨j, hj, ej⟩ | ej
    · have hji : j ≠ i := by rintro rfl; exact hit hj
      rw [ej]; simp [rekv, hji]
    · rw [ej]; rfl

/-- Every node a lookup finds is a node of the tree, in every history. -/
theorem found_below (cmp : Compare K) (z : K × V) (ops : List (Op K V)) {s : Tree K V × List Nat} (e : run cmp (new z, []) ops = .ok s)
    {k : K} {i : Nat} (h : search cmp s.1.heap k = .ok (some i)) : Below s.1.heap (s.1.heap.parent 0) i := by
  obtain ⟨tr, U, ok, -, -⟩ := run_inv cmp ops (inv_new z) e
  rcases search_any ok cmp k with ⟨j, hj, ej⟩ | ej
  · rw [ej] at h; cases h
    rw [ok.holds.root]; exact (below_iff ok.holds.rep i).2 hj
  · rw [ej] at h; cases h

/-- C96 for ascending histories: `SetValue` on any node of the tree is `Put` of its key. -/
theorem setValue_put_partial {cmp : Compare K} (hc : cmp.ThreeWay) (z : K × V) (ops : List (Op K V)) (ha : Ascending cmp [] ops) (v : V) :
    ∃ s, run cmp (new z, []) ops = .ok s ∧ ∀ i, Below s.1.heap (s.1.heap.parent 0) i → ∃ m', setValue s.1.heap (some i) v = .ok m' ∧
      put cmp s.1 (s.1.heap.kv i).1 v = .ok (false, { s.1 with heap := m' }) := by
  obtain ⟨s, er, tr, U, h⟩ := Sim.run hc ops (g := False) (s := (new z, [])) (Sim.new z cmp _) ha (by simp)
  refine ⟨s, er, fun i hi => ?_⟩
  have hit : i ∈ tr.ids := by rw [h.ok.holds.root] at hi; exact (below_iff h.ok.holds.rep i).1 hi
  obtain ⟨m', h1, -, -, -, -, h2⟩ := setValue_exact cmp z ops er hi v
  refine ⟨m', h1, h2 _ ?_⟩
  obtain ⟨as, bs, hab⟩ := List.append_of_mem hit
  rcases searchFrom_spec hc (s.1.heap.kv i).1 tr none h.ok.holds.rep h.asc with ⟨j, hj, ej, e0⟩ | ⟨-, hno⟩
  · rw [search, h.ok.holds.root, ej]
    rcases eq_or_ne j i with rfl | hji
    · rfl
    exfalso
    have hasc := h.asc
    rw [Asc, hab] at hasc
    rw [hab] at hj
    simp only [List.pairwise_append, List.pairwise_cons, List.mem_cons] at hasc
    simp only [List.mem_append, List.mem_cons] at hj
    rcases hj with hj | hj | hj
    · have := hasc.2.2 j hj i (.inl rfl); have := hc.flip (s.1.heap.kv j).1 (s.1.heap.kv i).1; omega
    · exact hji hj
    · have := hasc.2.1.1 j hj; omega
  · exact absurd (hc.self _) (hno i hit)

/-! ### Examples -/

example : ∃ s i, run Fn.comp (new (0, 0), []) ascOps = .ok s ∧ search Fn.comp s.1.heap 9 = .ok (some i) ∧
    drain s.1.heap (some i) = .ok [(9, 90), (12, 120)] ∧ drainBack s.1.heap (some i) = .ok [(9, 90), (3, 30), (1, 10)] := by
  obtain ⟨s, i, h1, h2, -, h4, h5⟩ := neighbours_partial Fn.comp_strict.toThreeWay (0, 0) ascOps ascOps_asc (A := [(1, 10), (3, 30)]) (e := (9, 90)) (B := [(12, 120)]) ascOps_spec
  exact ⟨s, i, h1, h2, h4, h5⟩

example : ∃ s, run Fn.comp (new (0, 0), []) ascOps = .ok s ∧ toString (fun e => s!"{e.1}:{e.2}") s.1 = .ok "[1:10 3:30 9:90 12:120]" := by
  obtain ⟨s, h1, h2⟩ := string_partial Fn.comp_strict.toThreeWay (0, 0) (fun e => s!"{e.1}:{e.2}") ascOps ascOps_asc ascOps_keeps (by rw [ascOps_spec]; simp)
  exact ⟨s, h1, by rw [h2, ascOps_spec]; decide +kernel⟩

example : ∃ s i m', run Fn.comp (new (0, 0), []) ascOps = .ok s ∧ search Fn.comp s.1.heap 9 = .ok (some i) ∧
    setValue s.1.heap (some i) 7 = .ok m' ∧ get Fn.comp { s.1 with heap := m' } 9 = .ok (some 7) := by
  obtain ⟨s, i, e, hi, -⟩ := neighbours_partial Fn.comp_strict.toThreeWay (0, 0) ascOps ascOps_asc (A := [(1, 10), (3, 30)]) (e := (9, 90)) (B := [(12, 120)]) ascOps_spec
  obtain ⟨m', h1, -, -, -, h2, -⟩ := setValue_exact Fn.comp (0, 0) _ e (found_below Fn.comp (0, 0) _ e hi) 7
  exact ⟨s, i, m', e, hi, h1, by rw [h2, if_pos hi]⟩

end Gds.RBTree
