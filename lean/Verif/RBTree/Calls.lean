import Verif.RBTree.Effect
import Verif.Go.EComp

/-! Property C124: the red-black tree under any comparator at all — one without laws, with state of its own, answering at random — and how
often it calls the comparator. -/
namespace Gds.RBTree
variable {K V E : Type}

/-! ### The code with a comparator that has state -/

/-- redblacktree.go:359-374, the descent of `put`, with the calls of the comparator in the order of the code. -/
def descendE (cmp : EComp K E) (e : E) (m : Heap K V) (key : K) (tmp parent : Option Nat) : Res (Hit × E) := do
  match tmp with
  | none => pure (.missing parent, e)
  | some i =>
    let r := cmp key (m.kv i).1 e
    if r.1 = -1 then descendE cmp r.2 m key (m.left i) tmp
    else if r.1 = 1 then descendE cmp r.2 m key (m.right i) tmp
    else pure (.found i, r.2)
partial_fixpoint

/-- redblacktree.go:352-406 `put` -/
def putInnerE (cmp : EComp K E) (e : E) (t : Tree K V) (key : K) (val : V) : Res (Bool × Tree K V × E) := do
  let h ← descendE cmp e t.heap key (t.heap.parent 0) none
  match h.1 with
  | .found i => pure (false, { t with heap := { t.heap with kv := fun j => if j = i then ((t.heap.kv i).1, val) else t.heap.kv j } }, h.2)
  | .missing p =>
    let (n, t) ← allocNode t key val
    let m ← link t.heap n p
    pure (true, { t with heap := m }, h.2)

/-- redblacktree.go:287-293 `Put` -/
def putE (cmp : EComp K E) (e : E) (t : Tree K V) (key : K) (val : V) : Res (Bool × Tree K V × E) := do
  let (r, t, e) ← putInnerE cmp e t key val
  if r then pure (true, { t with size := t.size + 1 }, e) else pure (false, t, e)

/-- redblacktree.go:456-469 `search`, from a node -/
def searchFromE (cmp : EComp K E) (e : E) (m : Heap K V) (key : K) (node : Option Nat) : Res (Option Nat × E) := do
  match node with
  | none => pure (none, e)
  | some i =>
    let r := cmp key (m.kv i).1 e
    if r.1 = -1 then searchFromE cmp r.2 m key (m.left i)
    else if r.1 = 1 then searchFromE cmp r.2 m key (m.right i)
    else pure (some i, r.2)
partial_fixpoint

/-- redblacktree.go:220-233 `Has` and `Get` -/
def getE (cmp : EComp K E) (e : E) (t : Tree K V) (key : K) : Res (Option V × E) := do
  let n ← searchFromE cmp e t.heap key (t.heap.parent 0)
  match n.1 with
  | none => pure (none, n.2)
  | some i => pure (some (t.heap.kv i).2, n.2)

/-- redblacktree.go:473-477: the header's end pointers in `remove`. -/
def removeEndsE (cmp : EComp K E) (e : E) (m : Heap K V) (node : Option Nat) : Res (Heap K V × E) := do
  let kv ← m.kvOf node
  let r := cmp kv.1 (m.kv 0).1 e
  if r.1 > -1 then
    let p ← prev m node
    let m ← m.setRight (some 0) p
    pure (m, r.2)
  else
    let hl ← m.kvOf (m.left 0)
    let r := cmp hl.1 kv.1 r.2
    if r.1 > -1 then
      let n ← next m node
      let m ← m.setLeft (some 0) n
      pure (m, r.2)
    else pure (m, r.2)

/-- redblacktree.go:261-269 (after `search`) with redblacktree.go:471-521 `remove` -/
def removeNodeE (cmp : EComp K E) (e : E) (t : Tree K V) (node : Nat) : Res (Option Nat × Tree K V × E) := do
  let (m, e) ← removeEndsE cmp e t.heap (some node)
  let (r, m) ← unlink m (some node)
  let t : Tree K V := { t with heap := m, size := t.size - 1 }
  if t.size = 0 then
    pure (r, { t with heap := { t.heap with
      right := fun j => if j = 0 then none else t.heap.right j
      left := fun j => if j = 0 then none else t.heap.left j } }, e)
  else pure (r, t, e)

/-- redblacktree.go:256-270 `Delete`; the entry of the returned node instead of the node -/
def deleteE (cmp : EComp K E) (e : E) (t : Tree K V) (key : K) : Res (Option (K × V) × Tree K V × E) := do
  let n ← searchFromE cmp e t.heap key (t.heap.parent 0)
  match n.1 with
  | none => pure (none, t, n.2)
  | some i =>
    let (r, t, e) ← removeNodeE cmp n.2 t i
    match r with
    | none => pure (none, t, e)
    | some j => pure (some (t.heap.kv j), t, e)

/-- The calls of a history. -/
inductive ECall (K V : Type) where
  | put (k : K) (v : V)
  | get (k : K)
  | delete (k : K)

/-- Their answers. -/
inductive EAns (K V : Type) where
  | put (isNew : Bool)
  | get (v : Option V)
  | delete (r : Option (K × V))

/-- One call (redblacktree.go:220-293). -/
def stepE (cmp : EComp K E) (e : E) (t : Tree K V) : ECall K V → Res (EAns K V × Tree K V × E)
  | .put k v => do let (b, t, e) ← putE cmp e t k v; pure (.put b, t, e)
  | .get k => do let (v, e) ← getE cmp e t k; pure (.get v, t, e)
  | .delete k => do let (r, t, e) ← deleteE cmp e t k; pure (.delete r, t, e)

/-- A history (redblacktree.go:220-293). -/
def runE (cmp : EComp K E) (e : E) (t : Tree K V) : List (ECall K V) → Res (List (EAns K V) × Tree K V × E)
  | [] => pure ([], t, e)
  | c :: cs => do
    let (a, t, e) ← stepE cmp e t c
    let (as, t, e) ← runE cmp e t cs
    pure (a :: as, t, e)

/-! ### Specification -/

/-- What a call may do to the entries, in the order of the nodes, and answer, when nothing is known of the comparator. A new entry
appears somewhere, and at most one other entry is lost to it; or one entry gets the new value; a lookup answers with nothing or with the value of an entry; a
deletion takes nothing or one entry. -/
inductive AnyStep : List (K × V) → ECall K V → EAns K V → List (K × V) → Prop where
  | added (k v) (as lost bs : List (K × V)) : lost.length ≤ 1 → AnyStep (as ++ lost ++ bs) (.put k v) (.put true) (as ++ (k, v) :: bs)
  | replaced (k v) (as bs : List (K × V)) (x : K × V) : AnyStep (as ++ x :: bs) (.put k v) (.put false) (as ++ (x.1, v) :: bs)
  | absent (k) (es : List (K × V)) : AnyStep es (.get k) (.get none) es
  | present (k) (es : List (K × V)) (x : K × V) : x ∈ es → AnyStep es (.get k) (.get (some x.2)) es
  | nothing (k) (es : List (K × V)) : AnyStep es (.delete k) (.delete none) es
  | removed (k) (as bs : List (K × V)) (x y : K × V) : y = x ∨ bs.head? = some y →
      AnyStep (as ++ x :: bs) (.delete k) (.delete (some y)) (as ++ bs)

/-- A history of such steps. -/
inductive AnyRun : List (K × V) → List (ECall K V) → List (EAns K V) → List (K × V) → Prop where
  | nil {es} : AnyRun es [] [] es
  | cons {es c a es' cs as es''} : AnyStep es c a es' → AnyRun es' cs as es'' → AnyRun es (c :: cs) (a :: as) es''

/-- The comparator calls beyond the search: two in `remove`. -/
def extra : ECall K V → Nat
  | .delete _ => 2
  | _ => 0

/-! ### Without state it is the model of C57 -/

theorem descendE_pure (cmp : Compare K) (g : K → K → E → E) {m : Heap K V} (key : K) : ∀ (t : T) (p q : Option Nat) (e : E), Rep m p t →
    (do let r ← descendE (fun a b e => (cmp a b, g a b e)) e m key t.root q; pure r.1) = descend cmp m key t.root q := by
  intro t
  induction t with
  | nil => intro p q e _; rw [T.root_nil, descendE, descend]; rfl
  | node l i r ihl ihr =>
    intro p q e h
    obtain ⟨h1, h2, h3, h4, h5⟩ := h
    rw [T.root_node, descendE, descend]
    by_cases k1 : cmp key (m.kv i).1 = -1
    · simp only [k1, if_true, h2]; exact ihl _ _ _ h4
    · by_cases k2 : cmp key (m.kv i).1 = 1
      · simp only [k2, if_true, h3]; exact ihr _ _ _ h5
      · simp [k1, k2]

theorem searchFromE_pure (cmp : Compare K) (g : K → K → E → E) {m : Heap K V} (key : K) : ∀ (t : T) (p : Option Nat) (e : E), Rep m p t →
    (do let r ← searchFromE (fun a b e => (cmp a b, g a b e)) e m key t.root; pure r.1) = searchFrom cmp m key t.root := by
  intro t
  induction t with
  | nil => intro p e _; rw [T.root_nil, searchFromE, searchFrom]; rfl
  | node l i r ihl ihr =>
    intro p e h
    obtain ⟨h1, h2, h3, h4, h5⟩ := h
    rw [T.root_node, searchFromE, searchFrom]
    by_cases k1 : cmp key (m.kv i).1 = -1
    · simp only [k1, if_true, h2]; exact ihl _ _ h4
    · by_cases k2 : cmp key (m.kv i).1 = 1
      · simp only [k2, if_true, h3]; exact ihr _ _ h5
      · simp [k1, k2]

theorem removeEndsE_pure (cmp : Compare K) (g : K → K → E → E) (m : Heap K V) (e : E) (n : Option Nat) :
    (do let r ← removeEndsE (fun a b e => (cmp a b, g a b e)) e m n; pure r.1) = removeEnds cmp m n := by
  unfold removeEndsE removeEnds
  cases m.kvOf n with
  | panic => rfl
  | hang => rfl
  | ok kv =>
    simp only [Res.bind_ok]
    by_cases h1 : cmp kv.1 (m.kv 0).1 > -1
    · simp only [h1, if_true]
      cases prev m n with
      | panic => rfl
      | hang => rfl
      | ok p => rfl
    · simp only [h1, if_false]
      cases m.kvOf (m.left 0) with
      | panic => rfl
      | hang => rfl
      | ok hl =>
        simp only [Res.bind_ok]
        by_cases h2 : cmp hl.1 kv.1 > -1
        · simp only [h2, if_true]
          cases next m n with
          | panic => rfl
          | hang => rfl
          | ok p => rfl
        · simp only [h2, if_false]; rfl

theorem removeNodeE_pure (cmp : Compare K) (g : K → K → E → E) (t : Tree K V) (e : E) (i : Nat) :
    (do let r ← removeNodeE (fun a b e => (cmp a b, g a b e)) e t i; pure (r.1, r.2.1)) = removeNode cmp t i := by
  simp only [removeNodeE, removeNode, remove, ← removeEndsE_pure cmp g t.heap e (some i)]
  cases removeEndsE (fun a b e => (cmp a b, g a b e)) e t.heap (some i) with
  | panic => rfl
  | hang => rfl
  | ok x =>
    simp only [Res.bind_ok, Res.pure_eq]
    cases unlink x.1 (some i) with
    | panic => rfl
    | hang => rfl
    | ok y =>
      simp only [Res.bind_ok]
      by_cases hz : t.size - 1 = 0
      · simp only [hz, if_true, Res.bind_ok]
      · simp only [hz, if_false, Res.bind_ok]

/-- C124: for a comparator whose answers depend on its arguments alone — whatever else it does — `Put`, `Get` and `Delete` in any state a history
reaches are those of the model of C57. -/
theorem callsE_pure (cmp : Compare K) (g : K → K → E → E) {z : K × V} {t : Tree K V} {tr : T} {U : List Nat} (h : OK z t tr U) (e : E) (k : K) (v : V) :
    (do let r ← putE (fun a b e => (cmp a b, g a b e)) e t k v; pure (r.1, r.2.1)) = put cmp t k v ∧
    (do let r ← getE (fun a b e => (cmp a b, g a b e)) e t k; pure r.1) = get cmp t k ∧
    (do let r ← deleteE (fun a b e => (cmp a b, g a b e)) e t k; pure r.2.1) = (do let r ← delete cmp t k; pure r.2) := by
  have hd := fun q => descendE_pure cmp g k tr none q e h.holds.rep
  have hs := searchFromE_pure cmp g k tr none e h.holds.rep
  rw [← h.holds.root] at hd hs
  refine ⟨?_, ?_, ?_⟩
  · simp only [putE, put, putInnerE, putInner, ← hd]
    cases descendE (fun a b e => (cmp a b, g a b e)) e t.heap k (t.heap.parent 0) none with
    | panic => rfl
    | hang => rfl
    | ok r =>
      obtain ⟨hit, e'⟩ := r
      simp only [Res.bind_ok, Res.pure_eq]
      cases hit with
      | found i => rfl
      | missing p =>
        simp only
        cases allocNode t k v with
        | panic => rfl
        | hang => rfl
        | ok q =>
          obtain ⟨n, t1⟩ := q
          simp only [Res.bind_ok]
          cases link t1.heap n p <;> rfl
  · simp only [getE, get, search, ← hs]
    cases searchFromE (fun a b e => (cmp a b, g a b e)) e t.heap k (t.heap.parent 0) with
    | panic => rfl
    | hang => rfl
    | ok r => obtain ⟨n, e'⟩ := r; cases n <;> rfl
  · simp only [deleteE, delete, search, ← hs]
    cases searchFromE (fun a b e => (cmp a b, g a b e)) e t.heap k (t.heap.parent 0) with
    | panic => rfl
    | hang => rfl
    | ok r =>
      obtain ⟨n, e'⟩ := r
      cases n with
      | none => rfl
      | some i =>
        simp only [Res.bind_ok, Res.pure_eq, ← removeNodeE_pure cmp g t e' i]
        cases removeNodeE (fun a b e => (cmp a b, g a b e)) e' t i with
        | panic => rfl
        | hang => rfl
        | ok x => obtain ⟨r, t', e''⟩ := x; cases r <;> rfl

/-! ### Any comparator -/

theorem descendE_any (cmp : EComp K E) {m : Heap K V} (key : K) : ∀ (t : T) (c : Ctx) (n : Nat) (e : E), Holds m (c.plug t) →
    ∃ n' e', n' ≤ n + t.height ∧
    ((∃ i ∈ t.ids, descendE (counted cmp) (n, e) m key t.root c.par = .ok (.found i, n', e')) ∨
    (t = .nil ∧ descendE (counted cmp) (n, e) m key t.root c.par = .ok (.missing c.par, n', e')) ∨
    ∃ (c' : Ctx) (l r : T) (i : Nat), c.plug t = c'.plug (.node l i r) ∧ (l = .nil ∨ r = .nil) ∧
      descendE (counted cmp) (n, e) m key t.root c.par = .ok (.missing (some i), n', e')) := by
  intro t
  induction t with
  | nil => intro c n e h; refine ⟨n, e, by simp [T.height], .inr (.inl ⟨rfl, ?_⟩)⟩; rw [T.root_nil, descendE]; rfl
  | node l i r ihl ihr =>
    intro c n e h
    obtain ⟨hc, h1, h2, h3, h4, h5⟩ := h.split
    rw [T.root_node, descendE]
    simp only [counted, T.height]
    by_cases k1 : (cmp key (m.kv i).1 e).1 = -1
    · obtain ⟨n', e', hn, hh⟩ := ihl (.left i r c) (n + 1) (cmp key (m.kv i).1 e).2 h
      refine ⟨n', e', by omega, ?_⟩
      simp only [k1, if_true, h2]
      rcases hh with ⟨j, hj, e⟩ | ⟨rfl, e⟩ | ⟨c', l', r', j, hp, hlr, e⟩
      · exact .inl ⟨j, by simp [T.ids, hj], e⟩
      · exact .inr (.inr ⟨c, .nil, r, i, rfl, .inl rfl, e⟩)
      · exact .inr (.inr ⟨c', l', r', j, hp, hlr, e⟩)
    · by_cases k2 : (cmp key (m.kv i).1 e).1 = 1
      · obtain ⟨n', e', hn, hh⟩ := ihr (.right l i c) (n + 1) (cmp key (m.kv i).1 e).2 h
        refine ⟨n', e', by omega, ?_⟩
        simp only [k2, if_true, h3]
        rcases hh with ⟨j, hj, e⟩ | ⟨rfl, e⟩ | ⟨c', l', r', j, hp, hlr, e⟩
        · exact .inl ⟨j, by simp [T.ids, hj], e⟩
        · exact .inr (.inr ⟨c, l, .nil, i, rfl, .inr rfl, e⟩)
        · exact .inr (.inr ⟨c', l', r', j, hp, hlr, e⟩)
      · exact ⟨n + 1, (cmp key (m.kv i).1 e).2, by omega, .inl ⟨i, by simp [T.ids], by simp [k1, k2]⟩⟩

theorem searchFromE_any (cmp : EComp K E) {m : Heap K V} (key : K) : ∀ (t : T) (p : Option Nat) (n : Nat) (e : E), Rep m p t →
    ∃ n' e', n' ≤ n + t.height ∧
    ((∃ i ∈ t.ids, searchFromE (counted cmp) (n, e) m key t.root = .ok (some i, n', e')) ∨
      searchFromE (counted cmp) (n, e) m key t.root = .ok (none, n', e')) := by
  intro t
  induction t with
  | nil => intro p n e h; refine ⟨n, e, by simp [T.height], .inr ?_⟩; rw [T.root_nil, searchFromE]; rfl
  | node l i r ihl ihr =>
    intro p n e h
    obtain ⟨h1, h2, h3, h4, h5⟩ := h
    rw [T.root_node, searchFromE]
    simp only [counted, T.height]
    by_cases k1 : (cmp key (m.kv i).1 e).1 = -1
    · obtain ⟨n', e', hn, hh⟩ := ihl _ (n + 1) (cmp key (m.kv i).1 e).2 h4
      refine ⟨n', e', by omega, ?_⟩
      simp only [k1, if_true, h2]
      rcases hh with ⟨j, hj, e⟩ | e
      · exact .inl ⟨j, by simp [T.ids, hj], e⟩
      · exact .inr e
    · by_cases k2 : (cmp key (m.kv i).1 e).1 = 1
      · obtain ⟨n', e', hn, hh⟩ := ihr _ (n + 1) (cmp key (m.kv i).1 e).2 h5
        refine ⟨n', e', by omega, ?_⟩
        simp only [k2, if_true, h3]
        rcases hh with ⟨j, hj, e⟩ | e
        · exact .inl ⟨j, by simp [T.ids, hj], e⟩
        · exact .inr e
      · exact ⟨n + 1, (cmp key (m.kv i).1 e).2, by omega, .inl ⟨i, by simp [T.ids], by simp [k1, k2]⟩⟩

/-- `remove` may change the header's end pointers, and does nothing else before it unlinks. -/
theorem removeEndsE_any (cmp : EComp K E) {m : Heap K V} {t : T} {as bs : List Nat} {i : Nat} (h : Holds m t) (e0 : t.ids = as ++ i :: bs) (n : Nat) (e : E) :
    removeEndsE (counted cmp) (n, e) m (some i) = .panic .nilDeref ∨
    ∃ m' n' e', removeEndsE (counted cmp) (n, e) m (some i) = .ok (m', n', e') ∧ n' ≤ n + 2 ∧ m'.color = m.color ∧ m'.kv = m.kv ∧ m'.parent = m.parent ∧
      ∀ j, j ≠ 0 → m'.left j = m.left j ∧ m'.right j = m.right j := by
  unfold removeEndsE
  simp only [Heap.kvOf, Res.bind_ok, counted]
  by_cases h1 : (cmp (m.kv i).1 (m.kv 0).1 e).1 > -1
  · right
    simp only [h1, if_true, prev_spec h e0, Res.bind_ok, Heap.setRight]
    exact ⟨_, _, _, rfl, by omega, rfl, rfl, rfl, fun j hj => ⟨rfl, by simp [hj]⟩⟩
  · simp only [h1, if_false]
    cases hl : m.left 0 with
    | none => left; rfl
    | some q =>
      right
      simp only [Res.bind_ok]
      by_cases h2 : (cmp (m.kv q).1 (m.kv i).1 (cmp (m.kv i).1 (m.kv 0).1 e).2).1 > -1
      · simp only [h2, if_true, next_spec h e0, Res.bind_ok, Heap.setLeft]
        exact ⟨_, _, _, rfl, by omega, rfl, rfl, rfl, fun j hj => ⟨by simp [hj], rfl⟩⟩
      · simp only [h2, if_false]
        exact ⟨_, _, _, rfl, by omega, rfl, rfl, rfl, fun j hj => ⟨rfl, rfl⟩⟩

theorem removeNodeE_any (cmp : EComp K E) {z : K × V} {t : Tree K V} {tr : T} {U as bs : List Nat} {i : Nat} (h : OK z t tr U) (e0 : tr.ids = as ++ i :: bs)
    (n : Nat) (e : E) :
    removeNodeE (counted cmp) (n, e) t i = .panic .nilDeref ∨
    ∃ rm t' tr' n' e', removeNodeE (counted cmp) (n, e) t i = .ok (some rm, t', n', e') ∧ OK z t' tr' U ∧ n' ≤ n + 2 ∧
      (∀ j, t'.heap.kv j = if j = i then t.heap.kv rm else t.heap.kv j) ∧
      ((rm = i ∧ tr'.ids = as ++ bs) ∨ (as ≠ [] ∧ ∃ bs', bs = rm :: bs' ∧ tr'.ids = as ++ i :: bs')) := by
  obtain ⟨c, l, r, ht⟩ := exists_ctx tr i (by rw [e0]; simp) .top
  simp only [Ctx.plug] at ht
  rcases removeEndsE_any cmp h.holds e0 n e with h3 | ⟨m1, n', e', e1, hn, hc, hk, hp, hlr⟩
  · left; rw [removeNodeE, h3]; rfl
  right
  have hh1 : Holds m1 tr := by
    refine ⟨by rw [hp]; exact h.holds.root, h.holds.rep.congr (fun j hj => ?_), h.holds.nodup, h.holds.pos⟩
    have := h.holds.pos j hj
    obtain ⟨a, b⟩ := hlr j (by omega)
    exact ⟨by rw [hp], a, b⟩
  obtain ⟨m2, t2, rm, e2, hh2, hrb2, hrm, hf, hkv, hids, -⟩ :=
    unlink_ctx (c := c) (l := l) (r := r) (ht ▸ hh1) (by rw [hc, ← ht]; exact h.rb) (ht ▸ e0)
  rw [← ht] at hrm hf
  have hi := h.holds.pos i (by rw [e0]; simp)
  obtain ⟨FL, hb⟩ := h.buf
  have hw : ∀ i, i ≠ 0 → i ∉ U → m2.right i = t.heap.right i := by
    intro j h0 hj
    rw [(hf.out j (fun hh => hj (h.sub j hh)) h0).2.2, (hlr j h0).2]
  have hsub : ∀ j ∈ t2.ids, j ∈ U := by
    intro j hj
    apply h.sub
    rw [e0]
    rcases hids with ⟨_, h2⟩ | ⟨_, bs', h2, h3⟩
    · rw [h2] at hj; simp at hj ⊢; tauto
    · rw [h3] at hj; simp [h2] at hj ⊢; tauto
  have hzero : m2.kv 0 = z := by rw [hkv, if_neg (by omega), hk]; exact h.zero
  have hkv' : ∀ j, m2.kv j = if j = i then t.heap.kv rm else t.heap.kv j := by intro j; rw [hkv, hk]
  by_cases hs : t.size - 1 = 0
  · refine ⟨rm, { t with size := t.size - 1, heap := { m2 with
        right := fun j => if j = 0 then none else m2.right j
        left := fun j => if j = 0 then none else m2.left j } }, t2, n', e', by rw [removeNodeE, e1]; simp [e2, hs], ⟨?_, hrb2, ⟨FL, ?_⟩, hsub, hzero⟩, hn, hkv', hids⟩
    · refine ⟨hh2.root, hh2.rep.congr (fun j hj => ⟨rfl, ?_, ?_⟩), hh2.nodup, hh2.pos⟩
      · have := hh2.pos j hj; simp only; rw [if_neg (by omega)]
      · have := hh2.pos j hj; simp only; rw [if_neg (by omega)]
    · refine hb.write (fun j h0 hj => ?_)
      simp only; rw [if_neg h0]; exact hw j h0 hj
  · exact ⟨rm, { t with size := t.size - 1, heap := m2 }, t2, n', e', by rw [removeNodeE, e1]; simp [e2, hs], ⟨hh2, hrb2, ⟨FL, hb.write hw⟩, hsub, hzero⟩, hn, hkv', hids⟩

theorem stepE_any (cmp : EComp K E) {z : K × V} {t : Tree K V} {tr : T} {U : List Nat} (h : OK z t tr U) (n : Nat) (e : E) (c : ECall K V) :
    stepE (counted cmp) (n, e) t c = .panic .nilDeref ∨
    ∃ a t' tr' U' n' e', stepE (counted cmp) (n, e) t c = .ok (a, t', n', e') ∧ OK z t' tr' U' ∧ AnyStep (entries t tr) c a (entries t' tr') ∧
      n' ≤ n + tr.height + extra c := by
  have hroot := h.holds.root
  cases c with
  | put k v =>
    right
    obtain ⟨n', e', hn, ⟨i, hi, ed⟩ | ⟨rfl, ed⟩ | ⟨c, l, r, i, hp, hlr, ed⟩⟩ := descendE_any cmp k tr .top n e h.holds
    · refine ⟨.put false, { t with heap := rekv t.heap i ((t.heap.kv i).1, v) }, tr, U, n', e', ?_, h.rekv (h.holds.pos i hi) _, ?_, by simp [extra]; omega⟩
      · simp only [stepE, putE, putInnerE, hroot]; simp only [Ctx.par] at ed; rw [ed]; rfl
      · obtain ⟨as, bs, hab⟩ := List.append_of_mem hi
        have hnd := h.holds.nodup
        rw [hab] at hnd
        have hna : i ∉ as := fun hh => by simp [List.nodup_append] at hnd; exact (hnd.2.2 i hh).1 rfl
        have hnb : i ∉ bs := fun hh => by simp [List.nodup_append] at hnd; exact hnd.2.1.1 hh
        have hkv : ∀ j, (rekv t.heap i ((t.heap.kv i).1, v)).kv j = if j = i then ((t.heap.kv i).1, v) else t.heap.kv j := fun _ => rfl
        simp only [entries, hab, List.map_append, List.map_cons]
        rw [map_other hna hkv, map_other hnb hkv, hkv i, if_pos rfl]
        exact .replaced k v _ _ (t.heap.kv i)
    · obtain ⟨x, t', e2, hx, ok', hsz, hkv, -⟩ := insertAt_empty h k v
      refine ⟨.put true, { t' with size := t'.size + 1 }, _, _, n', e', ?_, ⟨ok'.holds, ok'.rb, ok'.buf, ok'.sub, ok'.zero⟩, ?_, by simp [extra]; omega⟩
      · simp only [stepE, putE, putInnerE, hroot]; simp only [Ctx.par] at ed; rw [ed]
        simp only [insertAt] at e2
        simp only [Res.bind_ok]
        cases ha : allocNode t k v with
        | panic => rw [ha] at e2; cases e2
        | hang => rw [ha] at e2; cases e2
        | ok q =>
          rw [ha] at e2
          simp only [Res.bind_ok] at e2 ⊢
          cases hl : link q.2.heap q.1 none with
          | panic => rw [hl] at e2; cases e2
          | hang => rw [hl] at e2; cases e2
          | ok m => rw [hl] at e2; simp at e2; subst e2; simp
      · simp only [entries, T.ids, List.map_nil, List.nil_append, List.map_cons]
        show AnyStep [] _ _ [t'.heap.kv x]
        rw [hkv x, if_pos rfl]
        exact .added k v [] [] [] (by simp)
    · simp only [Ctx.plug] at hp
      subst hp
      obtain ⟨x, t', tr', e2, hx, ok', hsz, hids, hkv, -⟩ := insertAt_spec h hlr k v
      refine ⟨.put true, { t' with size := t'.size + 1 }, tr', _, n', e', ?_, ⟨ok'.holds, ok'.rb, ok'.buf, ok'.sub, ok'.zero⟩, ?_, by simp [extra]; omega⟩
      · simp only [stepE, putE, putInnerE, hroot]; simp only [Ctx.par] at ed; rw [ed]
        simp only [insertAt] at e2
        simp only [Res.bind_ok]
        cases ha : allocNode t k v with
        | panic => rw [ha] at e2; cases e2
        | hang => rw [ha] at e2; cases e2
        | ok q =>
          rw [ha] at e2
          simp only [Res.bind_ok] at e2 ⊢
          cases hl : link q.2.heap q.1 (some i) with
          | panic => rw [hl] at e2; cases e2
          | hang => rw [hl] at e2; cases e2
          | ok m => rw [hl] at e2; simp at e2; subst e2; simp
      · have hxn : x ∉ (c.plug (.node l i r)).ids := fun hi => hx (h.sub x hi)
        rw [ids_plug] at hxn
        simp only [T.ids, List.mem_append, List.mem_cons, not_or] at hxn
        have hr : r.ids.length ≤ 1 := by
          rcases hlr with rfl | rfl
          · rw [right_small h.rb]; cases r.root <;> simp
          · simp [T.ids]
        have q2 : entries { t' with size := t'.size + 1 } tr' = ((c.before ++ l.ids ++ [i]).map t.heap.kv) ++ (k, v) :: c.after.map t.heap.kv := by
          show tr'.ids.map t'.heap.kv = _
          rw [hids]
          have : c.before ++ l.ids ++ i :: x :: c.after = (c.before ++ l.ids ++ [i]) ++ x :: c.after := by simp
          rw [this, List.map_append, List.map_cons, hkv x, if_pos rfl, map_other (L := c.before ++ l.ids ++ [i]) (by simp [hxn]) hkv, map_other (L := c.after) (by simp [hxn]) hkv]
        have q1 : entries t (c.plug (.node l i r)) = ((c.before ++ l.ids ++ [i]).map t.heap.kv) ++ r.ids.map t.heap.kv ++ c.after.map t.heap.kv := by
          show (c.plug (.node l i r)).ids.map t.heap.kv = _
          rw [ids_plug]; simp [T.ids]
        rw [q1, q2]
        exact .added k v _ _ _ (by simpa using hr)
  | get k =>
    right
    obtain ⟨n', e', hn, ⟨i, hi, ed⟩ | ed⟩ := searchFromE_any cmp k tr none n e h.holds.rep
    · refine ⟨.get (some (t.heap.kv i).2), t, tr, U, n', e', ?_, h, .present k _ (t.heap.kv i) (by simp only [entries, List.mem_map]; exact ⟨i, hi, rfl⟩), by simp [extra]; omega⟩
      simp only [stepE, getE, hroot, ed]; rfl
    · refine ⟨.get none, t, tr, U, n', e', ?_, h, .absent k _, by simp [extra]; omega⟩
      simp only [stepE, getE, hroot, ed]; rfl
  | delete k =>
    obtain ⟨n1, e1, hn, ⟨i, hi, ed⟩ | ed⟩ := searchFromE_any cmp k tr none n e h.holds.rep
    · obtain ⟨as, bs, hab⟩ := List.append_of_mem hi
      have hnd := h.holds.nodup
      rw [hab] at hnd
      rcases removeNodeE_any cmp h hab n1 e1 with er | ⟨rm, t', tr', n', e', er, ok', hn', hkv, hids⟩
      · left; simp only [stepE, deleteE, hroot, ed, Res.bind_ok, er]; rfl
      · right
        refine ⟨.delete (some (t'.heap.kv rm)), t', tr', U, n', e', ?_, ok', ?_, by simp only [extra]; omega⟩
        · simp only [stepE, deleteE, hroot, ed, Res.bind_ok, er]; rfl
        · have hna : i ∉ as := fun hh => by simp [List.nodup_append] at hnd; exact (hnd.2.2 i hh).1 rfl
          have hnb : i ∉ bs := fun hh => by simp [List.nodup_append] at hnd; exact hnd.2.1.1 hh
          have q1 : entries t tr = as.map t.heap.kv ++ t.heap.kv i :: bs.map t.heap.kv := by simp [entries, hab]
          rcases hids with ⟨rfl, hid⟩ | ⟨-, bs', rfl, hid⟩
          · have q2 : entries t' tr' = as.map t.heap.kv ++ bs.map t.heap.kv := by
              rw [entries, hid, List.map_append, map_other hna hkv, map_other hnb hkv]
            rw [q1, q2]
            exact .removed k _ _ _ _ (.inl (by rw [hkv, if_pos rfl]))
          · have hnr : rm ≠ i := by rintro rfl; simp at hnb
            have q2 : entries t' tr' = as.map t.heap.kv ++ (rm :: bs').map t.heap.kv := by
              rw [entries, hid, List.map_append, List.map_cons, map_other hna hkv, map_other (L := bs') (by simp at hnb; exact hnb.2) hkv, hkv i, if_pos rfl]
              simp
            rw [q1, q2]
            exact .removed k _ _ _ _ (.inr (by rw [hkv, if_neg hnr]; simp))
    · right
      refine ⟨.delete none, t, tr, U, n1, e1, ?_, h, .nothing k _, by simp only [extra]; omega⟩
      simp only [stepE, deleteE, hroot, ed]; rfl

theorem runE_any (cmp : EComp K E) {z : K × V} : ∀ (cs : List (ECall K V)) {t : Tree K V} {tr : T} {U : List Nat} (_ : OK z t tr U) (n : Nat) (e : E),
    runE (counted cmp) (n, e) t cs = .panic .nilDeref ∨
    ∃ as t' tr' U' n' e', runE (counted cmp) (n, e) t cs = .ok (as, t', n', e') ∧ OK z t' tr' U' ∧ AnyRun (entries t tr) cs as (entries t' tr') := by
  intro cs
  induction cs with
  | nil => intro t tr U h n e; exact .inr ⟨[], t, tr, U, n, e, rfl, h, .nil⟩
  | cons c cs ih =>
    intro t tr U h n e
    rcases stepE_any cmp h n e c with h1 | ⟨a, t1, tr1, U1, n1, e1, h1, ok1, s1, -⟩
    · left; simp only [runE, h1, Res.bind_panic]
    · rcases ih ok1 n1 e1 with h2 | ⟨as, t2, tr2, U2, n2, e2, h2, ok2, s2⟩
      · left; simp only [runE, h1, h2, Res.bind_ok, Res.bind_panic]
      · exact .inr ⟨a :: as, t2, tr2, U2, n2, e2, by simp only [runE, h1, h2, Res.bind_ok, Res.pure_eq], ok2, .cons s1 s2⟩

/-! ### C124 -/

/-- C124: with any comparator whatsoever — inconsistent, with state, answering at random — a history of Put, Get and Delete on a new tree ends, by
returning or by a nil dereference. If it returns, its answers are those of some history of steps on a list of entries, and that list is what
`Next` and `Prev` walk through in the tree. -/
theorem any_comparator (cmp : EComp K E) (z : K × V) (e : E) (cs : List (ECall K V)) :
    runE (counted cmp) (0, e) (new z) cs = .panic .nilDeref ∨
    ∃ as t n e' L, runE (counted cmp) (0, e) (new z) cs = .ok (as, t, n, e') ∧ Navigable t.heap (t.heap.parent 0) L ∧
      AnyRun [] cs as (L.map t.heap.kv) := by
  have ok := ok_new z
  rcases runE_any cmp cs ok 0 e with h | ⟨as, t, tr, U, n, e', h, ok', s⟩
  · exact .inl h
  · exact .inr ⟨as, t, n, e', tr.ids, h, ok'.holds.navigable, s⟩

/-- C124: the comparator calls of the next call, counted from zero, after any history that returned: a search makes at most 2·log₂(n+1) calls on a
tree with n entries, whatever the comparator answered before and answers now, and Delete makes at most two more. -/
theorem calls_of_one (cmp : EComp K E) (z : K × V) (e : E) (cs : List (ECall K V)) {as : List (EAns K V)} {t : Tree K V} {n : Nat} {e' : E}
    (h : runE (counted cmp) (0, e) (new z) cs = .ok (as, t, n, e')) (c : ECall K V) {L : List Nat} (hL : Navigable t.heap (t.heap.parent 0) L) :
    stepE (counted cmp) (0, e') t c = .panic .nilDeref ∨
    ∃ a t' k e'' L', stepE (counted cmp) (0, e') t c = .ok (a, t', k, e'') ∧ Navigable t'.heap (t'.heap.parent 0) L' ∧
      AnyStep (L.map t.heap.kv) c a (L'.map t'.heap.kv) ∧ 2 ^ (k - extra c) ≤ (L.length + 1) ^ 2 := by
  have ok := ok_new z
  rcases runE_any cmp cs ok 0 e with h1 | ⟨as1, t1, tr, U, n1, e1, h1, ok', s⟩
  · rw [h1] at h; cases h
  · rw [h1] at h; cases h
    obtain rfl := hL.unique ok'.holds.navigable
    rcases stepE_any cmp ok' 0 e' c with h2 | ⟨a, t2, tr2, U2, n2, e2, h2, ok2, s2, hb⟩
    · exact .inl h2
    · refine .inr ⟨a, t2, n2, e2, tr2.ids, h2, ok2.holds.navigable, s2, ?_⟩
      exact (Nat.pow_le_pow_right (by omega) (by omega)).trans (rb_height ok'.rb)

/-! ### The hypotheses are met -/

/-- A comparator that answers -1, 1, -1, … by turns: the calls return. -/
example : (do
    let r ← runE (counted (E := Bool) fun _ _ e => (if e then -1 else 1, !e)) (0, true) (new ((0 : Nat), (0 : Nat)))
      [.put 5 50, .put 3 30, .put 4 40, .get 4, .put 4 41, .delete 9]
    pure (r.1, r.2.2.1)) = .ok ([.put true, .put true, .put true, .get none, .put true, .delete none], 9) := by cbv

/-- A comparator that says "equal" on every fifth call: Put overwrites, Get finds the value of another key, Delete takes an entry. -/
example : (do
    let r ← runE (counted (E := Nat) fun _ _ e => (if e % 5 = 2 then 0 else if e % 2 = 0 then -1 else 1, e + 1)) (0, 0) (new ((0 : Nat), (0 : Nat)))
      [.put 5 50, .put 3 30, .put 4 40, .get 4, .get 4, .get 4, .delete 9, .delete 8, .delete 9]
    pure (r.1, r.2.2.1)) = .ok ([.put true, .put true, .put false, .get none, .get none, .get (some 50), .delete none, .delete none, .delete (some (3, 40))], 14) := by cbv

end Gds.RBTree
