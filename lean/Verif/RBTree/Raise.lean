import Verif.RBTree.Calls

/-! Property C137: the red-black tree with a comparator that may panic, and a caller that recovers. -/
namespace Gds.RBTree
variable {K V E F : Type}

/-! ### The code with a comparator that may panic

`none` in the place of a result: the comparator panicked. The panic passes through the tree's code, which has no deferred calls, to the caller, who
recovers it; the tree is then as the code left it at that moment. -/

/-- A Go closure `func(a, b K) int` (fn/comp.go:11 `fn.Compare`) with state, that panics when it answers `none`. -/
abbrev PComp (K E : Type) := K → K → E → Option Int × E

/-- redblacktree.go:359-374, the descent of `put`, which writes nothing. -/
def descendP (cmp : PComp K E) (e : E) (m : Heap K V) (key : K) (tmp parent : Option Nat) : Res (Option Hit × E) := do
  match tmp with
  | none => pure (some (.missing parent), e)
  | some i =>
    let r := cmp key (m.kv i).1 e
    if r.1 = none then pure (none, r.2)
    else if r.1 = some (-1) then descendP cmp r.2 m key (m.left i) tmp
    else if r.1 = some 1 then descendP cmp r.2 m key (m.right i) tmp
    else pure (some (.found i), r.2)
partial_fixpoint

/-- redblacktree.go:352-406 `put` -/
def putInnerP (cmp : PComp K E) (e : E) (t : Tree K V) (key : K) (val : V) : Res (Option Bool × Tree K V × E) := do
  let h ← descendP cmp e t.heap key (t.heap.parent 0) none
  match h.1 with
  | none => pure (none, t, h.2)
  | some (.found i) =>
    pure (some false, { t with heap := { t.heap with kv := fun j => if j = i then ((t.heap.kv i).1, val) else t.heap.kv j } }, h.2)
  | some (.missing p) =>
    let (n, t) ← allocNode t key val
    let m ← link t.heap n p
    pure (some true, { t with heap := m }, h.2)

/-- redblacktree.go:287-293 `Put` -/
def putP (cmp : PComp K E) (e : E) (t : Tree K V) (key : K) (val : V) : Res (Option Bool × Tree K V × E) := do
  let (r, t, e) ← putInnerP cmp e t key val
  match r with
  | none => pure (none, t, e)
  | some r => if r then pure (some true, { t with size := t.size + 1 }, e) else pure (some false, t, e)

/-- redblacktree.go:456-469 `search`, from a node; it writes nothing. -/
def searchFromP (cmp : PComp K E) (e : E) (m : Heap K V) (key : K) (node : Option Nat) : Res (Option (Option Nat) × E) := do
  match node with
  | none => pure (some none, e)
  | some i =>
    let r := cmp key (m.kv i).1 e
    if r.1 = none then pure (none, r.2)
    else if r.1 = some (-1) then searchFromP cmp r.2 m key (m.left i)
    else if r.1 = some 1 then searchFromP cmp r.2 m key (m.right i)
    else pure (some (some i), r.2)
partial_fixpoint

/-- redblacktree.go:220-233 `Has` and `Get` -/
def getP (cmp : PComp K E) (e : E) (t : Tree K V) (key : K) : Res (Option (Option V) × E) := do
  let n ← searchFromP cmp e t.heap key (t.heap.parent 0)
  match n.1 with
  | none => pure (none, n.2)
  | some none => pure (some none, n.2)
  | some (some i) => pure (some (some (t.heap.kv i).2), n.2)

/-- redblacktree.go:473-477: the header's end pointers in `remove`. Two calls of the comparator, the second only if nothing was written after the first;
the tree as it is when one of them panics is returned with `none`. -/
def removeEndsP (cmp : PComp K E) (e : E) (m : Heap K V) (node : Option Nat) : Res (Option Unit × Heap K V × E) := do
  let kv ← m.kvOf node
  let r := cmp kv.1 (m.kv 0).1 e
  match r.1 with
  | none => pure (none, m, r.2)
  | some c =>
    if c > -1 then
      let p ← prev m node
      let m ← m.setRight (some 0) p
      pure (some (), m, r.2)
    else
      let hl ← m.kvOf (m.left 0)
      let r := cmp hl.1 kv.1 r.2
      match r.1 with
      | none => pure (none, m, r.2)
      | some c =>
        if c > -1 then
          let n ← next m node
          let m ← m.setLeft (some 0) n
          pure (some (), m, r.2)
        else pure (some (), m, r.2)

/-- redblacktree.go:261-269 (after `search`) with redblacktree.go:471-521 `remove` -/
def removeNodeP (cmp : PComp K E) (e : E) (t : Tree K V) (node : Nat) : Res (Option (Option Nat) × Tree K V × E) := do
  let (r, m, e) ← removeEndsP cmp e t.heap (some node)
  match r with
  | none => pure (none, { t with heap := m }, e)
  | some _ =>
    let (r, m) ← unlink m (some node)
    let t : Tree K V := { t with heap := m, size := t.size - 1 }
    if t.size = 0 then
      pure (some r, { t with heap := { t.heap with
        right := fun j => if j = 0 then none else t.heap.right j
        left := fun j => if j = 0 then none else t.heap.left j } }, e)
    else pure (some r, t, e)

/-- redblacktree.go:256-270 `Delete`; the entry of the returned node instead of the node -/
def deleteP (cmp : PComp K E) (e : E) (t : Tree K V) (key : K) : Res (Option (Option (K × V)) × Tree K V × E) := do
  let n ← searchFromP cmp e t.heap key (t.heap.parent 0)
  match n.1 with
  | none => pure (none, t, n.2)
  | some none => pure (some none, t, n.2)
  | some (some i) =>
    let (r, t, e) ← removeNodeP cmp n.2 t i
    match r with
    | none => pure (none, t, e)
    | some none => pure (some none, t, e)
    | some (some j) => pure (some (some (t.heap.kv j)), t, e)

/-- One call (redblacktree.go:220-293); `none`: the comparator panicked in it. -/
def stepP (cmp : PComp K E) (e : E) (t : Tree K V) : ECall K V → Res (Option (EAns K V) × Tree K V × E)
  | .put k v => do let (b, t, e) ← putP cmp e t k v; pure (b.map .put, t, e)
  | .get k => do let (v, e) ← getP cmp e t k; pure (v.map .get, t, e)
  | .delete k => do let (r, t, e) ← deleteP cmp e t k; pure (r.map .delete, t, e)

/-- A history (redblacktree.go:220-293) whose caller recovers the comparator's panics and goes on with the tree as it is. -/
def runP (cmp : PComp K E) (e : E) (t : Tree K V) : List (ECall K V) → Res (List (Option (EAns K V)) × Tree K V × E)
  | [] => pure ([], t, e)
  | c :: cs => do
    let (a, t, e) ← stepP cmp e t c
    let (as, t, e) ← runP cmp e t cs
    pure (a :: as, t, e)

/-! ### Specification -/

/-- The calls that returned. -/
def returned : List (ECall K V) → List (Option (EAns K V)) → List (ECall K V)
  | c :: cs, some _ :: as => c :: returned cs as
  | _ :: cs, none :: as => returned cs as
  | _, _ => []

/-- What they returned. -/
def answers (as : List (Option (EAns K V))) : List (EAns K V) := as.filterMap id

/-- The comparator that answers 0 where the other one panics. -/
def fill (cmp : PComp K E) : EComp K E := fun a b e => let r := cmp a b e; (r.1.getD 0, r.2)

/-- Not Go code: a call counter in front of the comparator's state. -/
def countedP (cmp : PComp K E) : PComp K (Nat × E) := fun a b e => let r := cmp a b e.2; (r.1, e.1 + 1, r.2)

/-- A comparator without state. -/
def stateless (cmp : Compare K) : EComp K Unit := fun a b _ => (cmp a b, ())

/-! ### Up to a panic, the calls are those of C124 -/

/-- As long as the one comparator does not panic, it answers like the other. -/
def Agrees (R : E → F → Prop) (p : PComp K E) (q : EComp K F) : Prop :=
  ∀ a b e f x, R e f → (p a b e).1 = some x → (q a b f).1 = x ∧ R (p a b e).2 (q a b f).2

/-- A call with the one comparator panicked and left `stay`, or does what the call with the other does. -/
inductive Tracks (R : E → F → Prop) {α β : Type} (stay : β) : Res (Option α × β × E) → Res (α × β × F) → Prop
  | raised (e' q) : Tracks R stay (.ok (none, stay, e')) q
  | ret {a b e' f'} : R e' f' → Tracks R stay (.ok (some a, b, e')) (.ok (a, b, f'))
  | panic (k) : Tracks R stay (.panic k) (.panic k)
  | hang : Tracks R stay .hang .hang

variable {R : E → F → Prop} {p : PComp K E} {q : EComp K F}

theorem descendP_spec (hA : Agrees R p q) {m : Heap K V} (key : K) : ∀ (t : T) (up par : Option Nat) (e : E) (f : F), Rep m up t → R e f →
    (∃ e', descendP p e m key t.root par = .ok (none, e')) ∨
    ∃ h e' f', descendP p e m key t.root par = .ok (some h, e') ∧ descendE q f m key t.root par = .ok (h, f') ∧ R e' f' := by
  intro t
  induction t with
  | nil => intro up par e f _ hr; right; refine ⟨.missing par, e, f, ?_, ?_, hr⟩ <;> rw [T.root_nil] <;> first | rw [descendP]; rfl | rw [descendE]; rfl
  | node l i r ihl ihr =>
    intro up par e f h hr
    obtain ⟨h1, h2, h3, h4, h5⟩ := h
    rw [T.root_node, descendP, descendE]
    cases hx : (p key (m.kv i).1 e).1 with
    | none => left; exact ⟨(p key (m.kv i).1 e).2, by simp only [hx, if_true]; rfl⟩
    | some x =>
      obtain ⟨hq, hr'⟩ := hA _ _ _ _ _ hr hx
      simp only [hx, hq, reduceCtorEq, if_false, Option.some.injEq]
      by_cases k1 : x = -1
      · simp only [k1, if_true, h2]; exact ihl _ _ _ _ h4 hr'
      · by_cases k2 : x = 1
        · simp only [k2, if_true, h3, show ¬ ((1 : Int) = -1) by omega, if_false]; exact ihr _ _ _ _ h5 hr'
        · right; simp only [k1, k2, if_false]; exact ⟨_, _, _, rfl, rfl, hr'⟩

theorem searchFromP_spec (hA : Agrees R p q) {m : Heap K V} (key : K) : ∀ (t : T) (up : Option Nat) (e : E) (f : F), Rep m up t → R e f →
    (∃ e', searchFromP p e m key t.root = .ok (none, e')) ∨
    ∃ h e' f', searchFromP p e m key t.root = .ok (some h, e') ∧ searchFromE q f m key t.root = .ok (h, f') ∧ R e' f' := by
  intro t
  induction t with
  | nil => intro up e f _ hr; right; refine ⟨none, e, f, ?_, ?_, hr⟩ <;> rw [T.root_nil] <;> first | rw [searchFromP]; rfl | rw [searchFromE]; rfl
  | node l i r ihl ihr =>
    intro up e f h hr
    obtain ⟨h1, h2, h3, h4, h5⟩ := h
    rw [T.root_node, searchFromP, searchFromE]
    cases hx : (p key (m.kv i).1 e).1 with
    | none => left; exact ⟨(p key (m.kv i).1 e).2, by simp only [hx, if_true]; rfl⟩
    | some x =>
      obtain ⟨hq, hr'⟩ := hA _ _ _ _ _ hr hx
      simp only [hx, hq, reduceCtorEq, if_false, Option.some.injEq]
      by_cases k1 : x = -1
      · simp only [k1, if_true, h2]; exact ihl _ _ _ h4 hr'
      · by_cases k2 : x = 1
        · simp only [k2, if_true, h3, show ¬ ((1 : Int) = -1) by omega, if_false]; exact ihr _ _ _ h5 hr'
        · right; simp only [k1, k2, if_false]; exact ⟨_, _, _, rfl, rfl, hr'⟩

theorem putP_spec (hA : Agrees R p q) {z : K × V} {t : Tree K V} {tr : T} {U : List Nat} (h : OK z t tr U) {e : E} {f : F} (hr : R e f) (k : K) (v : V) :
    Tracks R t (putP p e t k v) (putE q f t k v) := by
  rcases descendP_spec hA k tr none none e f h.holds.rep hr with ⟨e', h1⟩ | ⟨x, e', f', h1, h2, hr'⟩
  · rw [← h.holds.root] at h1
    have : putP p e t k v = .ok (none, t, e') := by simp only [putP, putInnerP, h1, Res.bind_ok, Res.pure_eq]
    rw [this]; exact .raised _ _
  · rw [← h.holds.root] at h1 h2
    simp only [putP, putInnerP, putE, putInnerE, h1, h2, Res.bind_ok, Res.pure_eq]
    cases x with
    | found i => exact .ret hr'
    | missing j =>
      simp only
      cases allocNode t k v with
      | panic => exact .panic _
      | hang => exact .hang
      | ok s =>
        obtain ⟨n, t1⟩ := s
        simp only [Res.bind_ok]
        cases link t1.heap n j with
        | panic => exact .panic _
        | hang => exact .hang
        | ok m => exact .ret hr'

theorem removeEndsP_spec (hA : Agrees R p q) (m : Heap K V) {e : E} {f : F} (hr : R e f) (n : Option Nat) :
    Tracks R m (removeEndsP p e m n) (do let r ← removeEndsE q f m n; pure ((), r)) := by
  unfold removeEndsP removeEndsE
  cases m.kvOf n with
  | panic => exact .panic _
  | hang => exact .hang
  | ok kv =>
    simp only [Res.bind_ok]
    cases hx : (p kv.1 (m.kv 0).1 e).1 with
    | none => exact .raised _ _
    | some x =>
      obtain ⟨hq, hr1⟩ := hA _ _ _ _ _ hr hx
      simp only [hq]
      by_cases h1 : x > -1
      · simp only [h1, if_true]
        cases prev m n with
        | panic => exact .panic _
        | hang => exact .hang
        | ok a => exact .ret hr1
      · simp only [h1, if_false]
        cases m.kvOf (m.left 0) with
        | panic => exact .panic _
        | hang => exact .hang
        | ok hl =>
          simp only [Res.bind_ok]
          cases hy : (p hl.1 kv.1 (p kv.1 (m.kv 0).1 e).2).1 with
          | none => exact .raised _ _
          | some y =>
            obtain ⟨hq2, hr2⟩ := hA _ _ _ _ _ hr1 hy
            simp only [hq2]
            by_cases h2 : y > -1
            · simp only [h2, if_true]
              cases next m n with
              | panic => exact .panic _
              | hang => exact .hang
              | ok a => exact .ret hr2
            · simp only [h2, if_false]; exact .ret hr2

theorem removeNodeP_spec (hA : Agrees R p q) (t : Tree K V) {e : E} {f : F} (hr : R e f) (i : Nat) :
    Tracks R t (removeNodeP p e t i) (removeNodeE q f t i) := by
  have hs := removeEndsP_spec hA t.heap hr (some i)
  unfold removeNodeP removeNodeE
  generalize removeEndsP p e t.heap (some i) = x at hs
  generalize removeEndsE q f t.heap (some i) = y at hs
  cases y with
  | panic => simp only [Res.bind_panic] at hs ⊢; cases hs with
    | raised => exact .raised _ _
    | panic => exact .panic _
  | hang => simp only [Res.bind_hang] at hs ⊢; cases hs with
    | raised => exact .raised _ _
    | hang => exact .hang
  | ok y =>
    obtain ⟨m1, f1⟩ := y
    simp only [Res.bind_ok, Res.pure_eq] at hs ⊢
    cases hs with
    | raised => exact .raised _ _
    | ret hr' =>
      simp only [Res.bind_ok]
      cases unlink m1 (some i) with
      | panic => exact .panic _
      | hang => exact .hang
      | ok s =>
        simp only [Res.bind_ok]
        by_cases hz : t.size - 1 = 0
        · simp only [hz, if_true]; exact .ret hr'
        · simp only [hz, if_false]; exact .ret hr'

theorem stepP_spec (hA : Agrees R p q) {z : K × V} {t : Tree K V} {tr : T} {U : List Nat} (h : OK z t tr U) {e : E} {f : F} (hr : R e f) (c : ECall K V) :
    Tracks R t (stepP p e t c) (stepE q f t c) := by
  cases c with
  | put k v =>
    have hs := putP_spec hA h hr k v
    simp only [stepP, stepE]
    generalize putP p e t k v = x at hs
    generalize putE q f t k v = y at hs
    cases hs with
    | raised => exact .raised _ _
    | ret hr' => exact .ret hr'
    | panic => exact .panic _
    | hang => exact .hang
  | get k =>
    rcases searchFromP_spec hA k tr none e f h.holds.rep hr with ⟨e', h1⟩ | ⟨x, e', f', h1, h2, hr'⟩
    · rw [← h.holds.root] at h1
      have : stepP p e t (.get k) = .ok (none, t, e') := by simp only [stepP, getP, h1, Res.bind_ok, Res.pure_eq, Option.map_none]
      rw [this]; exact .raised _ _
    · rw [← h.holds.root] at h1 h2
      simp only [stepP, stepE, getP, getE, h1, h2, Res.bind_ok, Res.pure_eq]
      cases x <;> exact .ret hr'
  | delete k =>
    rcases searchFromP_spec hA k tr none e f h.holds.rep hr with ⟨e', h1⟩ | ⟨x, e', f', h1, h2, hr'⟩
    · rw [← h.holds.root] at h1
      have : stepP p e t (.delete k) = .ok (none, t, e') := by simp only [stepP, deleteP, h1, Res.bind_ok, Res.pure_eq, Option.map_none]
      rw [this]; exact .raised _ _
    · rw [← h.holds.root] at h1 h2
      simp only [stepP, stepE, deleteP, deleteE, h1, h2, Res.bind_ok, Res.pure_eq]
      cases x with
      | none => exact .ret hr'
      | some i =>
        have hs := removeNodeP_spec hA t hr' i
        simp only
        generalize removeNodeP p e' t i = x at hs
        generalize removeNodeE q f' t i = y at hs
        cases hs with
        | raised => exact .raised _ _
        | panic => exact .panic _
        | hang => exact .hang
        | @ret a b e2 f2 hr2 => cases a <;> exact .ret hr2

theorem agrees_fill (pc : PComp K E) : Agrees (· = ·) (countedP pc) (counted (fill pc)) := by
  rintro a b e _ x rfl hx
  simp only [countedP] at hx
  simp [counted, fill, countedP, hx]

theorem runP_any (pc : PComp K E) {z : K × V} : ∀ (cs : List (ECall K V)) {t : Tree K V} {tr : T} {U : List Nat} (_ : OK z t tr U) (e : Nat × E),
    runP (countedP pc) e t cs = .panic .nilDeref ∨
    ∃ as t' tr' U' e', runP (countedP pc) e t cs = .ok (as, t', e') ∧ OK z t' tr' U' ∧ as.length = cs.length ∧
      AnyRun (entries t tr) (returned cs as) (answers as) (entries t' tr') := by
  intro cs
  induction cs with
  | nil => intro t tr U h e; exact .inr ⟨[], t, tr, U, e, rfl, h, rfl, .nil⟩
  | cons c cs ih =>
    intro t tr U h e
    have hs := stepP_spec (agrees_fill pc) h (rfl : e = e) c
    rcases stepE_any (fill pc) h e.1 e.2 c with h1 | ⟨a, t1, tr1, U1, n1, e1, h1, ok1, s1, -⟩
    · rw [show ((e.1, e.2) : Nat × E) = e from rfl] at h1
      rw [h1] at hs
      generalize hx : stepP (countedP pc) e t c = x at hs
      cases hs with
      | panic => left; simp only [runP, hx, Res.bind_panic]
      | raised e' =>
        rcases ih h e' with h2 | ⟨as, t', tr', U', e2, h2, ok2, hl, s2⟩
        · left; simp only [runP, hx, h2, Res.bind_ok, Res.bind_panic]
        · exact .inr ⟨none :: as, t', tr', U', e2, by simp only [runP, hx, h2, Res.bind_ok, Res.pure_eq], ok2, by simp [hl], s2⟩
    · rw [show ((e.1, e.2) : Nat × E) = e from rfl] at h1
      rw [h1] at hs
      generalize hx : stepP (countedP pc) e t c = x at hs
      cases hs with
      | raised e' =>
        rcases ih h e' with h2 | ⟨as, t', tr', U', e2, h2, ok2, hl, s2⟩
        · left; simp only [runP, hx, h2, Res.bind_ok, Res.bind_panic]
        · exact .inr ⟨none :: as, t', tr', U', e2, by simp only [runP, hx, h2, Res.bind_ok, Res.pure_eq], ok2, by simp [hl], s2⟩
      | @ret _ _ e' _ hr =>
        rcases ih ok1 e' with h2 | ⟨as, t', tr', U', e2, h2, ok2, hl, s2⟩
        · left; simp only [runP, hx, h2, Res.bind_ok, Res.bind_panic]
        · exact .inr ⟨some a :: as, t', tr', U', e2, by simp only [runP, hx, h2, Res.bind_ok, Res.pure_eq], ok2, by simp [hl], .cons s1 s2⟩

/-! ### C137 -/

/-- C137: a call of `Put`, `Get` or `Delete` in which the comparator panics leaves the tree as it was: every pointer, colour, key, value and the size,
after any history, with any comparator. -/
theorem raised_unchanged (pc : PComp K E) (z : K × V) (e : E) (cs : List (ECall K V)) {as : List (Option (EAns K V))} {t : Tree K V} {n : Nat} {e1 : E}
    (h : runP (countedP pc) (0, e) (new z) cs = .ok (as, t, n, e1)) (c : ECall K V) {t' : Tree K V} {e2 : Nat × E}
    (h' : stepP (countedP pc) (n, e1) t c = .ok (none, t', e2)) : t' = t := by
  rcases runP_any pc cs (ok_new z) (0, e) with h1 | ⟨as1, t1, tr, U, e3, h1, ok, -, -⟩
  · rw [h1] at h; cases h
  · rw [h1] at h; cases h
    have hs := stepP_spec (agrees_fill pc) ok (rfl : ((n, e1) : Nat × E) = _) c
    rw [h'] at hs
    cases hs
    rfl

/-- C137: a history whose comparator panics now and then ends, by returning or by a nil dereference. If it returns, the answers of the calls that
returned are those of some history of these calls alone on a list of entries, and that list is what `Next` and `Prev` walk through in the tree. -/
theorem raised_history (pc : PComp K E) (z : K × V) (e : E) (cs : List (ECall K V)) :
    runP (countedP pc) (0, e) (new z) cs = .panic .nilDeref ∨
    ∃ as t e' L, runP (countedP pc) (0, e) (new z) cs = .ok (as, t, e') ∧ as.length = cs.length ∧ Navigable t.heap (t.heap.parent 0) L ∧
      AnyRun [] (returned cs as) (answers as) (L.map t.heap.kv) := by
  rcases runP_any pc cs (ok_new z) (0, e) with h | ⟨as, t, tr, U, e', h, ok, hl, s⟩
  · exact .inl h
  · exact .inr ⟨as, t, e', tr.ids, h, hl, ok.holds.navigable, s⟩

/-- C137: if the comparator, whenever it does not panic, gives the answer of `cmp`, a history that returns has the answers, and leaves the very tree, that
the calls that returned have and leave with `cmp` and without the others: as if those had not been made. -/
theorem raised_as_if_absent (cmp : Compare K) (pc : PComp K E) (hc : ∀ a b e x, (pc a b e).1 = some x → x = cmp a b) (z : K × V) (e : E)
    (cs : List (ECall K V)) {as : List (Option (EAns K V))} {t : Tree K V} {e' : Nat × E} (h : runP (countedP pc) (0, e) (new z) cs = .ok (as, t, e')) :
    runE (stateless cmp) () (new z) (returned cs as) = .ok (answers as, t, ()) := by
  have hA : Agrees (fun (_ : Nat × E) (_ : Unit) => True) (countedP pc) (stateless cmp) := by
    intro a b e f x _ hx
    exact ⟨(hc a b e.2 x hx).symm, trivial⟩
  suffices H : ∀ (cs : List (ECall K V)) {t0 : Tree K V} {tr : T} {U : List Nat} (_ : OK z t0 tr U) (e0 : Nat × E) {as : List (Option (EAns K V))}
      {t : Tree K V} {e' : Nat × E}, runP (countedP pc) e0 t0 cs = .ok (as, t, e') →
      runE (stateless cmp) () t0 (returned cs as) = .ok (answers as, t, ()) from H cs (ok_new z) (0, e) h
  intro cs
  induction cs with
  | nil => intro t0 tr U _ e0 as t e' h; cases h; rfl
  | cons c cs ih =>
    intro t0 tr U ok e0 as t e' h
    have hs := stepP_spec hA ok (e := e0) (f := ()) trivial c
    have hok := runP_any pc [c] ok e0
    simp only [runP] at h hok
    generalize hx : stepP (countedP pc) e0 t0 c = x at hs h hok
    cases x with
    | panic => cases h
    | hang => cases h
    | ok x =>
      obtain ⟨a, t1, e1⟩ := x
      simp only [Res.bind_ok, Res.pure_eq] at h hok
      cases hy : runP (countedP pc) e1 t1 cs with
      | panic => rw [hy] at h; cases h
      | hang => rw [hy] at h; cases h
      | ok y =>
        obtain ⟨as1, t2, e2⟩ := y
        rw [hy] at h
        cases h
        rcases hok with h3 | ⟨_, _, tr1, U1, _, h3, ok1, -⟩
        · cases h3
        · cases h3
          have := ih ok1 e1 hy
          generalize hz : stepE (stateless cmp) () t0 c = w at hs
          cases hs with
          | raised => exact this
          | ret _ =>
            simp only [returned, runE, hz, Res.bind_ok, this, answers, Res.pure_eq, List.filterMap_cons, id]

/-! ### The hypotheses are met -/

/-- A lawful comparator that panics on every fourth call: `Put` and `Delete` fail now and then, and leave the tree as it was. -/
example : (do
    let r ← runP (countedP (E := Nat) fun a b e => (if e % 4 = 2 then none else some (if a < b then -1 else if a = b then 0 else 1), e + 1)) (0, 0)
      (new ((0 : Nat), (0 : Nat))) [.put 1 10, .put 2 20, .put 3 30, .put 3 30, .delete 2, .delete 2, .get 2]
    pure (r.1, r.2.1.size)) =
    .ok ([some (.put true), some (.put true), none, some (.put true), none, some (.delete (some (3, 30))), none], 2) := by cbv

end Gds.RBTree
