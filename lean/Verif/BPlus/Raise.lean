import Verif.BPlus.Calls

/-! Property C138: the B+ tree with a comparator that may panic, and a caller that recovers. -/
namespace Gds.BPlus
open Tree
variable {K V E : Type} [Inhabited K] [Inhabited V]

/-! ### The code with a comparator that may panic

`none` in the place of a result: the comparator panicked. The panic passes through the tree's code, which has no deferred calls, to the caller, who
recovers it; the tree is then as the code left it at that moment. -/

/-- A Go closure `func(a, b K) int` (fn/comp.go:11 `fn.Compare`) with state, that panics when it answers `none`. -/
abbrev PComp (K E : Type) := K → K → E → Option Int × E

/-- bplustree.go:210-224, the binary search in one node, which writes nothing. -/
def bsearchP (cmp : PComp K E) (e : E) (t : Tree K V) (node : Option Nat) (key : K) (l hi mid : Nat) : Res (Option (Nat × Nat × Bool) × E) :=
  if l < hi then do
    let mid := (l + (hi - 1)) / 2
    let v ← t.getVal node mid
    let c := cmp key v.1 e
    match c.1 with
    | none => .ok (none, c.2)
    | some x =>
      if x < 0 then bsearchP cmp c.2 t node key l mid mid
      else if 0 < x then bsearchP cmp c.2 t node key (mid + 1) hi mid
      else .ok (some (l, mid, true), c.2)
  else .ok (some (l, mid, false), e)
termination_by hi - l

/-- bplustree.go:204-233, the loop of `search`, which writes nothing. -/
def searchLoopP (cmp : PComp K E) (e : E) (t : Tree K V) (node : Option Nat) (key : K) : Res (Option (Option Nat × Nat × Bool) × E) := do
  let n ← t.getNum node
  let r ← bsearchP cmp e t node key 0 n 0
  match r.1 with
  | none => .ok (none, r.2)
  | some x =>
    let lf ← t.getLeaf node
    if lf then
      if x.2.2 then .ok (some (node, x.2.1, true), r.2) else .ok (some (node, x.1, false), r.2)
    else
      let c ← t.getKid node x.1
      searchLoopP cmp r.2 t c key
partial_fixpoint

/-- bplustree.go:200-233 `search` -/
def searchP (cmp : PComp K E) (e : E) (t : Tree K V) (key : K) : Res (Option (Option Nat × Nat × Bool) × E) :=
  if t.size = 0 then .ok (some (none, 0, false), e) else searchLoopP cmp e t t.root key

/-- bplustree.go:70-76 `GetVerify`, the value and the flag as an option -/
def getVerifyP (cmp : PComp K E) (e : E) (t : Tree K V) (key : K) : Res (Option (Option V) × E) := do
  let r ← searchP cmp e t key
  match r.1 with
  | none => .ok (none, r.2)
  | some x =>
    if x.2.2 then
      let v ← t.getVal x.1 x.2.1
      .ok (some (some v.2), r.2)
    else .ok (some none, r.2)

/-- bplustree.go:156-160, the loop of the leaf case of `insertNonFull`: every comparison but the first comes after a write. -/
def leafShiftP (cmp : PComp K E) (e : E) (t : Tree K V) (node : Option Nat) (key : K) : Nat → Res ((Tree K V × Option Nat) × E)
  | 0 => .ok ((t, some 0), e)
  | pos + 1 => do
    let v ← t.getVal node pos
    let c := cmp key v.1 e
    match c.1 with
    | none => .ok ((t, none), c.2)
    | some x =>
      if x < 0 then
        let t ← t.setVal node (pos + 1) v
        leafShiftP cmp c.2 t node key pos
      else .ok ((t, some (pos + 1)), c.2)

/-- bplustree.go:167-170, the loop of the inner case of `insertNonFull`, which writes nothing. -/
def descendPosP (cmp : PComp K E) (e : E) (t : Tree K V) (node : Option Nat) (key : K) : Nat → Res (Option Nat × E)
  | 0 => .ok (some 0, e)
  | pos + 1 => do
    let v ← t.getVal node pos
    let c := cmp key v.1 e
    match c.1 with
    | none => .ok (none, c.2)
    | some x => if x < 0 then descendPosP cmp c.2 t node key pos else .ok (some (pos + 1), c.2)

/-- bplustree.go:154-181 `insertNonFull`; `false`: the comparator panicked, and the tree is as it was left. -/
def insertNonFullP (cmp : PComp K E) (e : E) (t : Tree K V) (node : Option Nat) (p : K × V) : Res (Bool × Tree K V × E) := do
  let lf ← t.getLeaf node
  if lf then
    let n ← t.getNum node
    let r ← leafShiftP cmp e t node p.1 n
    match r.1.2 with
    | none => .ok (false, r.1.1, r.2)
    | some pos =>
      let t ← r.1.1.setVal node pos p
      let t ← t.setNum node (n + 1)
      .ok (true, { t with size := t.size + 1 }, r.2)
  else
    let n ← t.getNum node
    let r ← descendPosP cmp e t node p.1 n
    match r.1 with
    | none => .ok (false, t, r.2)
    | some pos =>
      let c ← t.getKid node pos
      let cn ← t.getNum c
      if 2 * t.degree - 1 = cn then
        let t ← splitChild t node c pos
        let v ← t.getVal node pos
        let a := cmp v.1 p.1 r.2
        match a.1 with
        | none => .ok (false, t, a.2)
        | some x =>
          let c ← t.getKid node (if x < 0 then pos + 1 else pos)
          insertNonFullP cmp a.2 t c p
      else
        insertNonFullP cmp r.2 t c p
partial_fixpoint

/-- bplustree.go:183-198 `insert`. The assignment of its result to `bt.root` (bplustree.go:239, 248) happens only if it returns: if the comparator panics
after the root was split, `bt.root` still is the old root, now its left half. -/
def insertP (cmp : PComp K E) (e : E) (t : Tree K V) (p : K × V) : Res (Bool × Tree K V × E) := do
  if t.root = none then .ok (true, { t with root := none }, e)
  else
    let n ← t.getNum t.root
    if t.degree * 2 - 1 = n then
      let root := t.root
      let node := some t.fresh
      let t := newNode t
      let t ← t.setLeaf node false
      let t ← t.setKid node 0 root
      let t ← splitChild t node root 0
      let r ← insertNonFullP cmp e t node p
      if r.1 then .ok (true, { r.2.1 with root := node }, r.2.2) else .ok (false, r.2.1, r.2.2)
    else
      insertNonFullP cmp e t t.root p

/-- The calls of a history, and `Size`. -/
inductive PCall (K V : Type) where
  | get (k : K)
  | insertUnique (k : K) (v : V)
  | size

/-- Their answers. -/
inductive PAns (V : Type) where
  | get (v : Option V)
  | inserted (b : Bool)
  | size (n : Int)

/-- One call: `GetVerify` (bplustree.go:70-76), `InsertUnique` (bplustree.go:243-252), `Size` (bplustree.go:291-293); `none`: the comparator panicked. -/
def stepP (cmp : PComp K E) (e : E) (t : Tree K V) : PCall K V → Res (Option (PAns V) × Tree K V × E)
  | .get k => do let r ← getVerifyP cmp e t k; .ok (r.1.map .get, t, r.2)
  | .insertUnique k v => do
    let r ← searchP cmp e t k
    match r.1 with
    | none => .ok (none, t, r.2)
    | some x =>
      if x.2.2 then .ok (some (.inserted false), t, r.2)
      else
        let q ← insertP cmp r.2 t (k, v)
        .ok (if q.1 then some (.inserted true) else none, q.2.1, q.2.2)
  | .size => .ok (some (.size t.size), t, e)

/-- A history whose caller recovers the comparator's panics and goes on with the tree as it is (bplustree.go:70-76, 243-252, 291-293). -/
def runP (cmp : PComp K E) (e : E) (t : Tree K V) : List (PCall K V) → Res (List (Option (PAns V)) × Tree K V × E)
  | [] => .ok ([], t, e)
  | c :: cs => do
    let a ← stepP cmp e t c
    let r ← runP cmp a.2.2 a.2.1 cs
    .ok (a.1 :: r.1, r.2.1, r.2.2)

/-! ### Specification -/

/-- What a call may do to the entries, in order, and answer, on a tree that is one leaf, when the comparator may panic: a panic in `InsertUnique` changes nothing,
or the last entry is lost and another one is there twice. -/
inductive RaisedStep : List (K × V) → PCall K V → Option (PAns V) → List (K × V) → Prop where
  | absent (k) (es : List (K × V)) : RaisedStep es (.get k) (some (.get none)) es
  | present (k) (es : List (K × V)) (x : K × V) : x ∈ es → RaisedStep es (.get k) (some (.get (some x.2))) es
  | added (k v) (as bs : List (K × V)) : RaisedStep (as ++ bs) (.insertUnique k v) (some (.inserted true)) (as ++ (k, v) :: bs)
  | refused (k v) (es : List (K × V)) : RaisedStep es (.insertUnique k v) (some (.inserted false)) es
  | size (es : List (K × V)) : RaisedStep es .size (some (.size es.length)) es
  | same (c) (es : List (K × V)) : RaisedStep es c none es
  | lost (k v) (as bs : List (K × V)) (x y : K × V) : RaisedStep (as ++ x :: bs ++ [y]) (.insertUnique k v) none (as ++ x :: x :: bs)

/-- A history of such steps. -/
inductive RaisedRun : List (K × V) → List (PCall K V) → List (Option (PAns V)) → List (K × V) → Prop where
  | nil {es} : RaisedRun es [] [] es
  | cons {es c a es' cs as es''} : RaisedStep es c a es' → RaisedRun es' cs as es'' → RaisedRun es (c :: cs) (a :: as) es''

/-- The insertions of a history. -/
def inserts : List (PCall K V) → Nat
  | [] => 0
  | .insertUnique _ _ :: cs => inserts cs + 1
  | _ :: cs => inserts cs

/-- The root is a leaf, and its entries are `es`. -/
def OneLeaf (t : Tree K V) (es : List (K × V)) : Prop :=
  ∃ p, t.root = some p ∧ t.h.isLeaf p = true ∧ t.size = es.length ∧ t.h.num p = es.length ∧ ∀ i (h : i < es.length), t.h.values p i = es[i]

/-- A comparator with the answers of `<` on numbers, that panics in its `n`-th call (counted from zero). -/
def once (n : Nat) : PComp Nat Nat := fun a b e => (if e = n then none else some (if a < b then -1 else if a = b then 0 else 1), e + 1)

/-- The answers of a history on a new tree of degree `M` with `once n`. -/
def answersOnce (M n : Nat) (cs : List (PCall Nat Nat)) : Res (List (Option (PAns Nat))) := do
  let t ← newMap (K := Nat) (V := Nat) M
  let r ← runP (once n) 0 t cs
  .ok r.1

/-! ### One leaf -/

theorem bsearchP_leaf (cmp : PComp K E) {t : Tree K V} {p n : Nat} (hn : n ≤ 2 * t.degree - 1) (key : K) : ∀ (d l hi mid : Nat) (e : E), hi - l ≤ d → hi ≤ n →
    (∃ e', bsearchP cmp e t (some p) key l hi mid = .ok (none, e')) ∨
    ∃ l' m' b e', bsearchP cmp e t (some p) key l hi mid = .ok (some (l', m', b), e') ∧ (b = true → m' < n) := by
  intro d
  induction d with
  | zero => intro l hi mid e hd hh; rw [bsearchP, if_neg (by omega)]; exact .inr ⟨_, _, _, _, rfl, by simp⟩
  | succ d ih =>
    intro l hi mid e hd hh
    rw [bsearchP]
    by_cases hl : l < hi
    · rw [if_pos hl]
      have hm : (l + (hi - 1)) / 2 < 2 * t.degree - 1 := by omega
      simp only [getVal, if_pos hm, Res.bind_ok]
      cases hx : (cmp key (t.h.values p ((l + (hi - 1)) / 2)).1 e).1 with
      | none => exact .inl ⟨_, rfl⟩
      | some x =>
        simp only
        by_cases h1 : x < 0
        · rw [if_pos h1]; exact ih _ _ _ _ (by omega) (by omega)
        · by_cases h2 : 0 < x
          · rw [if_neg h1, if_pos h2]; exact ih _ _ _ _ (by omega) (by omega)
          · rw [if_neg h1, if_neg h2]; exact .inr ⟨_, _, _, _, rfl, fun _ => by omega⟩
    · rw [if_neg hl]; exact .inr ⟨_, _, _, _, rfl, by simp⟩

theorem searchP_leaf (cmp : PComp K E) {t : Tree K V} {es : List (K × V)} (h : OneLeaf t es) (hn : es.length ≤ 2 * t.degree - 1) (key : K) (e : E) :
    (∃ e', searchP cmp e t key = .ok (none, e')) ∨
    ∃ q m' b e', searchP cmp e t key = .ok (some (q, m', b), e') ∧ (b = true → q = t.root ∧ m' < es.length) := by
  obtain ⟨p, hr, hl, hs, hnum, -⟩ := h
  rw [searchP]
  by_cases h0 : t.size = 0
  · rw [if_pos h0]; exact .inr ⟨_, _, _, _, rfl, by simp⟩
  · rw [if_neg h0, hr, searchLoopP]
    simp only [getNum, getLeaf, Res.bind_ok, hnum, hl, if_true]
    rcases bsearchP_leaf cmp (p := p) hn key es.length 0 es.length 0 e (by omega) (by omega) with ⟨e', h1⟩ | ⟨l', m', b, e', h1, h2⟩
    · rw [h1]; exact .inl ⟨_, rfl⟩
    · rw [h1]
      simp only [Res.bind_ok]
      cases b with
      | true => exact .inr ⟨_, _, _, _, rfl, fun _ => ⟨rfl, h2 rfl⟩⟩
      | false => exact .inr ⟨_, _, _, _, rfl, by simp⟩

/-- The values of node `p` from `pos - j` on moved up by one, `pos` excluded. -/
def shifted (t : Tree K V) (p pos j : Nat) : Tree K V :=
  { t with h := { t.h with values := fun q i => if q = p ∧ pos - j < i ∧ i ≤ pos then t.h.values p (i - 1) else t.h.values q i } }

theorem leafShiftP_spec (cmp : PComp K E) (key : K) : ∀ (pos : Nat) (t : Tree K V) (p : Nat) (e : E), pos < 2 * t.degree - 1 →
    ∃ j r e', j ≤ pos ∧ leafShiftP cmp e t (some p) key pos = .ok ((shifted t p pos j, r), e') ∧ (r = none ∨ r = some (pos - j)) := by
  intro pos
  induction pos with
  | zero =>
    intro t p e _
    refine ⟨0, some 0, e, by omega, ?_, .inr rfl⟩
    have : shifted t p 0 0 = t := by
      simp only [shifted]
      congr 2
      funext q i
      rw [if_neg (by omega)]
    rw [this]; rfl
  | succ pos ih =>
    intro t p e hp
    have h0 : shifted t p (pos + 1) 0 = t := by
      simp only [shifted]
      congr 2
      funext q i
      rw [if_neg (by omega)]
    rw [leafShiftP]
    simp only [getVal, if_pos (show pos < 2 * t.degree - 1 by omega), Res.bind_ok]
    cases hx : (cmp key (t.h.values p pos).1 e).1 with
    | none => exact ⟨0, none, _, by omega, by rw [h0], .inl rfl⟩
    | some x =>
      simp only
      by_cases h1 : x < 0
      · simp only [if_pos h1, setVal, if_pos hp, Res.bind_ok]
        obtain ⟨j, r, e', hj, h2, h3⟩ := ih { t with h := { t.h with values := fun q i => if q = p ∧ i = pos + 1 then t.h.values p pos else t.h.values q i } } p
          (cmp key (t.h.values p pos).1 e).2 (by simp only; omega)
        refine ⟨j + 1, r, e', by omega, ?_, ?_⟩
        · rw [h2]
          congr 3
          simp only [shifted]
          congr 2
          funext q i
          by_cases hq : q = p
          · subst hq
            by_cases hi : i = pos + 1
            · subst hi
              rw [if_neg (by omega), if_pos ⟨rfl, rfl⟩, if_pos (by omega)]; simp
            · by_cases hi2 : pos - j < i ∧ i ≤ pos
              · rw [if_pos ⟨rfl, hi2⟩, if_neg (by omega), if_pos (by omega)]
              · rw [if_neg (by tauto), if_neg (by tauto), if_neg (by omega)]
          · rw [if_neg (by tauto), if_neg (by tauto), if_neg (by tauto)]
        · rcases h3 with h3 | h3
          · exact .inl h3
          · exact .inr (by rw [h3]; congr 1; omega)
      · rw [if_neg h1]
        exact ⟨0, some (pos + 1), _, by omega, by rw [h0], .inr rfl⟩

theorem OneLeaf.ext {t : Tree K V} {p : Nat} {es : List (K × V)} (h1 : t.root = some p) (h2 : t.h.isLeaf p = true) (h3 : t.size = es.length)
    (h4 : t.h.num p = es.length) (h5 : ∀ i, i < es.length → some (t.h.values p i) = es[i]?) : OneLeaf t es :=
  ⟨p, h1, h2, h3, h4, fun i h => by have := h5 i h; rw [List.getElem?_eq_getElem h] at this; exact Option.some.inj this⟩

/-- A shift that was broken off after `j` writes. -/
theorem shifted_broken {t : Tree K V} {p : Nat} {es : List (K × V)} (hr : t.root = some p) (h : OneLeaf t es) {j : Nat} (hj : j ≤ es.length) :
    OneLeaf (shifted t p es.length j) es ∨
    ∃ as x bs y, es = as ++ x :: bs ++ [y] ∧ OneLeaf (shifted t p es.length j) (as ++ x :: x :: bs) := by
  obtain ⟨p', hr', hl, hs, hnum, hv⟩ := h
  rw [hr] at hr'
  obtain rfl := Option.some.inj hr'
  by_cases h1 : j ≤ 1
  · left
    refine ⟨p, hr, hl, hs, hnum, fun i hi => ?_⟩
    rw [← hv i hi]
    simp only [shifted]
    rw [if_neg (by omega)]
  · right
    obtain ⟨n, hn⟩ : ∃ n, es.length = n + 1 := ⟨es.length - 1, by omega⟩
    have e1 : es = es.take (es.length - j) ++ es[es.length - j] :: (es.drop (es.length - j + 1)).take (j - 2) ++ [es[n]] := by
      apply List.ext_getElem?
      intro i
      have hlen : (es.take (es.length - j)).length = es.length - j := by simp
      by_cases a1 : i < es.length - j
      · rw [List.append_assoc, List.getElem?_append_left (by omega), List.getElem?_take_of_lt a1]
      · by_cases a2 : i = es.length - j
        · subst a2
          rw [List.append_assoc, List.getElem?_append_right (by omega)]
          simp only [hlen, Nat.sub_self, List.cons_append, List.getElem?_cons_zero]
          rw [List.getElem?_eq_getElem (by omega)]
        · by_cases a3 : i < n
          · rw [List.append_assoc, List.getElem?_append_right (by omega), hlen, List.cons_append, List.getElem?_cons,
              if_neg (by omega), List.getElem?_append_left (by simp; omega), List.getElem?_take_of_lt (by omega), List.getElem?_drop]
            congr 1; omega
          · by_cases a4 : i = n
            · subst a4
              rw [List.getElem?_append_right (by simp; omega)]
              simp only [List.length_append, hlen, List.length_cons, List.length_take, List.length_drop]
              rw [List.getElem?_eq_getElem (by omega), show i - (es.length - j + (min (j - 2) (es.length - (es.length - j + 1)) + 1)) = 0 by omega]
              rfl
            · rw [List.getElem?_eq_none (by omega), List.getElem?_eq_none (by simp; omega)]
    refine ⟨_, _, _, _, e1, ?_⟩
    have hlen : (es.take (es.length - j)).length = es.length - j := by simp
    refine OneLeaf.ext (p := p) hr hl ?_ ?_ ?_
    · show t.size = _
      rw [hs]; simp; omega
    · show t.h.num p = _
      rw [hnum]; simp; omega
    · intro i hi
      have hi' : i < es.length := by simp at hi; omega
      simp only [shifted]
      by_cases a1 : i ≤ es.length - j
      · rw [if_neg (by omega), hv i hi']
        by_cases a2 : i = es.length - j
        · subst a2
          rw [List.getElem?_append_right (by omega)]
          simp
        · rw [List.getElem?_append_left (by omega), List.getElem?_take_of_lt (by omega), List.getElem?_eq_getElem hi']
      · rw [if_pos (by refine ⟨?_, ?_, ?_⟩ <;> first | trivial | omega), hv (i - 1) (by omega), List.getElem?_append_right (by omega), hlen, List.getElem?_cons, if_neg (by omega),
          List.getElem?_cons]
        by_cases a3 : i - (es.length - j) - 1 = 0
        · rw [if_pos a3]; congr 2; omega
        · rw [if_neg a3, List.getElem?_take_of_lt (by omega), List.getElem?_drop, ← List.getElem?_eq_getElem (by omega)]
          congr 1; omega

theorem stepP_leaf (cmp : PComp K E) {t : Tree K V} {es : List (K × V)} (h : OneLeaf t es) (c : PCall K V) (hn : es.length + inserts [c] ≤ 2 * t.degree - 1) (e : E) :
    ∃ a t' es' e', stepP cmp e t c = .ok (a, t', e') ∧ OneLeaf t' es' ∧ t'.degree = t.degree ∧ es'.length ≤ es.length + inserts [c] ∧ RaisedStep es c a es' := by
  cases c with
  | size =>
    have hs : t.size = es.length := h.choose_spec.2.2.1
    refine ⟨_, t, es, e, rfl, h, rfl, by omega, ?_⟩
    rw [hs]; exact .size es
  | get k =>
    simp only [inserts] at hn
    rcases searchP_leaf cmp h (by omega) k e with ⟨e', h1⟩ | ⟨q, m', b, e', h1, h2⟩
    · exact ⟨none, t, es, e', by simp only [stepP, getVerifyP, h1, Res.bind_ok, Option.map_none], h, rfl, by omega, .same _ _⟩
    · cases b with
      | false => exact ⟨some (.get none), t, es, e', by simp only [stepP, getVerifyP, h1, Res.bind_ok]; rfl, h, rfl, by omega, .absent _ _⟩
      | true =>
        obtain ⟨rfl, hm⟩ := h2 rfl
        have h' := h
        obtain ⟨p, hr, hl, hs, hnum, hv⟩ := h'
        refine ⟨some (.get (some es[m'].2)), t, es, e', ?_, h, rfl, by omega, .present _ _ _ (List.getElem_mem hm)⟩
        simp only [stepP, getVerifyP, h1, Res.bind_ok, if_true, hr, getVal, if_pos (show m' < 2 * t.degree - 1 by omega), hv m' hm, Option.map_some]
  | insertUnique k v =>
    simp only [inserts] at hn ⊢
    rcases searchP_leaf cmp h (by omega) k e with ⟨e', h1⟩ | ⟨q, m', b, e', h1, h2⟩
    · exact ⟨none, t, es, e', by simp only [stepP, h1, Res.bind_ok], h, rfl, by omega, .same _ _⟩
    · cases b with
      | true => exact ⟨some (.inserted false), t, es, e', by simp only [stepP, h1, Res.bind_ok, if_true], h, rfl, by omega, .refused _ _ _⟩
      | false =>
        have h' := h
        obtain ⟨p, hr, hl, hs, hnum, hv⟩ := h'
        obtain ⟨j, r, e2, hj, h3, h4⟩ := leafShiftP_spec cmp k es.length t p e' (by omega)
        have hi : insertP cmp e' t (k, v) = insertNonFullP cmp e' t (some p) (k, v) := by
          simp only [insertP, hr, reduceCtorEq, if_false, getNum, Res.bind_ok, hnum]
          rw [if_neg (by omega)]
        rw [insertNonFullP] at hi
        simp only [getLeaf, hl, Res.bind_ok, if_true, getNum, hnum, h3] at hi
        rcases h4 with rfl | rfl
        · simp only at hi
          have hst : stepP cmp e t (.insertUnique k v) = .ok (none, shifted t p es.length j, e2) := by
            simp only [stepP, h1, Res.bind_ok, hi, Bool.false_eq_true, if_false]
          rcases shifted_broken hr h hj with h5 | ⟨as, x, bs, y, h5, h6⟩
          · exact ⟨none, _, es, e2, hst, h5, rfl, by omega, .same _ _⟩
          · refine ⟨none, _, _, e2, hst, h6, rfl, by rw [h5]; simp, ?_⟩
            conv => arg 1; rw [h5]
            exact .lost _ _ _ _ _ _
        · have hd : es.length - j < 2 * (shifted t p es.length j).degree - 1 := by show _ < 2 * t.degree - 1; omega
          simp only [setVal, if_pos hd, Res.bind_ok, setNum] at hi
          obtain ⟨T, hT, q1, q2, q3, q4, q5, q6⟩ : ∃ T, insertP cmp e' t (k, v) = .ok (true, T, e2) ∧ T.root = some p ∧ T.h.isLeaf p = true ∧
              T.size = t.size + 1 ∧ T.h.num p = es.length + 1 ∧ T.degree = t.degree ∧
              ∀ i, T.h.values p i = if i = es.length - j then (k, v) else (shifted t p es.length j).h.values p i :=
            ⟨_, hi, hr, hl, rfl, by simp, rfl, fun i => by simp⟩
          refine ⟨some (.inserted true), T, es.take (es.length - j) ++ (k, v) :: es.drop (es.length - j), e2,
            by simp only [stepP, h1, Res.bind_ok, hT, Bool.false_eq_true, if_false, if_true], ?_, q5, by simp; omega, ?_⟩
          · have hlen : (es.take (es.length - j)).length = es.length - j := by simp
            refine OneLeaf.ext (p := p) q1 q2 ?_ ?_ ?_
            · rw [q3, hs]; simp; omega
            · rw [q4]; simp; omega
            · intro i hi
              have hi' : i < es.length + 1 := by simp at hi; omega
              rw [q6]
              simp only [shifted]
              by_cases a2 : i = es.length - j
              · subst a2
                rw [if_pos rfl, List.getElem?_append_right (by omega)]
                simp
              · rw [if_neg a2]
                by_cases a1 : i < es.length - j
                · rw [if_neg (by omega), hv i (by omega), List.getElem?_append_left (by omega), List.getElem?_take_of_lt a1, List.getElem?_eq_getElem (by omega)]
                · rw [if_pos (by refine ⟨?_, ?_, ?_⟩ <;> first | trivial | omega), hv (i - 1) (by omega), List.getElem?_append_right (by omega), hlen, List.getElem?_cons, if_neg (by omega),
                    List.getElem?_drop, ← List.getElem?_eq_getElem (by omega)]
                  congr 1; omega
          · conv => arg 1; rw [← List.take_append_drop (es.length - j) es]
            exact .added _ _ _ _

theorem runP_leaf (cmp : PComp K E) : ∀ (cs : List (PCall K V)) {t : Tree K V} {es : List (K × V)} (_ : OneLeaf t es)
    (_ : es.length + inserts cs ≤ 2 * t.degree - 1) (e : E),
    ∃ as t' es' e', runP cmp e t cs = .ok (as, t', e') ∧ OneLeaf t' es' ∧ RaisedRun es cs as es' := by
  intro cs
  induction cs with
  | nil => intro t es h _ e; exact ⟨[], t, es, e, rfl, h, .nil⟩
  | cons c cs ih =>
    intro t es h hn e
    have hi : inserts (c :: cs) = inserts [c] + inserts cs := by cases c <;> simp [inserts]; omega
    obtain ⟨a, t1, es1, e1, h1, h2, h3, h4, h5⟩ := stepP_leaf cmp h c (by omega) e
    obtain ⟨as, t2, es2, e2, h6, h7, h8⟩ := ih h2 (by rw [h3]; omega) e1
    exact ⟨a :: as, t2, es2, e2, by simp only [runP, h1, h6, Res.bind_ok], h7, .cons h5 h8⟩

/-! ### C138 -/

/-- C138 is false: the comparator panics in the third comparison of the shift of `InsertUnique` 5, after two entries were moved: 30 is gone, while `Size`
says 3. -/
theorem raised_insert_refuted :
    answersOnce 3 9 [.insertUnique 10 1, .insertUnique 20 2, .insertUnique 30 3, .get 30, .size] =
      .ok [some (.inserted true), some (.inserted true), some (.inserted true), some (.get (some 3)), some (.size 3)] ∧
    answersOnce 3 9 [.insertUnique 10 1, .insertUnique 20 2, .insertUnique 30 3, .insertUnique 5 4, .get 5, .get 10, .get 20, .get 30, .size] =
      .ok [some (.inserted true), some (.inserted true), some (.inserted true), none, some (.get none), some (.get (some 1)), some (.get (some 2)),
        some (.get none), some (.size 3)] := by
  constructor <;> cbv

/-- C138 is false: the comparator panics after `InsertUnique` 40 has split the root: the right half is gone, while `Size` says 3. -/
theorem raised_split_refuted :
    answersOnce 2 7 [.insertUnique 10 1, .insertUnique 20 2, .insertUnique 30 3, .insertUnique 40 4, .get 10, .get 20, .get 30, .get 40, .size] =
      .ok [some (.inserted true), some (.inserted true), some (.inserted true), none, some (.get (some 1)), some (.get (some 2)), some (.get none),
        some (.get none), some (.size 3)] := by cbv

/-- C138, lookups: `GetVerify` in which the comparator panics leaves the tree as it was, and so does `InsertUnique` if the panic comes while it looks for the
key. -/
theorem raised_search_partial (cmp : PComp K E) (e : E) (t : Tree K V) (k : K) (v : V) :
    (∀ a t' e', stepP cmp e t (.get k) = .ok (a, t', e') → t' = t) ∧
    (∀ e', searchP cmp e t k = .ok (none, e') → stepP cmp e t (.insertUnique k v) = .ok (none, t, e')) := by
  constructor
  · intro a t' e' h
    simp only [stepP] at h
    cases hg : getVerifyP cmp e t k with
    | panic => rw [hg] at h; cases h
    | hang => rw [hg] at h; cases h
    | ok r => rw [hg] at h; cases h; rfl
  · intro e' h; simp only [stepP, h, Res.bind_ok]

/-- C138, for trees of one leaf: a history of fewer than 2·degree insertions, and lookups, on a new tree, whose comparator panics whenever it likes, itself
never panics; and an `InsertUnique` in which it panicked changed nothing, or lost the last entry and doubled another one. -/
theorem raised_small_partial (cmp : PComp K E) {M : Nat} (hM : 1 ≤ M) (e : E) (cs : List (PCall K V)) (hc : inserts cs ≤ 2 * M - 1) :
    ∃ t0 as t es e', newMap M = .ok t0 ∧ runP cmp e t0 cs = .ok (as, t, e') ∧ OneLeaf t es ∧ RaisedRun [] cs as es := by
  have h0 : ∃ t0 : Tree K V, newMap M = .ok t0 ∧ OneLeaf t0 [] ∧ t0.degree = M := by
    rw [newMap, if_neg (by omega)]
    refine ⟨_, rfl, ⟨0, rfl, rfl, rfl, rfl, by simp⟩, rfl⟩
  obtain ⟨t0, h1, h2, h3⟩ := h0
  obtain ⟨as, t, es, e', h4, h5, h6⟩ := runP_leaf cmp cs h2 (by simp [h3]; omega) e
  exact ⟨t0, as, t, es, e', h1, h4, h5, h6⟩

/-- Both cases occur: the run of `raised_insert_refuted` has four insertions in a tree of degree 3. -/
example : inserts ([.insertUnique 10 1, .insertUnique 20 2, .insertUnique 30 3, .insertUnique 5 4] : List (PCall Nat Nat)) ≤ 2 * 3 - 1 := by decide

end Gds.BPlus
