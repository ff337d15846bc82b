import Verif.BPlus.Least
import Verif.Fn.Props

/-! Evaluation of the model on concrete histories: copies of the recursive functions with a step budget, which the kernel can
    evaluate, and the proof that whatever they answer the functions of the model answer. -/

namespace Gds.BPlus.Eval
open Tree
variable {K V : Type} [Inhabited K] [Inhabited V]

/-- `a` ran out of budget or agrees with `b`. -/
def Le {α : Type} (a b : Res α) : Prop := a = .hang ∨ a = b

theorem Le.refl {α : Type} (a : Res α) : Le a a := Or.inr rfl

theorem Le.bind {α β : Type} {a a' : Res α} {f g : α → Res β} (h : Le a a') (hf : ∀ x, Le (f x) (g x)) : Le (a >>= f) (a' >>= g) := by
  rcases h with h | h
  · left; rw [h]; rfl
  · subst h
    cases a with
    | ok x => exact hf x
    | panic k => exact Or.inr rfl
    | hang => exact Or.inr rfl

theorem Le.ite {α : Type} {c : Prop} [Decidable c] {a b a' b' : Res α} (h1 : Le a a') (h2 : Le b b') : Le (if c then a else b) (if c then a' else b') := by
  split
  · exact h1
  · exact h2

theorem Le.of_ne {α : Type} {a b : Res α} (h : Le a b) (hn : a ≠ .hang) : b = a := by
  rcases h with h | h
  · exact absurd h hn
  · exact h.symm

/-- `bsearch` with a budget. -/
def bsearchF (fuel : Nat) (cmp : Compare K) (t : Tree K V) (node : Option Nat) (key : K) (l hi mid : Nat) : Res (Nat × Nat × Bool) :=
  match fuel with
  | 0 => .hang
  | fuel + 1 =>
    if l < hi then do
      let mid := (l + (hi - 1)) / 2
      let v ← t.getVal node mid
      let c := cmp key v.1
      if c < 0 then bsearchF fuel cmp t node key l mid mid
      else if 0 < c then bsearchF fuel cmp t node key (mid + 1) hi mid
      else .ok (l, mid, true)
    else .ok (l, mid, false)

theorem bsearchF_le (cmp : Compare K) (t : Tree K V) (node : Option Nat) (key : K) : ∀ (fuel l hi mid : Nat),
    Le (bsearchF fuel cmp t node key l hi mid) (bsearch cmp t node key l hi mid)
  | 0, _, _, _ => Or.inl rfl
  | fuel + 1, l, hi, mid => by
    rw [bsearchF, bsearch]
    refine Le.ite (Le.bind (Le.refl _) (fun v => ?_)) (Le.refl _)
    exact Le.ite (bsearchF_le cmp t node key fuel _ _ _) (Le.ite (bsearchF_le cmp t node key fuel _ _ _) (Le.refl _))

/-- `insertNonFull` with a budget. -/
def insertNonFullF (fuel : Nat) (cmp : Compare K) (t : Tree K V) (node : Option Nat) (p : K × V) : Res (Tree K V) :=
  match fuel with
  | 0 => .hang
  | fuel + 1 => do
    let lf ← t.getLeaf node
    if lf then
      let n ← t.getNum node
      let (t, pos) ← leafShift cmp t node p.1 n
      let t ← t.setVal node pos p
      let t ← t.setNum node (n + 1)
      .ok { t with size := t.size + 1 }
    else
      let n ← t.getNum node
      let pos ← descendPos cmp t node p.1 n
      let c ← t.getKid node pos
      let cn ← t.getNum c
      if 2 * t.degree - 1 = cn then
        let t ← splitChild t node c pos
        let v ← t.getVal node pos
        let c ← t.getKid node (if cmp v.1 p.1 < 0 then pos + 1 else pos)
        insertNonFullF fuel cmp t c p
      else
        insertNonFullF fuel cmp t c p

/-- `searchLoop` with a budget. -/
def searchLoopF (fuel : Nat) (cmp : Compare K) (t : Tree K V) (node : Option Nat) (key : K) : Res (Option Nat × Nat × Bool) :=
  match fuel with
  | 0 => .hang
  | fuel + 1 => do
    let n ← t.getNum node
    let (l, mid, exist) ← bsearchF 100 cmp t node key 0 n 0
    let lf ← t.getLeaf node
    if lf then
      if exist then .ok (node, mid, true) else .ok (node, l, false)
    else
      let c ← t.getKid node l
      searchLoopF fuel cmp t c key

/-- `deleteNonOne` with a budget. -/
def deleteNonOneF (fuel : Nat) (cmp : Compare K) (t : Tree K V) (root : Option Nat) (key : K) : Res (Tree K V) :=
  match fuel with
  | 0 => .hang
  | fuel + 1 => do
    let M := t.degree
    let lf ← t.getLeaf root
    let n ← t.getNum root
    let i ← findSlot cmp t root key 0 n
    if lf then
      let v ← t.getVal root i
      if cmp key v.1 = 0 then
        let t ← t.copyValsUp root i root (i + 1) (2 * M - 1 - (i + 1))
        let t ← t.setNum root (n - 1)
        .ok { t with size := t.size - 1 }
      else .ok t
    else
      let y ← t.getKid root i
      let z ← if i < n then t.getKid root (i + 1) else .ok none
      let s ← if 0 < i then t.getKid root (i - 1) else .ok none
      let yn ← t.getNum y
      if yn = M - 1 then
        let sn ← if 0 < i then t.getNum s else .ok 0
        if 0 < i ∧ M - 1 < sn then
          let t ← shiftToRightChild t root s y (i - 1)
          deleteNonOneF fuel cmp t y key
        else
          let zn ← if i < n then t.getNum z else .ok 0
          if i < n ∧ M - 1 < zn then
            let t ← shiftToLeftChild t root y z i
            deleteNonOneF fuel cmp t y key
          else if 0 < i then
            let t ← mergeChild t root s y (i - 1)
            deleteNonOneF fuel cmp t s key
          else
            let t ← mergeChild t root y z i
            deleteNonOneF fuel cmp t y key
      else
        deleteNonOneF fuel cmp t y key

/-- `minLoop` with a budget. -/
def minLoopF (fuel : Nat) (t : Tree K V) (y : Option Nat) : Res (Option Nat) :=
  match fuel with
  | 0 => .hang
  | fuel + 1 => do
    let lf ← t.getLeaf y
    if lf = false then
      let c ← t.getKid y 0
      minLoopF fuel t c
    else .ok y

/-- `maxLoop` with a budget. -/
def maxLoopF (fuel : Nat) (t : Tree K V) (y : Option Nat) : Res (Option Nat) :=
  match fuel with
  | 0 => .hang
  | fuel + 1 => do
    let lf ← t.getLeaf y
    if lf = false then
      let n ← t.getNum y
      let c ← t.getKid y n
      maxLoopF fuel t c
    else .ok y


/-- Compare two bodies that differ in the recursive calls only. -/
macro "le_body" ih:term : tactic => `(tactic| repeat' with_reducible first | apply Le.ite | (apply Le.bind; swap; intro _) | apply $ih | apply bsearchF_le | exact Le.refl _)

theorem insertNonFullF_le (cmp : Compare K) (p : K × V) : ∀ (fuel : Nat) (t : Tree K V) (node : Option Nat),
    Le (insertNonFullF fuel cmp t node p) (insertNonFull cmp t node p)
  | 0, _, _ => Or.inl rfl
  | fuel + 1, t, node => by
    rw [insertNonFullF, insertNonFull]
    le_body insertNonFullF_le cmp p fuel

theorem searchLoopF_le (cmp : Compare K) (key : K) : ∀ (fuel : Nat) (t : Tree K V) (node : Option Nat),
    Le (searchLoopF fuel cmp t node key) (searchLoop cmp t node key)
  | 0, _, _ => Or.inl rfl
  | fuel + 1, t, node => by
    rw [searchLoopF, searchLoop]
    le_body searchLoopF_le cmp key fuel

theorem deleteNonOneF_le (cmp : Compare K) (key : K) : ∀ (fuel : Nat) (t : Tree K V) (node : Option Nat),
    Le (deleteNonOneF fuel cmp t node key) (deleteNonOne cmp t node key)
  | 0, _, _ => Or.inl rfl
  | fuel + 1, t, node => by
    rw [deleteNonOneF, deleteNonOne]
    le_body deleteNonOneF_le cmp key fuel

/-- `insert` with a budget. -/
def insertF (cmp : Compare K) (t : Tree K V) (p : K × V) : Res (Tree K V) := do
  if t.root = none then .ok { t with root := none }
  else
    let n ← t.getNum t.root
    if t.degree * 2 - 1 = n then
      let root := t.root
      let node := some t.fresh
      let t := newNode t
      let t ← t.setLeaf node false
      let t ← t.setKid node 0 root
      let t ← splitChild t node root 0
      let t ← insertNonFullF 20 cmp t node p
      .ok { t with root := node }
    else
      insertNonFullF 20 cmp t t.root p

theorem insertF_le (cmp : Compare K) (t : Tree K V) (p : K × V) : Le (insertF cmp t p) (insert cmp t p) := by
  unfold insertF insert
  le_body insertNonFullF_le cmp p 20

/-- `search` with a budget. -/
def searchF (cmp : Compare K) (t : Tree K V) (key : K) : Res (Option Nat × Nat × Bool) :=
  if t.size = 0 then .ok (none, 0, false) else searchLoopF 20 cmp t t.root key

theorem searchF_le (cmp : Compare K) (t : Tree K V) (key : K) : Le (searchF cmp t key) (search cmp t key) := by
  unfold searchF search
  le_body searchLoopF_le cmp key 20

/-- `containsKey` with a budget. -/
def containsKeyF (cmp : Compare K) (t : Tree K V) (key : K) : Res Bool := do
  let (_, _, exist) ← searchF cmp t key
  .ok exist

theorem containsKeyF_le (cmp : Compare K) (t : Tree K V) (key : K) : Le (containsKeyF cmp t key) (containsKey cmp t key) := by
  unfold containsKeyF containsKey
  le_body searchF_le cmp

/-- `getVerify` with a budget. -/
def getVerifyF (cmp : Compare K) (t : Tree K V) (key : K) : Res (V × Bool) := do
  let (node, idx, exist) ← searchF cmp t key
  if exist then
    let v ← t.getVal node idx
    .ok (v.2, true)
  else .ok (default, false)

theorem getVerifyF_le (cmp : Compare K) (t : Tree K V) (key : K) : Le (getVerifyF cmp t key) (getVerify cmp t key) := by
  unfold getVerifyF getVerify
  le_body searchF_le cmp

/-- `get` with a budget. -/
def getF (cmp : Compare K) (t : Tree K V) (key : K) : Res V := do
  let (node, idx, exist) ← searchF cmp t key
  if exist then
    let v ← t.getVal node idx
    .ok v.2
  else .ok default

theorem getF_le (cmp : Compare K) (t : Tree K V) (key : K) : Le (getF cmp t key) (get cmp t key) := by
  unfold getF get
  le_body searchF_le cmp

/-- `getEntry` with a budget. -/
def getEntryF (cmp : Compare K) (t : Tree K V) (key : K) : Res (Option (K × V)) := do
  let (node, idx, exist) ← searchF cmp t key
  if exist then
    let v ← t.getVal node idx
    .ok (some v)
  else .ok none

theorem getEntryF_le (cmp : Compare K) (t : Tree K V) (key : K) : Le (getEntryF cmp t key) (getEntry cmp t key) := by
  unfold getEntryF getEntry
  le_body searchF_le cmp

/-- `insertEqual` with a budget. -/
def insertEqualF (cmp : Compare K) (t : Tree K V) (key : K) (val : V) : Res (Tree K V × Bool) := do
  let t ← insertF cmp t (key, val)
  .ok (t, true)

theorem insertEqualF_le (cmp : Compare K) (t : Tree K V) (key : K) (val : V) : Le (insertEqualF cmp t key val) (insertEqual cmp t key val) := by
  unfold insertEqualF insertEqual
  le_body insertF_le cmp

/-- `insertUnique` with a budget. -/
def insertUniqueF (cmp : Compare K) (t : Tree K V) (key : K) (val : V) : Res (Tree K V × Bool) := do
  let b ← containsKeyF cmp t key
  if !b then
    let t ← insertF cmp t (key, val)
    .ok (t, true)
  else .ok (t, false)

theorem insertUniqueF_le (cmp : Compare K) (t : Tree K V) (key : K) (val : V) : Le (insertUniqueF cmp t key val) (insertUnique cmp t key val) := by
  unfold insertUniqueF insertUnique
  refine Le.bind (containsKeyF_le cmp t key) (fun b => ?_)
  le_body insertF_le cmp

/-- `deleteRoot` with a budget. -/
def deleteRootF (cmp : Compare K) (t : Tree K V) (key : K) : Res (Tree K V) := do
  let root := t.root
  let n ← t.getNum root
  if 1 = n then
    let y ← t.getKid root 0
    let z ← t.getKid root 1
    if y ≠ none ∧ z ≠ none then
      let yn ← t.getNum y
      let zn ← t.getNum z
      if t.degree - 1 = yn ∧ t.degree - 1 = zn then
        let t ← mergeChild t root y z 0
        let t ← deleteNonOneF 20 cmp t y key
        .ok { t with root := y }
      else deleteNonOneF 20 cmp t root key
    else deleteNonOneF 20 cmp t root key
  else deleteNonOneF 20 cmp t root key

theorem deleteRootF_le (cmp : Compare K) (t : Tree K V) (key : K) : Le (deleteRootF cmp t key) (deleteRoot cmp t key) := by
  unfold deleteRootF deleteRoot
  le_body deleteNonOneF_le cmp key 20

/-- `delete` with a budget. -/
def deleteF (cmp : Compare K) (t : Tree K V) (key : K) : Res (Tree K V × Bool) := do
  let b ← containsKeyF cmp t key
  if b then
    let t ← deleteRootF cmp t key
    .ok (t, true)
  else .ok (t, false)

theorem deleteF_le (cmp : Compare K) (t : Tree K V) (key : K) : Le (deleteF cmp t key) (delete cmp t key) := by
  unfold deleteF delete
  refine Le.bind (containsKeyF_le cmp t key) (fun b => ?_)
  le_body deleteRootF_le cmp

/-- `deleteByWholeMapping` with a budget. -/
def deleteByWholeMappingF (cmp : Compare K) (t : Tree K V) (key : K) (val : V) (compV : Compare V) : Res (Tree K V × Bool) := do
  let (node, idx, exist) ← searchF cmp t key
  if exist then
    let v ← t.getVal node idx
    if compV v.2 val < 0 then deleteF cmp t key else .ok (t, false)
  else .ok (t, false)

theorem deleteByWholeMappingF_le (cmp : Compare K) (t : Tree K V) (key : K) (val : V) (compV : Compare V) :
    Le (deleteByWholeMappingF cmp t key val compV) (deleteByWholeMapping cmp t key val compV) := by
  unfold deleteByWholeMappingF deleteByWholeMapping
  refine Le.bind (searchF_le cmp t key) (fun b => ?_)
  obtain ⟨b1, b2, b3⟩ := b
  le_body deleteF_le cmp

/-- `deleteAll` with a budget. -/
def deleteAllF (cmp : Compare K) (t : Tree K V) (changed : Nat) : List K → Res (Tree K V × Nat)
  | [] => .ok (t, changed)
  | k :: ks => do
    let (t, b) ← deleteF cmp t k
    deleteAllF cmp t (if b then changed + 1 else changed) ks

theorem deleteAllF_le (cmp : Compare K) : ∀ (ks : List K) (t : Tree K V) (n : Nat), Le (deleteAllF cmp t n ks) (deleteAll cmp t n ks)
  | [], _, _ => Le.refl _
  | k :: ks, t, n => by
    unfold deleteAllF deleteAll
    refine Le.bind (deleteF_le cmp t k) (fun b => ?_)
    exact deleteAllF_le cmp ks _ _

/-- `step` with a budget. -/
def stepF (cmp : Compare K) (t : Tree K V) : Op K V → Res (Tree K V × Out)
  | .insertEqual k v => do let (t, b) ← insertEqualF cmp t k v; .ok (t, .bool b)
  | .insertUnique k v => do let (t, b) ← insertUniqueF cmp t k v; .ok (t, .bool b)
  | .delete k => do let (t, b) ← deleteF cmp t k; .ok (t, .bool b)
  | .deleteEntryByKey e => do let (t, b) ← deleteF cmp t e.1; .ok (t, .bool b)
  | .deleteByWholeMapping k v c => do let (t, b) ← deleteByWholeMappingF cmp t k v c; .ok (t, .bool b)
  | .deleteAll ks => do let (t, n) ← deleteAllF cmp t 0 ks; .ok (t, .num n)
  | .clear => .ok (clear t, .unit)

theorem stepF_le (cmp : Compare K) (t : Tree K V) (op : Op K V) : Le (stepF cmp t op) (step cmp t op) := by
  cases op with
  | insertEqual k v => exact Le.bind (insertEqualF_le _ _ _ _) (fun _ => Le.refl _)
  | insertUnique k v => exact Le.bind (insertUniqueF_le _ _ _ _) (fun _ => Le.refl _)
  | delete k => exact Le.bind (deleteF_le _ _ _) (fun _ => Le.refl _)
  | deleteEntryByKey e => exact Le.bind (deleteF_le _ _ _) (fun _ => Le.refl _)
  | deleteByWholeMapping k v c => exact Le.bind (deleteByWholeMappingF_le _ _ _ _ _) (fun _ => Le.refl _)
  | deleteAll ks => exact Le.bind (deleteAllF_le _ _ _ _) (fun _ => Le.refl _)
  | clear => exact Le.refl _

/-- `run` with a budget. -/
def runF (cmp : Compare K) (t : Tree K V) : List (Op K V) → Res (Tree K V × List Out)
  | [] => .ok (t, [])
  | op :: ops => do
    let (t, o) ← stepF cmp t op
    let (t, os) ← runF cmp t ops
    .ok (t, o :: os)

theorem runF_le (cmp : Compare K) : ∀ (ops : List (Op K V)) (t : Tree K V), Le (runF cmp t ops) (run cmp t ops)
  | [], _ => Le.refl _
  | op :: ops, t => by
    unfold runF run
    refine Le.bind (stepF_le cmp t op) (fun x => ?_)
    exact Le.bind (runF_le cmp ops x.1) (fun _ => Le.refl _)

/-- `runNew` with a budget. -/
def runNewF (cmp : Compare K) (M : Nat) (ops : List (Op K V)) : Res (Tree K V × List Out) := do
  let t ← newMap M
  runF cmp t ops

theorem runNewF_le (cmp : Compare K) (M : Nat) (ops : List (Op K V)) : Le (runNewF cmp M ops) (runNew cmp M ops) :=
  Le.bind (Le.refl _) (fun t => runF_le cmp ops t)

/-- Does the history return, with answers and tree passing the test? -/
def check (cmp : Compare K) (M : Nat) (ops : List (Op K V)) (p : Tree K V → List Out → Bool) : Bool :=
  match runNewF cmp M ops with
  | .ok (t, os) => p t os
  | _ => false

theorem of_check {cmp : Compare K} {M : Nat} {ops : List (Op K V)} {p : Tree K V → List Out → Bool} (h : check cmp M ops p = true) :
    ∃ t os, runNew cmp M ops = .ok (t, os) ∧ p t os = true := by
  unfold check at h
  have hle := runNewF_le cmp M ops
  split at h
  · rename_i t os e
    rw [e] at hle
    exact ⟨t, os, hle.of_ne (by simp), h⟩
  · simp at h

/-! ### Reading a tree -/

/-- The depth, following the first children. -/
def depthF (h : Heap K V) : Nat → Nat → Option Nat
  | 0, _ => none
  | fuel + 1, p => if h.isLeaf p then some 0 else
    match h.children p 0 with
    | none => none
    | some c => (depthF h fuel c).map (· + 1)

/-- The leaves. -/
def leafList (h : Heap K V) : Nat → Nat → List Nat
  | 0, p => [p]
  | d + 1, p => (List.range (h.num p + 1)).flatMap (fun i => leafList h d ((h.children p i).getD 0))

/-- The entries in the leaves of a tree. -/
def entriesF (t : Tree K V) : Option (List (K × V)) :=
  match t.root with
  | none => none
  | some p => (depthF t.h 20 p).map (fun d => contents t.h (leafList t.h d p))

omit [Inhabited K] [Inhabited V] in
theorem depthF_eq {h : Heap K V} {M d p : Nat} {l : List Nat} {ss : List (K × V)} (s : Sub h M d p l ss) : ∀ {fuel d'}, depthF h fuel p = some d' → d = d' := by
  induction s with
  | leaf h1 h2 =>
    intro fuel d' e
    cases fuel with
    | zero => simp [depthF] at e
    | succ fuel => simpa [depthF, h1] using e
  | @inner d p c l ss h1 h2 h3 h4 ih =>
    intro fuel d' e
    cases fuel with
    | zero => simp [depthF] at e
    | succ fuel =>
      have hc := (h3 0 (Nat.zero_le _)).1
      simp only [depthF, h1, hc, Bool.false_eq_true, if_false] at e
      obtain ⟨x, hx, rfl⟩ := Option.map_eq_some_iff.1 e
      rw [ih 0 (Nat.zero_le _) hx]

omit [Inhabited K] [Inhabited V] in
theorem leafList_eq {h : Heap K V} {M d p : Nat} {l : List Nat} {ss : List (K × V)} (s : Sub h M d p l ss) : leafList h d p = l := by
  induction s with
  | leaf h1 h2 => rfl
  | @inner d p c l ss h1 h2 h3 h4 ih =>
    rw [leafList]
    refine List.flatMap_congr (fun i hi => ?_)
    have hi : i ≤ h.num p := by have := List.mem_range.1 hi; omega
    rw [(h3 i hi).1]
    exact ih i hi

omit [Inhabited K] [Inhabited V] in
theorem entriesF_eq {t : Tree K V} {d : Nat} {l : List Nat} {es ss xs : List (K × V)} (h : Holds t d l es ss) (e : entriesF t = some xs) : es = xs := by
  obtain ⟨p, hp, hs, -⟩ := h.shape
  unfold entriesF at e
  rw [hp] at e
  simp only at e
  obtain ⟨d', hd, hx⟩ := Option.map_eq_some_iff.1 e
  have := depthF_eq hs hd
  subst this
  rw [h.entries, ← hx, leafList_eq hs]

end Gds.BPlus.Eval
