import Verif.Go.Basic

/-! A pure description of a red-black tree with labels, independent of the model: no addresses, no heap, no pointers.
The repairs after an insertion and after a removal are the textbook ones. -/

namespace Gds.RBTree

/-- A coloured binary tree: `true` is black. -/
inductive CT (A : Type) where
  | nil
  | node (black : Bool) (l : CT A) (a : A) (r : CT A)
  deriving DecidableEq, Repr

/-- One step of the way from a subtree to the root: the parent's colour, label and other subtree. -/
inductive Up (A : Type) where
  /-- the subtree is the parent's left child -/
  | left (black : Bool) (a : A) (r : CT A)
  /-- the subtree is the parent's right child -/
  | right (black : Bool) (l : CT A) (a : A)

namespace CT
variable {A : Type}

/-- The labels in order. -/
def labels : CT A → List A
  | nil => []
  | node _ l a r => l.labels ++ a :: r.labels

/-- Red root. -/
def isRed : CT A → Bool
  | node false _ _ _ => true
  | _ => false

/-- The same tree with a black root. -/
def blacken : CT A → CT A
  | nil => nil
  | node _ l a r => node true l a r

/-- The whole tree, from a subtree and the way from it to the root. -/
def climb : List (Up A) → CT A → CT A
  | [], t => t
  | .left b a r :: up, t => climb up (node b t a r)
  | .right b l a :: up, t => climb up (node b l a t)

/-- Insertion repair: the subtree `t` has a red root, and its parent may be red too. -/
def fixPut : List (Up A) → CT A → CT A
  | [], t => t.blacken
  | .left true e s :: up, t => climb up (node true t e s)
  | .right true s e :: up, t => climb up (node true s e t)
  | [.left false e s], t => node false t e s
  | [.right false s e], t => node false s e t
  -- red uncle: recolour, go on from the grandparent; black uncle: one or two rotations
  | .left false e s :: .left _ g u :: up, t =>
    if u.isRed then fixPut up (node false (node true t e s) g u.blacken)
    else climb up (node true t e (node false s g u))
  | .right false s e :: .right _ u g :: up, t =>
    if u.isRed then fixPut up (node false u.blacken g (node true s e t))
    else climb up (node true (node false u g s) e t)
  | .right false s e :: .left _ g u :: up, t =>
    if u.isRed then fixPut up (node false (node true s e t) g u.blacken)
    else match t with
      | nil => climb up (node true (node false s e nil) g u)
      | node _ a x b => climb up (node true (node false s e a) x (node false b g u))
  | .left false e s :: .right _ u g :: up, t =>
    if u.isRed then fixPut up (node false u.blacken g (node true t e s))
    else match t with
      | nil => climb up (node true u g (node false nil e s))
      | node _ a x b => climb up (node true (node false u g a) x (node false b e s))

/-- Removal repair at a parent of colour `b` with label `e`: its left subtree `t` is one black node short, its right subtree has a
black root.  The second component says that the result is still one black node short. -/
def tailL (b : Bool) (t : CT A) (e : A) : CT A → CT A × Bool
  | nil => (node b t e nil, false)
  | node _ sl x sr =>
    if sr.isRed then (node b (node true t e sl) x sr.blacken, false)
    else match sl with
      | node false c y d => (node b (node true t e c) y (node true d x sr), false)
      | sl => (node true t e (node false sl x sr), b)

/-- The mirror image of `tailL`: the right subtree `t` is short. -/
def tailR (b : Bool) (s : CT A) (e : A) (t : CT A) : CT A × Bool :=
  match s with
  | nil => (node b nil e t, false)
  | node _ sl x sr =>
    if sl.isRed then (node b sl.blacken x (node true sr e t), false)
    else match sr with
      | node false c y d => (node b (node true sl x c) y (node true d e t), false)
      | sr => (node true (node false sl x sr) e t, b)

/-- Removal repair: the subtree `t`, whose root is black, is one black node short. -/
def fixDel : List (Up A) → CT A → CT A
  | [], t => t.blacken
  | .left b e s :: up, t =>
    match s with
    | node false sl x sr => climb up (node true (tailL false t e sl).1 x sr)
    | s => if (tailL b t e s).2 then fixDel up (tailL b t e s).1 else climb up (tailL b t e s).1
  | .right b s e :: up, t =>
    match s with
    | node false sl x sr => climb up (node true sl x (tailR false sr e t).1)
    | s => if (tailR b s e t).2 then fixDel up (tailR b s e t).1 else climb up (tailR b s e t).1

/-- A node of colour `b` with one subtree `t` goes out; `t` takes its place. -/
def takeOut (up : List (Up A)) (b : Bool) (t : CT A) : CT A :=
  if b then if t.isRed then climb up t.blacken else fixDel up t else climb up t

/-- The way to the leftmost node of a subtree, and the subtree there. -/
def leftmost (up : List (Up A)) : CT A → List (Up A) × CT A
  | nil => (up, nil)
  | node b nil a r => (up, node b nil a r)
  | node b (node b' l' a' r') a r => leftmost (.left b a r :: up) (node b' l' a' r')

/-- The first label. -/
def first : CT A → Option A
  | nil => none
  | node _ nil a _ => some a
  | node _ (node b' l' a' r') _ _ => first (node b' l' a' r')

/-- Removing the root of a subtree: the label the record that leaves carries, and the whole tree.  With two children the
root takes over the next label, and the record that leaves is the one of that label. -/
def removeAt (up : List (Up A)) : CT A → Option A × CT A
  | nil => (none, climb up nil)
  | node b nil a r => (some a, takeOut up b r)
  | node b l a nil => (some a, takeOut up b l)
  | node b l _ r =>
    match first r with
    | none => (none, climb up nil)
    | some x =>
      match leftmost (.right b l x :: up) r with
      | (up', node b' _ _ r') => (some x, takeOut up' b' r')
      | (up', nil) => (some x, climb up' nil)

end CT

variable {K V : Type}

/-- Where the search for a key ends: at a record that compares equal, or at an empty place. -/
def seek (cmp : Compare K) (k : K) (up : List (Up (K × V))) : CT (K × V) → List (Up (K × V)) × CT (K × V)
  | .nil => (up, .nil)
  | .node b l e r =>
    if cmp k e.1 = -1 then seek cmp k (.left b e r :: up) l
    else if cmp k e.1 = 1 then seek cmp k (.right b l e :: up) r
    else (up, .node b l e r)

/-- The tree as a value: the records in it, the number `Size` reports, the records taken out that the user still holds. -/
structure FT (K V : Type) where
  tree : CT (K × V)
  size : Int
  held : List (K × V)

/-- What is stored under a key, as far as the search sees it. -/
def FT.get (cmp : Compare K) (s : FT K V) (k : K) : Option V :=
  match (seek cmp k [] s.tree).2 with
  | .nil => none
  | .node _ _ e _ => some e.2

/-- Putting an entry: a new record always becomes the RIGHT child of the last record the search passed, replacing whatever was
there. -/
def putTree (cmp : Compare K) (k : K) (v : V) (t : CT (K × V)) : Bool × CT (K × V) :=
  match seek cmp k [] t with
  | (up, .node b l e r) => (false, CT.climb up (.node b l (e.1, v) r))
  | ([], .nil) => (true, .node true .nil (k, v) .nil)
  | (.left b e _ :: up, .nil) => (true, CT.fixPut (.right b .nil e :: up) (.node false .nil (k, v) .nil))
  | (.right b l e :: up, .nil) => (true, CT.fixPut (.right b l e :: up) (.node false .nil (k, v) .nil))

/-- Deleting a key: the entry of the record that leaves. -/
def delTree (cmp : Compare K) (k : K) (t : CT (K × V)) : Option (K × V) × CT (K × V) :=
  match seek cmp k [] t with
  | (_, .nil) => (none, t)
  | (up, .node b l e r) => CT.removeAt up (.node b l e r)

/-- The calls a user makes. -/
inductive Call (K V : Type) where
  | put (k : K) (v : V)
  | get (k : K)
  | has (k : K)
  | size
  | isEmpty
  | delete (k : K)
  | deleteKeys (ks : List K)
  | deleteMapping (k : K) (v : V) (valComp : Compare V)
  | clear
  /-- putting back the `j`-th of the records still held -/
  | putNode (j : Nat)

/-- The answers. -/
inductive Ans (K V : Type) where
  | unit
  | bool (b : Bool)
  | value (v : Option V)
  | entry (e : Option (K × V))
  | number (n : Int)
  deriving DecidableEq, Repr

/-- Deleting several keys: how many were found, and the tree. -/
def delKeys (cmp : Compare K) : List K → FT K V → Nat × FT K V
  | [], s => (0, s)
  | k :: ks, s =>
    match delTree cmp k s.tree with
    | (none, _) => delKeys cmp ks s
    | (some _, t) =>
      let r := delKeys cmp ks { s with tree := t, size := s.size - 1 }
      (r.1 + 1, r.2)

/-- One call. -/
def FT.step (cmp : Compare K) (s : FT K V) : Call K V → Ans K V × FT K V
  | .put k v =>
    let r := putTree cmp k v s.tree
    (.bool r.1, { s with tree := r.2, size := if r.1 then s.size + 1 else s.size })
  | .get k => (.value (s.get cmp k), s)
  | .has k => (.bool (s.get cmp k).isSome, s)
  | .size => (.number s.size, s)
  | .isEmpty => (.bool (s.size = 0), s)
  | .delete k =>
    match delTree cmp k s.tree with
    | (none, _) => (.entry none, s)
    | (some e, t) => (.entry (some e), { tree := t, size := s.size - 1, held := e :: s.held })
  | .deleteKeys ks =>
    let r := delKeys cmp ks s
    (.number r.1, r.2)
  | .deleteMapping k v vc =>
    match s.get cmp k with
    | none => (.bool false, s)
    | some w => if vc v w = 0 then (.bool true, { s with tree := (delTree cmp k s.tree).2, size := s.size - 1 }) else (.bool false, s)
  | .clear => (.unit, { s with tree := .nil, size := 0 })
  | .putNode j =>
    match s.held[j]? with
    | none => (.unit, s)
    | some e =>
      -- `PutNode` does not count the record
      let r := putTree cmp e.1 e.2 s.tree
      (.bool r.1, { s with tree := r.2, held := if r.1 then s.held.eraseIdx j else s.held })

/-- All answers of a history, and the tree after it. -/
def FT.run (cmp : Compare K) (s : FT K V) : List (Call K V) → List (Ans K V) × FT K V
  | [] => ([], s)
  | c :: cs =>
    let r := s.step cmp c
    let q := r.2.run cmp cs
    (r.1 :: q.1, q.2)

/-- A new tree. -/
def FT.empty : FT K V := { tree := .nil, size := 0, held := [] }

end Gds.RBTree
