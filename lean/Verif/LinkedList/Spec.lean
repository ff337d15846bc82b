import Verif.LinkedList.Model

/-! Specification of the linked list: every list is a sequence of element names. -/

namespace Gds.LinkedList
variable {T : Type _}

/-- Abstract state: which names are lists, the sequence of elements of every list, the value of every element,
    the elements that were in a list when it was cleared, and whether a list has been used since it was created
    as a zero value or cleared. -/
structure Abs (T : Type _) where
  fresh : Nat
  isList : Nat → Bool
  seq : Nat → List Nat
  value : Nat → T
  stale : Nat → Bool
  inited : Nat → Bool

/-- `x` put right before / after `m`. -/
def putBefore (m x : Nat) : List Nat → List Nat
  | [] => []
  | y :: ys => if y = m then x :: y :: ys else y :: putBefore m x ys
def putAfter (m x : Nat) : List Nat → List Nat
  | [] => []
  | y :: ys => if y = m then y :: x :: ys else y :: putAfter m x ys

/-- The element after / before `e` in a sequence. -/
def following (e : Nat) : List Nat → Option Nat
  | [] => none
  | y :: ys => if y = e then ys.head? else following e ys
def preceding (e : Nat) (xs : List Nat) : Option Nat := following e xs.reverse

namespace Abs

def setSeq (a : Abs T) (l : Nat) (xs : List Nat) : Abs T :=
  { a with seq := fun k => if k = l then xs else a.seq k }

def touch (a : Abs T) (l : Nat) : Abs T :=
  { a with inited := fun k => if k = l then true else a.inited k }

/-- New elements `fresh, fresh+1, …` carrying the given values. -/
def alloc (a : Abs T) (vs : List T) : Abs T :=
  { a with
    fresh := a.fresh + vs.length
    value := fun k => if h : a.fresh ≤ k ∧ k - a.fresh < vs.length then vs[k - a.fresh]'h.2 else a.value k }

def ids (a : Abs T) (n : Nat) : List Nat := (List.range n).map (a.fresh + ·)

/-- The list an element is in. -/
def owner (a : Abs T) (e : Nat) : Option Nat := (List.range a.fresh).find? (fun l => decide (e ∈ a.seq l))

/-- A new, empty list. -/
def addList (a : Abs T) (z : T) (ini : Bool) : Abs T :=
  { a.alloc [z] with
    isList := fun k => if k = a.fresh then true else a.isList k
    inited := fun k => if k = a.fresh then ini else a.inited k }

end Abs

/-- What the caller may pass: lists are lists, elements are elements that have not been cleared away; ToSlice
    only on a list that has been initialised (see `toSlice_uninitialised_refuted`). -/
def Legal (a : Abs T) : Op T → Prop
  | .newList | .zeroList => True
  | .pushFront l _ | .pushBack l _ | .init l | .clear l | .len l | .front l | .back l => a.isList l = true
  | .insertBefore l _ e | .insertAfter l _ e | .remove l e | .moveToFront l e | .moveToBack l e =>
    a.isList l = true ∧ e < a.fresh ∧ a.isList e = false ∧ a.stale e = false
  | .moveBefore l e m | .moveAfter l e m =>
    a.isList l = true ∧ (e < a.fresh ∧ a.isList e = false ∧ a.stale e = false) ∧
      m < a.fresh ∧ a.isList m = false ∧ a.stale m = false
  | .pushBackList l o | .pushFrontList l o => a.isList l = true ∧ a.isList o = true
  | .setValue e _ => e < a.fresh ∧ a.isList e = false
  | .next e | .prev e | .value e => e < a.fresh ∧ a.isList e = false ∧ a.stale e = false
  | .toSlice l => a.isList l = true ∧ a.inited l = true

/-- One operation on sequences. -/
def specStep (z : T) (a : Abs T) : Op T → Abs T × Out T
  | .newList => (a.addList z true, .ptr (some a.fresh))
  | .zeroList => (a.addList z false, .ptr (some a.fresh))
  | .pushFront l v => (((a.alloc [v]).setSeq l (a.fresh :: a.seq l)).touch l, .ptr (some a.fresh))
  | .pushBack l v => (((a.alloc [v]).setSeq l (a.seq l ++ [a.fresh])).touch l, .ptr (some a.fresh))
  | .insertBefore l v m =>
    if m ∈ a.seq l then ((a.alloc [v]).setSeq l (putBefore m a.fresh (a.seq l)), .ptr (some a.fresh)) else (a, .ptr none)
  | .insertAfter l v m =>
    if m ∈ a.seq l then ((a.alloc [v]).setSeq l (putAfter m a.fresh (a.seq l)), .ptr (some a.fresh)) else (a, .ptr none)
  | .remove l e => (a.setSeq l ((a.seq l).erase e), .val (a.value e))
  | .moveToFront l e => (if e ∈ a.seq l then a.setSeq l (e :: (a.seq l).erase e) else a, .unit)
  | .moveToBack l e => (if e ∈ a.seq l then a.setSeq l ((a.seq l).erase e ++ [e]) else a, .unit)
  | .moveBefore l e m =>
    (if e ∈ a.seq l ∧ m ∈ a.seq l ∧ e ≠ m then a.setSeq l (putBefore m e ((a.seq l).erase e)) else a, .unit)
  | .moveAfter l e m =>
    (if e ∈ a.seq l ∧ m ∈ a.seq l ∧ e ≠ m then a.setSeq l (putAfter m e ((a.seq l).erase e)) else a, .unit)
  | .pushBackList l o =>
    (((a.alloc ((a.seq o).map a.value)).setSeq l (a.seq l ++ a.ids (a.seq o).length)).touch l, .unit)
  | .pushFrontList l o =>
    -- the copies are made from the last element of `o` to the first
    (((a.alloc ((a.seq o).map a.value).reverse).setSeq l ((a.ids (a.seq o).length).reverse ++ a.seq l)).touch l, .unit)
  | .init l =>
    ({ a.setSeq l [] with stale := fun e => a.stale e || decide (e ∈ a.seq l)
                          inited := fun k => if k = l then true else a.inited k }, .unit)
  | .setValue e v => ({ a with value := fun k => if k = e then v else a.value k }, .unit)
  | .clear l =>
    ({ a.setSeq l [] with stale := fun e => a.stale e || decide (e ∈ a.seq l)
                          inited := fun k => if k = l then false else a.inited k }, .unit)
  | .len l => (a, .num (a.seq l).length)
  | .front l => (a, .ptr (a.seq l).head?)
  | .back l => (a, .ptr (a.seq l).getLast?)
  | .next e => (a, .ptr ((a.owner e).bind fun l => following e (a.seq l)))
  | .prev e => (a, .ptr ((a.owner e).bind fun l => preceding e (a.seq l)))
  | .value e => (a, .val (a.value e))
  | .toSlice l => (a, .vals ((a.seq l).map a.value))

/-- Every operation of a history is legal when it is reached. -/
def LegalHist (z : T) : Abs T → List (Op T) → Prop
  | _, [] => True
  | a, op :: ops => Legal a op ∧ LegalHist z (specStep z a op).1 ops

def specRun (z : T) : Abs T → List (Op T) → Abs T × List (Out T)
  | a, [] => (a, [])
  | a, op :: ops =>
    let r := specStep z a op
    let r2 := specRun z r.1 ops
    (r2.1, r.2 :: r2.2)

def Abs.empty (z : T) : Abs T :=
  { fresh := 0, isList := fun _ => false, seq := fun _ => [], value := fun _ => z, stale := fun _ => false,
    inited := fun _ => false }

end Gds.LinkedList
