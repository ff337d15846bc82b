import Verif.BPlus.Spec

/-! The B+ tree as a pure program: trees without addresses, links or counters, and what every call does to them.  It is the
specification against which `history_exact` (BPlus/Predict.lean) compares every history.  The faults of the code are part of it:
what a borrow destroys (`borrowL`), which stale slot a deletion looks at (`deleteAt`), and when it looks outside its array.

A leaf is an array of slots of which the first `num` are in use; the others keep what was last written to them, and one of them is
looked at by a deletion.  All leaves of a tree of type `FT E d` are at depth `d`. -/

namespace Gds.BPlus

/-- bplustree_node.go:9-17: a leaf. -/
structure FLeaf (E : Type) where
  slot : Nat → E
  num : Nat

/-- bplustree_node.go:9-17: a tree of depth `d`; an inner node has separators and children. -/
def FT (E : Type) : Nat → Type
  | 0 => FLeaf E
  | d + 1 => List E × List (FT E d)

namespace FT
variable {K V : Type} [Inhabited K] [Inhabited V]

/-- An empty tree of any depth (used as the default of list accesses only). -/
def empty : (d : Nat) → FT (K × V) d
  | 0 => (⟨fun _ => default, 0⟩ : FLeaf (K × V))
  | _ + 1 => (([], []) : List (K × V) × List (FT (K × V) _))

/-- The entries of a leaf. -/
def used (l : FLeaf (K × V)) : List (K × V) := (List.range l.num).map l.slot

/-- How many values a node has. -/
def num : {d : Nat} → FT (K × V) d → Nat
  | 0, l => FLeaf.num l
  | _ + 1, n => n.1.length

/-- All entries, from left to right. -/
def entries : {d : Nat} → FT (K × V) d → List (K × V)
  | 0, l => used l
  | _ + 1, n => n.2.flatMap entries

/-- Behind the last value that is not greater than `key`, seen from the right. -/
def behind (cmp : Compare K) (key : K) (xs : List (K × V)) : Nat := (xs.reverse.dropWhile (fun x => cmp key x.1 < 0)).length

/-- In front of the first value that is not smaller than `key`, seen from the left. -/
def before (cmp : Compare K) (key : K) (xs : List (K × V)) : Nat := (xs.takeWhile (fun x => cmp x.1 key < 0)).length

/-! ### Insertion -/

/-- bplustree.go:111-152: a full node falls into two halves with a separator between them. -/
def split (M : Nat) : {d : Nat} → FT (K × V) d → FT (K × V) d × (K × V) × FT (K × V) d
  | 0, l => let l : FLeaf (K × V) := l
    ((⟨l.slot, M⟩ : FLeaf (K × V)), l.slot (M - 1), (⟨fun j => if j < M - 1 then l.slot (j + M) else default, M - 1⟩ : FLeaf (K × V)))
  | d + 1, n => let n : List (K × V) × List (FT (K × V) d) := n
    (((n.1.take (M - 1), n.2.take M) : List (K × V) × List (FT (K × V) d)), n.1.getD (M - 1) default,
      ((n.1.drop M, n.2.drop M) : List (K × V) × List (FT (K × V) d)))

/-- bplustree.go:154-165: the entry goes behind the last one that is not greater. -/
def insertAt (l : FLeaf (K × V)) (pos : Nat) (e : K × V) : FLeaf (K × V) :=
  ⟨fun j => if j = pos then e else if pos < j ∧ j ≤ l.num then l.slot (j - 1) else l.slot j, l.num + 1⟩

/-- bplustree.go:154-181 `insertNonFull`: a full child is split first. -/
def insertBelow (cmp : Compare K) (M : Nat) (e : K × V) : (d : Nat) → FT (K × V) d → FT (K × V) d
  | 0, l => insertAt l (behind cmp e.1 (used l)) e
  | d + 1, n =>
    let vs : List (K × V) := n.1
    let ks : List (FT (K × V) d) := n.2
    let i := behind cmp e.1 vs
    let k := ks.getD i (empty d)
    if k.num = 2 * M - 1 then
      let a := (split M k).1
      let s := (split M k).2.1
      let b := (split M k).2.2
      if cmp s.1 e.1 < 0 then (vs.take i ++ s :: vs.drop i, ks.take i ++ a :: insertBelow cmp M e d b :: ks.drop (i + 1))
      else (vs.take i ++ s :: vs.drop i, ks.take i ++ insertBelow cmp M e d a :: b :: ks.drop (i + 1))
    else (vs, ks.take i ++ insertBelow cmp M e d k :: ks.drop (i + 1))

/-- bplustree.go:183-198 `insert`: a full root is split, and the tree grows. -/
def insert (cmp : Compare K) (M : Nat) (e : K × V) : (Σ d, FT (K × V) d) → (Σ d, FT (K × V) d)
  | ⟨d, f⟩ =>
    if f.num = 2 * M - 1 then
      let r : List (K × V) × List (FT (K × V) d) := ([(split M f).2.1], [(split M f).1, (split M f).2.2])
      ⟨d + 1, insertBelow cmp M e (d + 1) r⟩
    else ⟨d, insertBelow cmp M e d f⟩

/-! ### Searching -/

/-- bplustree.go:210-224: the binary search: where to descend, and the place of the match if one was met. -/
def bisect (cmp : Compare K) (key : K) (f : Nat → K × V) (l hi : Nat) : Nat × Option Nat :=
  if l < hi then
    let m := (l + (hi - 1)) / 2
    if cmp key (f m).1 < 0 then bisect cmp key f l m
    else if 0 < cmp key (f m).1 then bisect cmp key f (m + 1) hi
    else (l, some m)
  else (l, none)
termination_by hi - l

/-- bplustree.go:200-233 `search`: a match in an inner node is not a reason to stop. -/
def find (cmp : Compare K) (key : K) : {d : Nat} → FT (K × V) d → Option (K × V)
  | 0, l => let l : FLeaf (K × V) := l; (bisect cmp key l.slot 0 l.num).2.map l.slot
  | d + 1, n =>
    let vs : List (K × V) := n.1
    let ks : List (FT (K × V) d) := n.2
    find cmp key (ks.getD (bisect cmp key (fun j => vs.getD j default) 0 vs.length).1 (empty d))

/-! ### Deletion -/

/-- bplustree.go:254-286 `mergeChild`: the child that two children become. -/
def join (M : Nat) : {d : Nat} → FT (K × V) d → K × V → FT (K × V) d → FT (K × V) d
  | 0, y, _, z => let y : FLeaf (K × V) := y; let z : FLeaf (K × V) := z
    (⟨fun j => if M - 1 ≤ j ∧ j < 2 * M - 2 then z.slot (j - (M - 1)) else y.slot j, 2 * M - 2⟩ : FLeaf (K × V))
  | d + 1, y, v, z => let y : List (K × V) × List (FT (K × V) d) := y; let z : List (K × V) × List (FT (K × V) d) := z
    ((y.1 ++ v :: z.1, y.2 ++ z.2) : List (K × V) × List (FT (K × V) d))

/-- bplustree.go:410-433 `shiftToRightChild`: `y` takes the last value of its left neighbour `s`.  Slot 0 of `y` is overwritten
    before the values of `y` move up: in a leaf the first entry is lost and the borrowed one is there twice, in an inner node the
    first separator is lost and the one from above is there twice.  Answers the neighbour, the new separator and `y`. -/
def borrowL : {d : Nat} → FT (K × V) d → K × V → FT (K × V) d → FT (K × V) d × (K × V) × FT (K × V) d
  | 0, s, _, y => let s : FLeaf (K × V) := s; let y : FLeaf (K × V) := y
    ((⟨s.slot, s.num - 1⟩ : FLeaf (K × V)), s.slot (s.num - 2),
      (⟨fun j => if j ≤ 1 then s.slot (s.num - 1) else if j ≤ y.num then y.slot (j - 1) else y.slot j, y.num + 1⟩ : FLeaf (K × V)))
  | d + 1, s, v, y => let s : List (K × V) × List (FT (K × V) d) := s; let y : List (K × V) × List (FT (K × V) d) := y
    (((s.1.dropLast, s.2.dropLast) : List (K × V) × List (FT (K × V) d)), s.1.getLastD default,
      ((v :: v :: y.1.tail, s.2.getLastD (empty d) :: y.2) : List (K × V) × List (FT (K × V) d)))

/-- bplustree.go:435-458 `shiftToLeftChild`: `y` takes the first value of its right neighbour `z`. -/
def borrowR : {d : Nat} → FT (K × V) d → K × V → FT (K × V) d → FT (K × V) d × (K × V) × FT (K × V) d
  | 0, y, _, z => let y : FLeaf (K × V) := y; let z : FLeaf (K × V) := z
    ((⟨fun j => if j = y.num then z.slot 0 else y.slot j, y.num + 1⟩ : FLeaf (K × V)), z.slot 0,
      (⟨fun j => if j < z.num - 1 then z.slot (j + 1) else z.slot j, z.num - 1⟩ : FLeaf (K × V)))
  | d + 1, y, v, z => let y : List (K × V) × List (FT (K × V) d) := y; let z : List (K × V) × List (FT (K × V) d) := z
    (((y.1 ++ [v], y.2 ++ [z.2.headD (empty d)]) : List (K × V) × List (FT (K × V) d)), z.1.headD default,
      ((z.1.tail, z.2.tail) : List (K × V) × List (FT (K × V) d)))

/-- bplustree.go:360-391: before descending into child `i`, the child gets more than `M-1` values: from the left neighbour, from the
    right one, or by merging it with one of them.  Answers the separators, the children and the child to descend into. -/
def prepare {d : Nat} (M : Nat) (vs : List (K × V)) (ks : List (FT (K × V) d)) (i : Nat) : List (K × V) × List (FT (K × V) d) × Nat :=
  let kid := fun j => ks.getD j (empty d)
  let sep := fun j => vs.getD j default
  if (kid i).num ≠ M - 1 then (vs, ks, i)
  else if 0 < i ∧ M - 1 < (kid (i - 1)).num then
    let r := borrowL (kid (i - 1)) (sep (i - 1)) (kid i)
    (vs.take (i - 1) ++ r.2.1 :: vs.drop i, ks.take (i - 1) ++ r.1 :: r.2.2 :: ks.drop (i + 1), i)
  else if i < vs.length ∧ M - 1 < (kid (i + 1)).num then
    let r := borrowR (kid i) (sep i) (kid (i + 1))
    (vs.take i ++ r.2.1 :: vs.drop (i + 1), ks.take i ++ r.1 :: r.2.2 :: ks.drop (i + 2), i)
  else if 0 < i then
    (vs.take (i - 1) ++ vs.drop i, ks.take (i - 1) ++ join M (kid (i - 1)) (sep (i - 1)) (kid i) :: ks.drop (i + 1), i - 1)
  else
    (vs.take i ++ vs.drop (i + 1), ks.take i ++ join M (kid i) (sep i) (kid (i + 1)) :: ks.drop (i + 2), i)

/-- bplustree.go:345-359: in a leaf, slot `i` is looked at even when it is not in use; `none` when it is outside the array. -/
def deleteAt (cmp : Compare K) (M : Nat) (key : K) (l : FLeaf (K × V)) : Option (FLeaf (K × V)) :=
  let i := before cmp key (used l)
  if i < 2 * M - 1 then
    if cmp key (l.slot i).1 = 0 then some ⟨fun j => if i ≤ j ∧ j + 1 < 2 * M - 1 then l.slot (j + 1) else l.slot j, l.num - 1⟩ else some l
  else none

/-- bplustree.go:343-392 `deleteNonOne`; `none` when it looks outside an array. -/
def deleteBelow (cmp : Compare K) (M : Nat) (key : K) : (d : Nat) → FT (K × V) d → Option (FT (K × V) d)
  | 0, l => deleteAt cmp M key l
  | d + 1, n =>
    let vs : List (K × V) := n.1
    let ks : List (FT (K × V) d) := n.2
    let r := prepare M vs ks (before cmp key vs)
    (deleteBelow cmp M key d (r.2.1.getD r.2.2 (empty d))).map
      (fun k => (r.1, r.2.1.take r.2.2 ++ k :: r.2.1.drop (r.2.2 + 1)))

/-- bplustree.go:322-341 `delete`: a root with two children of `M-1` values is replaced by their union. -/
def delete (cmp : Compare K) (M : Nat) (key : K) : (Σ d, FT (K × V) d) → Option (Σ d, FT (K × V) d)
  | ⟨0, f⟩ => (deleteBelow cmp M key 0 f).map (fun f => ⟨0, f⟩)
  | ⟨d + 1, f⟩ =>
    let vs : List (K × V) := f.1
    let ks : List (FT (K × V) d) := f.2
    let y := ks.getD 0 (empty d)
    let z := ks.getD 1 (empty d)
    if vs.length = 1 ∧ y.num = M - 1 ∧ z.num = M - 1 then
      (deleteBelow cmp M key d (join M y (vs.getD 0 default) z)).map (fun f => ⟨d, f⟩)
    else (deleteBelow cmp M key (d + 1) f).map (fun f => ⟨d + 1, f⟩)

end FT

/-! ### Histories -/

variable {K V : Type} [Inhabited K] [Inhabited V]

/-- A map: `none` after `Clear` (bplustree.go:299-302), which leaves it without a root. -/
abbrev FMap (K V : Type) := Option (Σ d, FT (K × V) d)

namespace FMap

/-- bplustree.go:24-37 `NewMap` -/
def new : FMap K V := some ⟨0, (⟨fun _ => default, 0⟩ : FLeaf (K × V))⟩

/-- The entries, from left to right. -/
def entries : FMap K V → List (K × V)
  | none => []
  | some ⟨_, f⟩ => f.entries

/-- bplustree.go:62-68 `GetEntry` -/
def find (cmp : Compare K) (key : K) : FMap K V → Option (K × V)
  | none => none
  | some ⟨_, f⟩ => f.find cmp key

/-- bplustree.go:183-198: an insertion after `Clear` has no effect. -/
def insert (cmp : Compare K) (M : Nat) (e : K × V) (m : FMap K V) : FMap K V := m.map (FT.insert cmp M e)

/-- bplustree.go:100-109 `Delete`; `none` for a panic. -/
def delete (cmp : Compare K) (M : Nat) (key : K) (m : FMap K V) : Option (FMap K V × Bool) :=
  match m with
  | none => some (none, false)
  | some f => if (f.2.find cmp key).isSome then (FT.delete cmp M key f).map (fun f => (some f, true)) else some (some f, false)

/-- bplustree.go:86-94, 312-320: the keys one after the other. -/
def deleteAll (cmp : Compare K) (M : Nat) : FMap K V → Nat → List K → Option (FMap K V × Nat)
  | m, n, [] => some (m, n)
  | m, n, k :: ks => (delete cmp M k m).bind (fun r => deleteAll cmp M r.1 (if r.2 then n + 1 else n) ks)

/-- One call: the map after it and its answer, or `none` if it panics. -/
def step (cmp : Compare K) (M : Nat) (m : FMap K V) : Op K V → Option (FMap K V × Out)
  | .insertEqual k v => some (insert cmp M (k, v) m, .bool true)
  | .insertUnique k v => if (find cmp k m).isSome then some (m, .bool false) else some (insert cmp M (k, v) m, .bool true)
  | .delete k => (delete cmp M k m).map (fun r => (r.1, .bool r.2))
  | .deleteEntryByKey e => (delete cmp M e.1 m).map (fun r => (r.1, .bool r.2))
  | .deleteByWholeMapping k v c =>
    match find cmp k m with
    | some e => if c e.2 v < 0 then (delete cmp M k m).map (fun r => (r.1, .bool r.2)) else some (m, .bool false)
    | none => some (m, .bool false)
  | .deleteAll ks => (deleteAll cmp M m 0 ks).map (fun r => (r.1, .num r.2))
  | .clear => some (none, .unit)

/-- A history: the map after it and all answers, or `none` if a call panics. -/
def run (cmp : Compare K) (M : Nat) : FMap K V → List (Op K V) → Option (FMap K V × List Out)
  | m, [] => some (m, [])
  | m, op :: ops => (step cmp M m op).bind (fun r => (run cmp M r.1 ops).map (fun q => (q.1, r.2 :: q.2)))

end FMap

end Gds.BPlus
