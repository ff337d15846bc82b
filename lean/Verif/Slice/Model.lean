import Verif.Go.Basic
import Verif.Iter.Model

/-! Model of package `collections/slice` (collections/slice/slice.go).

Go slices are headers (array, offset, length, capacity) pointing into arrays; arrays live in a memory
of cells.  Array contents outside the allocated size are never looked at (slice expressions are
bounds-checked against the capacity). -/

namespace Gds.Slice

/-- The backing arrays: `cell a i` is element `i` of array `a`, `size a` its length, arrays
    `0 … next-1` are allocated. -/
structure Mem (T : Type _) where
  cell : Nat → Nat → T
  size : Nat → Nat
  next : Nat

/-- A slice header; `isNil` distinguishes the nil slice (used by `Clone`). -/
structure Hdr where
  isNil : Bool := false
  arr : Nat
  off : Nat
  len : Nat
  cap : Nat
  deriving DecidableEq, Repr

variable {T : Type _}

/-- The elements `s[0], …, s[len-1]` seen through a header. -/
def Mem.view (m : Mem T) (s : Hdr) : List T := (List.range s.len).map (fun k => m.cell s.arr (s.off + k))

/-- The header is one the Go runtime can produce. -/
structure Mem.Ok (m : Mem T) (s : Hdr) : Prop where
  alloc : s.arr < m.next
  fits : s.off + s.cap ≤ m.size s.arr
  len_le : s.len ≤ s.cap
  nil_empty : s.isNil = true → s.cap = 0

/-- `s[i]` (bounds check against the length). -/
def Mem.get (m : Mem T) (s : Hdr) (i : Int) : Res T :=
  if 0 ≤ i ∧ i < s.len then .ok (m.cell s.arr (s.off + i.toNat)) else .panic .indexOutOfRange

/-- `s[i] = v`. -/
def Mem.set (m : Mem T) (s : Hdr) (i : Int) (v : T) : Res (Mem T) :=
  if 0 ≤ i ∧ i < s.len then
    .ok { m with cell := fun a k => if a = s.arr ∧ k = s.off + i.toNat then v else m.cell a k }
  else .panic .indexOutOfRange

/-- `s[i:j]`: Go requires 0 ≤ i ≤ j ≤ cap(s). -/
def slice (s : Hdr) (i j : Int) : Res Hdr :=
  if 0 ≤ i ∧ i ≤ j ∧ j ≤ s.cap then
    .ok { isNil := s.isNil, arr := s.arr, off := s.off + i.toNat, len := (j - i).toNat, cap := s.cap - i.toNat }
  else .panic .sliceBounds

/-- `s[i:]` is `s[i:len(s)]`. -/
def sliceFrom (s : Hdr) (i : Int) : Res Hdr := slice s i s.len
/-- `s[:j]` is `s[0:j]`. -/
def sliceTo (s : Hdr) (j : Int) : Res Hdr := slice s 0 j

/-- `s[i:j:k]`. -/
def slice3 (s : Hdr) (i j k : Int) : Res Hdr :=
  if 0 ≤ i ∧ i ≤ j ∧ j ≤ k ∧ k ≤ s.cap then
    .ok { isNil := s.isNil, arr := s.arr, off := s.off + i.toNat, len := (j - i).toNat, cap := (k - i).toNat }
  else .panic .sliceBounds

/-- `copy(dst, src)`: memmove of min(len(dst), len(src)) cells. -/
def Mem.copy (m : Mem T) (dst src : Hdr) : Mem T :=
  { m with cell := fun a k =>
      if a = dst.arr ∧ dst.off ≤ k ∧ k < dst.off + min dst.len src.len
      then m.cell src.arr (src.off + (k - dst.off)) else m.cell a k }

/-- `make([]T, len, cap)` with `len ≤ cap` (a negative or oversized length panics; all callers below
    pass sums of lengths).  `z` is the zero value of the element type. -/
def Mem.make (z : T) (m : Mem T) (len cap : Nat) : Mem T × Hdr :=
  ({ cell := fun a k => if a = m.next then z else m.cell a k
     size := fun a => if a = m.next then cap else m.size a
     next := m.next + 1 },
   { arr := m.next, off := 0, len := len, cap := cap })

/-- `append(s, v...)`: in place when the capacity suffices, otherwise on a fresh array with `extra`
    spare cells (the growth policy of the Go runtime is not fixed; `extra` ranges over all of them). -/
def Mem.append (z : T) (extra : Nat) (m : Mem T) (s v : Hdr) : Mem T × Hdr :=
  let tot := s.len + v.len
  if tot ≤ s.cap then
    let d : Hdr := { s with off := s.off + s.len, len := s.cap - s.len, cap := s.cap - s.len }
    (m.copy d v, { s with len := tot })
  else
    let (m1, r) := m.make z tot (tot + extra)
    let m2 := m1.copy r s
    let m3 := m2.copy { r with off := s.len, len := v.len, cap := v.len } v
    (m3, r)

/-! ### Methods of Slice[T] -/

/-- slice.go:12-17 `New`: `length` is the optional argument. -/
def new (z : T) (m : Mem T) (length : Option Nat) : Mem T × Hdr :=
  match length with
  | some n => m.make z 0 n
  | none => m.make z 0 8

/-- slice.go:23-25 `PushBack`: the appended header is assigned to the method's own copy of `s`, so
    the caller only sees the memory effect. -/
def pushBack (z : T) (extra : Nat) (m : Mem T) (s elems : Hdr) : Mem T := (m.append z extra s elems).1

/-- slice.go:27-37 `Slice.Iter`: captured variables `s` and `idx`; elements are read when pulled. -/
def iter (m : Mem T) (s : Hdr) : Iter.Next Nat T := fun idx =>
  if idx < s.len then (do let v ← m.get s idx; pure (some v, idx + 1)) else .ok (none, idx)

/-- slice.go:39-45 `Slice.All`, from index `i` on; `n` is the number of remaining indices. -/
def allLoop {E : Type _} (m : Mem T) (s : Hdr) (yield : T → E → Bool × E) : Nat → Nat → E → Res E
  | 0, _, e => .ok e
  | n + 1, i, e => do
    let v ← m.get s i
    let y := yield v e
    if y.1 then allLoop m s yield n (i + 1) y.2 else pure y.2

/-- slice.go:39-45 `Slice.All`. -/
def all {E : Type _} (m : Mem T) (s : Hdr) (yield : T → E → Bool × E) (e : E) : Res E :=
  allLoop m s yield s.len 0 e

/-- slice.go:47-78 `SplitableIter()(parallelism)`: the captured variable is `idx`; one call returns
    the header of the next segment (on which the Go code then calls `.Iter()`), or `none`. -/
def splitableIter (s : Hdr) (parallelism : Int) : Iter.Next Int Hdr := fun idx =>
  let step : Int := if parallelism = 0 then s.len else Int.tdiv s.len parallelism
  if parallelism ≤ 0 then
    if idx = 0 then .ok (some s, idx + 1) else .ok (none, idx)
  else if idx ≥ s.len then .ok (none, idx)
  else do
    let i := idx
    let idx := idx + step
    if i + step ≥ s.len then
      let seg ← sliceFrom s i
      pure (some seg, idx)
    else
      let seg ← slice s i (i + step)
      pure (some seg, idx)

/-! ### Package functions -/

section Pure
/-! The read-only functions look at the slices only through their elements; they are modelled on the
    element lists. -/

/-- slice.go:92-102 `Equal` (the loop over i of both slices, lengths being equal). -/
def equalLoop [DecidableEq T] : List T → List T → Bool
  | a :: s1, b :: s2 => if a ≠ b then false else equalLoop s1 s2
  | _, _ => true
def equal [DecidableEq T] (s1 s2 : List T) : Bool :=
  if s1.length ≠ s2.length then false else equalLoop s1 s2

/-- slice.go:109-120 `EqualFunc`. -/
def equalFuncLoop {U : Type _} (eq : T → U → Bool) : List T → List U → Bool
  | a :: s1, b :: s2 => if !eq a b then false else equalFuncLoop eq s1 s2
  | _, _ => true
def equalFunc {U : Type _} (eq : T → U → Bool) (s1 : List T) (s2 : List U) : Bool :=
  if s1.length ≠ s2.length then false else equalFuncLoop eq s1 s2

/-- slice.go:130-148 `Compare`: when `s1` is exhausted, what is left of `s2` is non-empty iff
    `len(s1) < s2len`. -/
def compare [LT T] [DecidableRel (α := T) (· < ·)] : List T → List T → Int
  | _ :: _, [] => 1
  | v1 :: s1, v2 :: s2 => if v1 < v2 then -1 else if v2 < v1 then 1 else compare s1 s2
  | [], s2 => if 0 < s2.length then -1 else 0

/-- slice.go:157-172 `CompareFunc`. -/
def compareFunc {U : Type _} (cmp : T → U → Int) : List T → List U → Int
  | _ :: _, [] => 1
  | v1 :: s1, v2 :: s2 => if cmp v1 v2 ≠ 0 then cmp v1 v2 else compareFunc cmp s1 s2
  | [], s2 => if 0 < s2.length then -1 else 0

/-- slice.go:187-194 `Slice.Index` from position `i` on. -/
def indexFuncFrom (f : T → Bool) : Nat → List T → Int
  | _, [] => -1
  | i, v :: s => if f v then i else indexFuncFrom f (i + 1) s
/-- slice.go:187-194 `Slice.Index`. -/
def indexFunc (f : T → Bool) (s : List T) : Int := indexFuncFrom f 0 s
/-- slice.go:176-183 `Index`. -/
def index [DecidableEq T] (s : List T) (v : T) : Int := indexFuncFrom (fun vs => decide (v = vs)) 0 s
/-- slice.go:197-199 `Contains`. -/
def contains [DecidableEq T] (s : List T) (v : T) : Bool := decide (index s v ≥ 0)
/-- slice.go:203-205 `Slice.Contains`. -/
def containsFunc (f : T → Bool) (s : List T) : Bool := decide (indexFunc f s ≥ 0)
end Pure

/-- slice.go:212-225 `Insert`. -/
def insert (z : T) (m : Mem T) (s : Hdr) (i : Int) (v : Hdr) : Res (Mem T × Hdr) := do
  let tot := s.len + v.len
  if tot ≤ s.cap then
    let s2 ← sliceTo s tot
    let d ← sliceFrom s2 (i + v.len)
    let src ← sliceFrom s i
    let m := m.copy d src
    let d ← sliceFrom s2 i
    let m := m.copy d v
    pure (m, s2)
  else
    let (m, s2) := m.make z tot tot
    let src ← sliceTo s i
    let m := m.copy s2 src
    let d ← sliceFrom s2 i
    let m := m.copy d v
    let d ← sliceFrom s2 (i + v.len)
    let src ← sliceFrom s i
    let m := m.copy d src
    pure (m, s2)

/-- slice.go:226-228, the `Insert` method: the returned header is dropped. -/
def insertMethod (z : T) (m : Mem T) (s : Hdr) (i : Int) (v : Hdr) : Res (Mem T) := do
  let r ← insert z m s i v
  pure r.1

/-- slice.go:238-242 `Delete`. -/
def delete (z : T) (extra : Nat) (m : Mem T) (s : Hdr) (i j : Int) : Res (Mem T × Hdr) := do
  let _ ← slice s i j
  let a ← sliceTo s i
  let b ← sliceFrom s j
  pure (m.append z extra a b)

/-- slice.go:246-260 `Replace`. -/
def replace (z : T) (m : Mem T) (s : Hdr) (i j : Int) (v : Hdr) : Res (Mem T × Hdr) := do
  let _ ← slice s i j
  let a ← sliceTo s i
  let b ← sliceFrom s j
  let tot := a.len + v.len + b.len
  if tot ≤ s.cap then
    let s2 ← sliceTo s tot
    let d ← sliceFrom s2 (i + v.len)
    let src ← sliceFrom s j
    let m := m.copy d src
    let d ← sliceFrom s2 i
    let m := m.copy d v
    pure (m, s2)
  else
    let (m, s2) := m.make z tot tot
    let src ← sliceTo s i
    let m := m.copy s2 src
    let d ← sliceFrom s2 i
    let m := m.copy d v
    let d ← sliceFrom s2 (i + v.len)
    let src ← sliceFrom s j
    let m := m.copy d src
    pure (m, s2)

/-- slice.go:264-270 `Clone`.  `append(S([]E{}), s...)`: the empty literal is a fresh non-nil slice of
    capacity 0; appending nothing to it returns that empty slice. -/
def clone (z : T) (extra : Nat) (m : Mem T) (s : Hdr) : Mem T × Hdr :=
  if s.isNil then (m, s)
  else
    let (m, e) := m.make z 0 0
    m.append z extra e s

/-- slice.go:301-307 (and 284-290): the range loop of `CompactFunc` over `s[1:]`; `k` is the index in `s`
    of the element read next, `n` the number of elements left. -/
def compactLoop (eq : T → T → Bool) (s : Hdr) : Nat → Nat → Mem T → Nat → T → Res (Mem T × Nat)
  | 0, _, m, i, _ => .ok (m, i)
  | n + 1, k, m, i, last => do
    let v ← m.get s k
    if !eq v last then
      let m ← m.set s i v
      compactLoop eq s n (k + 1) m (i + 1) v
    else compactLoop eq s n (k + 1) m i last

/-- slice.go:295-309 `CompactFunc`. -/
def compactFunc (eq : T → T → Bool) (m : Mem T) (s : Hdr) : Res (Mem T × Hdr) := do
  if s.len < 2 then pure (m, s)
  else
    let last ← m.get s 0
    let (m, i) ← compactLoop eq s (s.len - 1) 1 m 1 last
    let r ← sliceTo s i
    pure (m, r)

/-- slice.go:278-292 `Compact`: same text with `v != last`. -/
def compact [DecidableEq T] (m : Mem T) (s : Hdr) : Res (Mem T × Hdr) :=
  compactFunc (fun v last => decide (v = last)) m s

/-- slice.go:315-326 `Grow`. -/
def grow (z : T) (extra : Nat) (m : Mem T) (s : Hdr) (n : Int) : Res (Mem T × Hdr) := do
  if n < 0 then .panic .explicit
  else
    let n := n - ((s.cap : Int) - s.len)
    if n > 0 then
      let full ← sliceTo s s.cap
      let (m, zs) := m.make z n.toNat n.toNat
      let (m, a) := m.append z extra full zs
      let r ← sliceTo a s.len
      pure (m, r)
    else pure (m, s)

/-- slice.go:329-331 `Clip`. -/
def clip (s : Hdr) : Res Hdr := slice3 s 0 s.len s.len

end Gds.Slice
