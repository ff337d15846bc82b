import Verif.Go.Basic

/-! Model of package `util/hasher` (util/hasher/hash.go).  A Go unsigned integer of `n` bits is a `BitVec n` (wrapping
arithmetic); a string is its list of bytes; a float or complex key is its bit pattern (the code reads it through
`unsafe.Pointer`), low word first. -/

namespace Gds.Hasher

abbrev Byte := BitVec 8
abbrev W := BitVec 64

/-- hash.go:47 -/
def prime1 : W := 11400714785074694791
/-- hash.go:48 -/
def prime2 : W := 14029467366897019727
/-- hash.go:49 -/
def prime3 : W := 1609587929392839161
/-- hash.go:50 -/
def prime4 : W := 9650029242287828579
/-- hash.go:51 -/
def prime5 : W := 2870177450012600261

/-- hash.go:64 `u64` (`binary.LittleEndian.Uint64`); the callers pass eight bytes or more. -/
def u64 (b : List Byte) : W :=
  (b.getD 0 0).setWidth 64 ||| (b.getD 1 0).setWidth 64 <<< 8 ||| (b.getD 2 0).setWidth 64 <<< 16 ||| (b.getD 3 0).setWidth 64 <<< 24 |||
  (b.getD 4 0).setWidth 64 <<< 32 ||| (b.getD 5 0).setWidth 64 <<< 40 ||| (b.getD 6 0).setWidth 64 <<< 48 ||| (b.getD 7 0).setWidth 64 <<< 56

/-- hash.go:65 `u32`; the callers pass four bytes or more. -/
def u32 (b : List Byte) : BitVec 32 :=
  (b.getD 0 0).setWidth 32 ||| (b.getD 1 0).setWidth 32 <<< 8 ||| (b.getD 2 0).setWidth 32 <<< 16 ||| (b.getD 3 0).setWidth 32 <<< 24

/-- hash.go:67-72 `round` (81-88: `rolN` is `RotateLeft64` by N) -/
def round (acc input : W) : W := (acc + input * prime2).rotateLeft 31 * prime1

/-- hash.go:74-79 `mergeRound` -/
def mergeRound (acc val : W) : W := (acc ^^^ round 0 val) * prime1 + prime4

/-- The last five statements of every hasher: hash.go:97-101, 112-116, 125-129, 141-145, 156-160, 172-176, 187-191, 239-243,
272-276. -/
def avalanche (h : W) : W :=
  let h := h ^^^ h >>> 33
  let h := h * prime2
  let h := h ^^^ h >>> 29
  let h := h * prime3
  h ^^^ h >>> 32

/-- hash.go:93-103 `byteHasher` -/
def byteHasher (key : BitVec 8) : W :=
  let h := prime5 + 1
  let h := h ^^^ key.setWidth 64 * prime5
  let h := h.rotateLeft 11 * prime1
  avalanche h

/-- hash.go:106-118 `wordHasher` -/
def wordHasher (key : BitVec 16) : W :=
  let h := prime5 + 2
  let h := h ^^^ (key.setWidth 64 &&& 0xff) * prime5
  let h := h.rotateLeft 11 * prime1
  let h := h ^^^ (key.setWidth 64 >>> 8 &&& 0xff) * prime5
  let h := h.rotateLeft 11 * prime1
  avalanche h

/-- hash.go:121-131 `dwordHasher`, and hash.go:137-147 `float32Hasher` on the bit pattern of its key -/
def dwordHasher (key : BitVec 32) : W :=
  let h := prime5 + 4
  let h := h ^^^ key.setWidth 64 * prime1
  let h := h.rotateLeft 23 * prime2 + prime3
  avalanche h

/-- hash.go:150-162 `qwordHasher`, and hash.go:166-178 `float64Hasher`, hash.go:181-193 `complex64Hasher` on the bit pattern of
their keys -/
def qwordHasher (key : BitVec 64) : W :=
  let k1 := key * prime2
  let k1 := k1.rotateLeft 31
  let k1 := k1 * prime1
  let h := (prime5 + 8) ^^^ k1
  let h := h.rotateLeft 27 * prime1 + prime4
  avalanche h

/-- hash.go:248-279 `complex128Hasher`; the sixteen bytes of the key as two words. -/
def complex128Hasher (lo hi : W) : W :=
  let h := prime5 + 16
  let k1 := (lo * prime2).rotateLeft 31 * prime1
  let h := (h ^^^ k1).rotateLeft 27 * prime1 + prime4
  let k1 := (hi * prime2).rotateLeft 31 * prime1
  let h := (h ^^^ k1).rotateLeft 27 * prime1 + prime4
  avalanche h

/-- hash.go:205-211: the loop over 32-byte stripes; the slice `b` shrinks. -/
def stripes (v1 v2 v3 v4 : W) (b : List Byte) : W × W × W × W × List Byte :=
  if 32 ≤ b.length then
    stripes (round v1 (u64 b)) (round v2 (u64 (b.drop 8))) (round v3 (u64 (b.drop 16))) (round v4 (u64 (b.drop 24))) (b.drop 32)
  else (v1, v2, v3, v4, b)
termination_by b.length
decreasing_by simp only [List.length_drop]; omega

/-- hash.go:224-228: the loop over 8-byte words; the bytes not consumed yet instead of the index `i`. -/
def words (h : W) (b : List Byte) : W × List Byte :=
  if 8 ≤ b.length then words ((h ^^^ round 0 (u64 b)).rotateLeft 27 * prime1 + prime4) (b.drop 8) else (h, b)
termination_by b.length
decreasing_by simp only [List.length_drop]; omega

/-- hash.go:229-233: at most one 4-byte word. -/
def dword (h : W) (b : List Byte) : W × List Byte :=
  if 4 ≤ b.length then ((h ^^^ (u32 b).setWidth 64 * prime1).rotateLeft 23 * prime2 + prime3, b.drop 4) else (h, b)

/-- hash.go:234-237: the remaining bytes. -/
def tailBytes (h : W) : List Byte → W
  | [] => h
  | x :: b => tailBytes ((h ^^^ x.setWidth 64 * prime5).rotateLeft 11 * prime1) b

/-- hash.go:200-219: the accumulator before the length is added, and the bytes left. -/
def start (b : List Byte) : W × List Byte :=
  if 32 ≤ b.length then
    let (v1, v2, v3, v4, b) := stripes (prime1 + prime2) prime2 0 (-prime1) b
    let h := v1.rotateLeft 1 + v2.rotateLeft 7 + v3.rotateLeft 12 + v4.rotateLeft 18
    let h := mergeRound h v1
    let h := mergeRound h v2
    let h := mergeRound h v3
    let h := mergeRound h v4
    (h, b)
  else (prime5, b)

/-- hash.go:194-246 `stringHasher` -/
def stringHasher (key : List Byte) : W :=
  let n := key.length
  let (h, b) := start key
  let h := h + BitVec.ofNat 64 n
  let (h, b) := words h b
  let (h, b) := dword h b
  avalanche (tailBytes h b)

/-! ### GetHashFunc -/

/-- The predeclared types in the cases of hash.go:287-325. -/
inductive Kind where
  | int | int8 | int16 | int32 | int64 | uint | uint8 | uint16 | uint32 | uint64 | uintptr
  | float32 | float64 | complex64 | complex128 | string | unsafePointer
  deriving DecidableEq

/-- A type argument: a predeclared type, or a type `type X k` defined from one (both satisfy `~k`). -/
inductive Ty where
  | predeclared (k : Kind)
  | defined (name : Nat) (k : Kind)

/-- The underlying type. -/
def Ty.kind : Ty → Kind
  | .predeclared k => k
  | .defined _ k => k

/-- util/constraints/builitn.go:8-54 `Hashable`: every integer, float and string kind and unsafe.Pointer, with `~`. -/
def Ty.hashable (t : Ty) : Bool := t.kind ≠ .complex64 && t.kind ≠ .complex128

/-- strconv.IntSize (hash.go:55-56): 32 or 64. -/
inductive IntSize where
  | b32 | b64

/-- Keys as bit patterns. -/
inductive Key where
  | b8 (v : BitVec 8) | b16 (v : BitVec 16) | b32 (v : BitVec 32) | b64 (v : BitVec 64) | b128 (lo hi : BitVec 64) | str (s : List Byte)
  deriving DecidableEq

/-- The shape of the values of a kind. -/
inductive Shape where
  | s8 | s16 | s32 | s64 | s128 | str
  deriving DecidableEq

def Kind.shape (w : IntSize) : Kind → Shape
  | .int | .uint | .uintptr | .unsafePointer => match w with | .b32 => .s32 | .b64 => .s64
  | .int8 | .uint8 => .s8
  | .int16 | .uint16 => .s16
  | .int32 | .uint32 | .float32 => .s32
  | .int64 | .uint64 | .float64 | .complex64 => .s64
  | .complex128 => .s128
  | .string => .str

def Key.shape : Key → Shape
  | .b8 _ => .s8 | .b16 _ => .s16 | .b32 _ => .s32 | .b64 _ => .s64 | .b128 _ _ => .s128 | .str _ => .str

/-- A hash function taken through `unsafe.Pointer` (hash.go:289-324) reads its argument with the layout it was written for;
`none` when the key has another layout. -/
def cast8 (k : Key) : Option W := match k with | .b8 v => some (byteHasher v) | _ => none
/-- as `cast8`, `wordHasher` -/
def cast16 (k : Key) : Option W := match k with | .b16 v => some (wordHasher v) | _ => none
/-- as `cast8`, `dwordHasher`/`float32Hasher` -/
def cast32 (k : Key) : Option W := match k with | .b32 v => some (dwordHasher v) | _ => none
/-- as `cast8`, `qwordHasher`/`float64Hasher`/`complex64Hasher` -/
def cast64 (k : Key) : Option W := match k with | .b64 v => some (qwordHasher v) | _ => none
/-- as `cast8`, `complex128Hasher` -/
def cast128 (k : Key) : Option W := match k with | .b128 lo hi => some (complex128Hasher lo hi) | _ => none
/-- as `cast8`, `stringHasher` -/
def castStr (k : Key) : Option W := match k with | .str s => some (stringHasher s) | _ => none

/-- hash.go:286-327 `GetHashFunc`: a type switch on the dynamic type of `any(*new(T))`, which for a defined type is the
defined type itself and so matches no case; `none` is nil. -/
def getHashFunc (w : IntSize) : Ty → Option (Key → Option W)
  | .predeclared .string => some castStr
  | .predeclared .int | .predeclared .uint | .predeclared .uintptr | .predeclared .unsafePointer =>
    match w with
    | .b32 => some cast32
    | .b64 => some cast64
  | .predeclared .int8 | .predeclared .uint8 => some cast8
  | .predeclared .int16 | .predeclared .uint16 => some cast16
  | .predeclared .int32 | .predeclared .uint32 => some cast32
  | .predeclared .float32 => some cast32
  | .predeclared .int64 | .predeclared .uint64 => some cast64
  | .predeclared .float64 => some cast64
  | .predeclared .complex64 => some cast64
  | .predeclared .complex128 => some cast128
  | .defined _ _ => none

/-- hash.go:282-284 `Hash`: calling a nil function panics.  (`panic indexOutOfRange` stands for reading a key through the wrong
layout, which `hash_defined` shows does not happen.) -/
def hash (w : IntSize) (t : Ty) (k : Key) : Res W :=
  match getHashFunc w t with
  | none => .panic .nilDeref
  | some f => match f k with | some h => .ok h | none => .panic .indexOutOfRange

end Gds.Hasher
