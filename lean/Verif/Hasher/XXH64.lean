import Verif.Go.Basic

/-! A small independent specification: the XXH64 digest with seed 0, written from the published description of the algorithm
(stripes of four numbered 64-bit lanes, numbered little-endian reads at byte offsets), with none of the definitions of
`Verif.Hasher.Model`.  The constants are the published hexadecimal ones; four published test vectors are checked at the end. -/

namespace Gds.Hasher.XXH64

abbrev Byte := BitVec 8
abbrev U64 := BitVec 64

def P1 : U64 := 0x9E3779B185EBCA87
def P2 : U64 := 0xC2B2AE3D27D4EB4F
def P3 : U64 := 0x165667B19E3779F9
def P4 : U64 := 0x85EBCA77C2B2AE63
def P5 : U64 := 0x27D4EB2F165667C5

/-- Rotation to the left by `r < 64` bits. -/
def rotl (x : U64) (r : Nat) : U64 := x <<< r ||| x >>> (64 - r)

/-- The `n`-byte little-endian number at offset `off`. -/
def le (b : List Byte) (off n : Nat) : Nat := ((List.range n).map fun k => (b.getD (off + k) 0).toNat * 256 ^ k).sum

/-- The 64-bit lane at offset `off`. -/
def lane (b : List Byte) (off : Nat) : U64 := BitVec.ofNat 64 (le b off 8)

def round (acc input : U64) : U64 := rotl (acc + input * P2) 31 * P1

def mergeAccumulator (h v : U64) : U64 := (h ^^^ round 0 v) * P1 + P4

/-- The start value of accumulator `i`. -/
def init : Fin 4 → U64
  | 0 => P1 + P2
  | 1 => P2
  | 2 => 0
  | 3 => 0 - P1

/-- Accumulator `i` after the first `k` stripes. -/
def acc (b : List Byte) (i : Fin 4) : Nat → U64
  | 0 => init i
  | k + 1 => round (acc b i k) (lane b (32 * k + 8 * i.val))

/-- The four accumulators converge. -/
def converge (v : Fin 4 → U64) : U64 :=
  [v 0, v 1, v 2, v 3].foldl mergeAccumulator (rotl (v 0) 1 + rotl (v 1) 7 + rotl (v 2) 12 + rotl (v 3) 18)

/-- One remaining 8-byte lane. -/
def step8 (h x : U64) : U64 := rotl (h ^^^ round 0 x) 27 * P1 + P4

/-- One remaining 4-byte number. -/
def step4 (h x : U64) : U64 := rotl (h ^^^ x * P1) 23 * P2 + P3

/-- One remaining byte. -/
def step1 (h x : U64) : U64 := rotl (h ^^^ x * P5) 11 * P1

/-- The final mix. -/
def mix (h : U64) : U64 :=
  let a := (h ^^^ h >>> 33) * P2
  let c := (a ^^^ a >>> 29) * P3
  c ^^^ c >>> 32

/-- The XXH64 digest of `b`, seed 0. -/
def digest (b : List Byte) : U64 :=
  let n := b.length
  let h := if n < 32 then P5 else converge fun i => acc b i (n / 32)
  let h := h + BitVec.ofNat 64 n
  let h := ((List.range (n % 32 / 8)).map fun k => lane b (32 * (n / 32) + 8 * k)).foldl step8 h
  let h := if 4 ≤ n % 8 then step4 h (BitVec.ofNat 64 (le b (8 * (n / 8)) 4)) else h
  let h := ((List.range (n % 4)).map fun k => BitVec.ofNat 64 (le b (4 * (n / 4) + k) 1)).foldl step1 h
  mix h

/-- The bytes of an ASCII text. -/
def ascii (s : String) : List Byte := s.toList.map fun c => BitVec.ofNat 8 c.toNat

-- published test vectors
example : digest [] = 0xEF46DB3751D8E999 := by decide +kernel
example : digest (ascii "a") = 0xD24EC4F1A98C6E5B := by decide +kernel
example : digest (ascii "abc") = 0x44BC2CF5AD770999 := by decide +kernel
example : digest (ascii "Nobody inspects the spammish repetition") = 0xFBCEA83C8A378BF1 := by decide +kernel

end Gds.Hasher.XXH64
