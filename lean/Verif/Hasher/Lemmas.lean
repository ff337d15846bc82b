import Verif.Hasher.Model
import Mathlib.Tactic.Common

namespace Gds.Hasher

theorem mul_inj {p q : W} (h : p * q = 1) {x y : W} (e : x * p = y * p) : x = y := by
  have h1 : x * p * q = y * p * q := by rw [e]
  rw [BitVec.mul_assoc, BitVec.mul_assoc, h] at h1
  simpa using h1

theorem mul1 {x y : W} (e : x * prime1 = y * prime1) : x = y := mul_inj (q := 614540362697595703) (by decide) e
theorem mul2 {x y : W} (e : x * prime2 = y * prime2) : x = y := mul_inj (q := 839798700976720815) (by decide) e
theorem mul3 {x y : W} (e : x * prime3 = y * prime3) : x = y := mul_inj (q := 16855272203555305545) (by decide) e
theorem mul5 {x y : W} (e : x * prime5 = y * prime5) : x = y := mul_inj (q := 14236653164957433613) (by decide) e

theorem rol_inj {x y : W} (r : Nat) (hr : r < 64) (e : x.rotateLeft r = y.rotateLeft r) : x = y := by
  apply BitVec.eq_of_getLsbD_eq
  intro i hi
  by_cases h : i < 64 - r
  · have := congrArg (fun z : W => z.getLsbD (i + r)) e
    simp only [BitVec.getLsbD_rotateLeft_of_le hr] at this
    grind
  · have := congrArg (fun z : W => z.getLsbD (i - (64 - r))) e
    simp only [BitVec.getLsbD_rotateLeft_of_le hr] at this
    grind

theorem xorshift_inj {x y : W} (s : Nat) (hs : 0 < s) (e : x ^^^ x >>> s = y ^^^ y >>> s) : x = y := by
  have key : ∀ k i, 64 ≤ i + k → x.getLsbD i = y.getLsbD i := by
    intro k
    induction k with
    | zero => intro i hi; rw [BitVec.getLsbD_of_ge _ _ (by omega), BitVec.getLsbD_of_ge _ _ (by omega)]
    | succ k ih =>
      intro i hi
      have h1 := ih (s + i) (by omega)
      have h2 := congrArg (fun z : W => z.getLsbD i) e
      simp only [BitVec.getLsbD_xor, BitVec.getLsbD_ushiftRight, h1] at h2
      revert h2
      cases x.getLsbD i <;> cases y.getLsbD i <;> cases y.getLsbD (s + i) <;> simp
  exact BitVec.eq_of_getLsbD_eq (fun i _ => key 64 i (by omega))

theorem add_inj {x y : W} (c : W) (e : x + c = y + c) : x = y := by
  have h : x + c - c = y + c - c := by rw [e]
  simpa using h

theorem avalanche_inj {x y : W} (e : avalanche x = avalanche y) : x = y := by
  unfold avalanche at e
  exact xorshift_inj 33 (by omega) (mul2 (xorshift_inj 29 (by omega) (mul3 (xorshift_inj 32 (by omega) e))))

theorem setWidth_inj {n : Nat} (h : n ≤ 64) {x y : BitVec n} (e : x.setWidth 64 = y.setWidth 64) : x = y := by
  apply BitVec.eq_of_getLsbD_eq
  intro i hi
  have := congrArg (fun z : W => z.getLsbD i) e
  simp only [BitVec.getLsbD_setWidth] at this
  grind

theorem round0_inj {x y : W} (e : round 0 x = round 0 y) : x = y := by
  unfold round at e
  have := rol_inj 31 (by omega) (mul1 e)
  rw [show (0 : W) = 0#64 from rfl, BitVec.zero_add, BitVec.zero_add] at this
  exact mul2 this

/-! ### Little-endian words -/

/-- The bytes of a word, lowest first. -/
def le64 (x : W) : List Byte := (List.range 8).map fun i => (x >>> (8 * i)).setWidth 8
def le32 (x : BitVec 32) : List Byte := (List.range 4).map fun i => (x >>> (8 * i)).setWidth 8

theorem u64_le (x : W) (r : List Byte) : u64 (le64 x ++ r) = x := by
  apply BitVec.eq_of_getLsbD_eq
  intro i hi
  simp only [le64, u64, List.range, List.range.loop, List.map_cons, List.map_nil, List.cons_append, List.nil_append, List.getD_cons_zero,
    List.getD_cons_succ, BitVec.getLsbD_or, BitVec.getLsbD_shiftLeft, BitVec.getLsbD_setWidth, BitVec.getLsbD_ushiftRight]
  grind

theorem u32_le (x : BitVec 32) (r : List Byte) : u32 (le32 x ++ r) = x := by
  apply BitVec.eq_of_getLsbD_eq
  intro i hi
  simp only [le32, u32, List.range, List.range.loop, List.map_cons, List.map_nil, List.cons_append, List.nil_append, List.getD_cons_zero,
    List.getD_cons_succ, BitVec.getLsbD_or, BitVec.getLsbD_shiftLeft, BitVec.getLsbD_setWidth, BitVec.getLsbD_ushiftRight]
  grind

end Gds.Hasher
