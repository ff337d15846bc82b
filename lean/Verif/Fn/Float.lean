import Verif.Fn.Props
import Verif.Hasher.Props
import Mathlib.Order.WithBot
import Mathlib.Data.Nat.Log

/-! Property C125: `fn.Comp` on float64 keys, NaN included. A float64 is its bit pattern (as in `Verif.Hasher`). -/
namespace Gds.Fn

/-! ### IEEE 754 binary64, the semantics of Go's `<` and `>` -/

/-- The 52 fraction bits. -/
def frac (x : BitVec 64) : Nat := x.toNat % 2 ^ 52
/-- The 11 exponent bits. -/
def expo (x : BitVec 64) : Nat := x.toNat / 2 ^ 52 % 2 ^ 11
/-- The sign bit. -/
def neg (x : BitVec 64) : Bool := decide (x.toNat / 2 ^ 63 = 1)

/-- All exponent bits set and a fraction. -/
def isNaN (x : BitVec 64) : Prop := expo x = 2047 ∧ frac x ≠ 0
instance (x : BitVec 64) : Decidable (isNaN x) := by unfold isNaN; infer_instance

/-- The absolute value of a finite float, in units of 2^-1074 (the least positive one). -/
def mag (x : BitVec 64) : Nat := if expo x = 0 then frac x else (2 ^ 52 + frac x) * 2 ^ (expo x - 1)

/-- The value of a float that is not a NaN, in the same units; the infinities are `⊤` and `⊥`. -/
def fval (x : BitVec 64) : WithBot (WithTop Int) :=
  if expo x = 2047 then (if neg x then ⊥ else ((⊤ : WithTop Int) : WithBot (WithTop Int)))
  else (((if neg x then -(mag x : Int) else (mag x : Int) : Int) : WithTop Int) : WithBot (WithTop Int))

/-- Go's `a < b` on float64: false if one is a NaN, otherwise the order of the values. `a > b` is `b < a`. -/
def flt (a b : BitVec 64) : Bool := decide (¬ isNaN a ∧ ¬ isNaN b ∧ fval a < fval b)

/-- fn/comp.go:13-21 `Comp[float64]` -/
def comp64 (v1 v2 : BitVec 64) : Int := if flt v2 v1 then 1 else if flt v1 v2 then -1 else 0

/-! ### Values and bits -/

theorem mag_inj {a b : BitVec 64} (h : mag a = mag b) : expo a = expo b ∧ frac a = frac b := by
  have fa : frac a < 2 ^ 52 := Nat.mod_lt _ (by decide)
  have fb : frac b < 2 ^ 52 := Nat.mod_lt _ (by decide)
  have key : ∀ (e f e' f' : Nat), f < 2 ^ 52 → f' < 2 ^ 52 → e < e' →
      (if e = 0 then f else (2 ^ 52 + f) * 2 ^ (e - 1)) ≠ (if e' = 0 then f' else (2 ^ 52 + f') * 2 ^ (e' - 1)) := by
    intro e f e' f' hf hf' he
    rw [if_neg (by omega : e' ≠ 0)]
    apply Nat.ne_of_lt
    have h1 : (if e = 0 then f else (2 ^ 52 + f) * 2 ^ (e - 1)) < 2 ^ 52 * 2 ^ e := by
      by_cases h0 : e = 0
      · subst h0; simpa using hf
      · rw [if_neg h0]
        have : (2 : Nat) ^ e = 2 * 2 ^ (e - 1) := by rw [← Nat.pow_succ']; congr 1; omega
        rw [this, ← Nat.mul_assoc]
        exact Nat.mul_lt_mul_of_pos_right (by omega) (Nat.pow_pos (by decide))
    have h2 : 2 ^ 52 * 2 ^ e ≤ (2 ^ 52 + f') * 2 ^ (e' - 1) := Nat.mul_le_mul (by omega) (Nat.pow_le_pow_right (by decide) (by omega))
    omega
  have he : expo a = expo b := by
    rcases Nat.lt_trichotomy (expo a) (expo b) with hl | he | hl
    · exact absurd h (key _ _ _ _ fa fb hl)
    · exact he
    · exact absurd h.symm (key _ _ _ _ fb fa hl)
  refine ⟨he, ?_⟩
  unfold mag at h
  rw [he] at h
  by_cases h0 : expo b = 0
  · simpa [h0] using h
  · rw [if_neg h0, if_neg h0] at h
    have := Nat.eq_of_mul_eq_mul_right (Nat.pow_pos (by decide)) h
    omega

theorem bits (x : BitVec 64) : x.toNat = (neg x).toNat * 2 ^ 63 + expo x * 2 ^ 52 + frac x := by
  have := x.isLt
  unfold neg expo frac
  by_cases h : x.toNat / 2 ^ 63 = 1 <;> simp only [h, decide_true, decide_false, Bool.toNat_true, Bool.toNat_false] <;> omega

theorem nan_bits (x : BitVec 64) : ((x >>> 52 &&& 0x7ff) = 0x7ff ∧ (x &&& 0xfffffffffffff) ≠ 0) ↔ isNaN x := by
  have h1 : (x >>> 52 &&& 0x7ff).toNat = expo x := by
    have : (0x7ff : BitVec 64).toNat = 2 ^ 11 - 1 := rfl
    rw [BitVec.toNat_and, this, Nat.and_two_pow_sub_one_eq_mod, BitVec.toNat_ushiftRight, Nat.shiftRight_eq_div_pow]; rfl
  have h2 : (x &&& 0xfffffffffffff).toNat = frac x := by
    have : (0xfffffffffffff : BitVec 64).toNat = 2 ^ 52 - 1 := rfl
    rw [BitVec.toNat_and, this, Nat.and_two_pow_sub_one_eq_mod]; rfl
  rw [isNaN, ← h1, ← h2, BitVec.toNat_eq, ne_eq, BitVec.toNat_eq]
  rfl

theorem zero_bits (x : BitVec 64) : (x &&& 0x7fffffffffffffff = 0) ↔ expo x = 0 ∧ frac x = 0 := by
  have h2 : (x &&& 0x7fffffffffffffff).toNat = x.toNat % 2 ^ 63 := by
    have : (0x7fffffffffffffff : BitVec 64).toNat = 2 ^ 63 - 1 := rfl
    rw [BitVec.toNat_and, this, Nat.and_two_pow_sub_one_eq_mod]
  rw [BitVec.toNat_eq, h2]
  have := x.isLt
  show x.toNat % 2 ^ 63 = 0 ↔ _
  unfold expo frac
  omega

/-- Two floats that are not NaNs have the same value iff Go's `==` on the bits (C74) says so. -/
theorem fval_eq {a b : BitVec 64} (ha : ¬ isNaN a) (hb : ¬ isNaN b) : fval a = fval b ↔ Hasher.f64Eq a b := by
  unfold Hasher.f64Eq
  simp only [nan_bits, zero_bits, ha, hb, not_false_eq_true, true_and]
  constructor
  · intro h
    have ba := bits a
    have bb := bits b
    unfold fval at h
    by_cases ea : expo a = 2047 <;> by_cases eb : expo b = 2047
    · have fa : frac a = 0 := by by_contra hc; exact ha ⟨ea, hc⟩
      have fb : frac b = 0 := by by_contra hc; exact hb ⟨eb, hc⟩
      left
      cases na : neg a <;> cases nb : neg b <;> simp [ea, eb, na, nb] at h <;> (apply BitVec.eq_of_toNat_eq; rw [ba, bb, na, nb, ea, eb, fa, fb])
    · rw [if_pos ea, if_neg eb] at h
      cases na : neg a <;> simp [na] at h
    · rw [if_neg ea, if_pos eb] at h
      cases nb : neg b <;> simp [nb] at h
    · rw [if_neg ea, if_neg eb, WithBot.coe_inj, WithTop.coe_inj] at h
      cases na : neg a <;> cases nb : neg b <;> simp only [na, nb, if_true, Bool.false_eq_true, if_false] at h
      · obtain ⟨h1, h2⟩ := mag_inj (a := a) (b := b) (by omega)
        left; apply BitVec.eq_of_toNat_eq; rw [ba, bb, na, nb, h1, h2]
      · have z : mag (0 : BitVec 64) = 0 := by decide
        have h1 := mag_inj (a := a) (b := 0) (by omega)
        have h2 := mag_inj (a := b) (b := 0) (by omega)
        right; exact ⟨h1, h2⟩
      · have z : mag (0 : BitVec 64) = 0 := by decide
        have h1 := mag_inj (a := a) (b := 0) (by omega)
        have h2 := mag_inj (a := b) (b := 0) (by omega)
        right; exact ⟨h1, h2⟩
      · obtain ⟨h1, h2⟩ := mag_inj (a := a) (b := b) (by omega)
        left; apply BitVec.eq_of_toNat_eq; rw [ba, bb, na, nb, h1, h2]
  · rintro (rfl | ⟨⟨e1, f1⟩, e2, f2⟩)
    · rfl
    · unfold fval mag
      simp [e1, f1, e2, f2]

/-! ### C125 -/

/-- C125: on floats that are not NaNs, `Comp` is the three-way order (C01) of their values. -/
theorem comp64_value {a b : BitVec 64} (ha : ¬ isNaN a) (hb : ¬ isNaN b) : comp64 a b = comp (fval a) (fval b) := by
  simp [comp64, comp, flt, ha, hb]

/-- C125: a NaN compares equal to everything. -/
theorem comp64_nan {n : BitVec 64} (hn : isNaN n) (x : BitVec 64) : comp64 n x = 0 ∧ comp64 x n = 0 := by
  simp [comp64, flt, hn]

/-- C125: `Comp` is 0 iff one of the two is a NaN or they are `==`. -/
theorem comp64_zero (a b : BitVec 64) : comp64 a b = 0 ↔ isNaN a ∨ isNaN b ∨ Hasher.f64Eq a b := by
  by_cases ha : isNaN a
  · simp [comp64_nan ha, ha]
  by_cases hb : isNaN b
  · simp [comp64_nan hb, hb]
  rw [comp64_value ha hb, ← fval_eq ha hb]
  simp only [ha, hb, false_or]
  exact (comp_cases (fval a) (fval b)).2.1

/-- C125: on the floats that are not NaNs `Comp` is a comparator as every container here needs it. -/
theorem comp64_threeWay : Compare.ThreeWay (fun a b : {x : BitVec 64 // ¬ isNaN x} => comp64 a.1 b.1) where
  flip a b := by rw [comp64_value a.2 b.2, comp64_value b.2 a.2]; exact comp_strict.flip _ _
  trans a b c h1 h2 := by
    rw [comp64_value a.2 b.2] at h1
    rw [comp64_value b.2 c.2] at h2
    rw [comp64_value a.2 c.2]
    exact comp_strict.trans _ _ _ h1 h2
  range a b := by rw [comp64_value a.2 b.2]; exact comp_range _ _

/-- C125: on a set of floats `Comp` is a consistent order iff the set has no NaN, or all its members compare equal: a single NaN among two different
numbers destroys it. -/
theorem comp64_lawful_iff (S : BitVec 64 → Prop) : Compare.Lawful (fun a b : {x : BitVec 64 // S x} => comp64 a.1 b.1) ↔
    (∀ x, S x → ¬ isNaN x) ∨ (∀ a b, S a → S b → comp64 a b = 0) := by
  constructor
  · intro h
    by_contra hc
    simp only [not_or, not_forall, not_not] at hc
    obtain ⟨⟨n, hn, hnan⟩, a, b, ha, hb, hab⟩ := hc
    have l1 := comp64_nan hnan a
    have l2 := comp64_nan hnan b
    have h1 := h.trans ⟨a, ha⟩ ⟨n, hn⟩ ⟨b, hb⟩ (by simp [l1]) (by simp [l2])
    have h2 := h.trans ⟨b, hb⟩ ⟨n, hn⟩ ⟨a, ha⟩ (by simp [l2]) (by simp [l1])
    have h3 := h.flip ⟨a, ha⟩ ⟨b, hb⟩
    simp only at h1 h2 h3
    omega
  · rintro (h | h)
    · exact { flip := fun a b => comp64_threeWay.flip ⟨a.1, h _ a.2⟩ ⟨b.1, h _ b.2⟩
              trans := fun a b c => comp64_threeWay.trans ⟨a.1, h _ a.2⟩ ⟨b.1, h _ b.2⟩ ⟨c.1, h _ c.2⟩ }
    · exact { flip := fun a b => by simp [h _ _ a.2 b.2, h _ _ b.2 a.2]
              trans := fun a b c _ _ => by simp [h _ _ a.2 c.2] }

set_option exponentiation.threshold 3000 in
set_option maxRecDepth 8000 in
/-- 1.0, 2.0, 3.0, a NaN, -0.0 and an infinity. -/
theorem comp64_some : comp64 0x3ff0000000000000 0x4000000000000000 = -1 ∧ comp64 0x4008000000000000 0x4000000000000000 = 1 ∧
    comp64 0x7ff8000000000001 0x4000000000000000 = 0 ∧ comp64 0x8000000000000000 0 = 0 ∧ comp64 0xfff0000000000000 0xffefffffffffffff = -1 := by
  refine ⟨?_, ?_, ?_, ?_, ?_⟩ <;> simp [comp64, flt, isNaN, fval, mag, expo, frac, neg]

end Gds.Fn
