import Verif.Hasher.Props

/-! C68 for 16-bit keys: the 65536 hashes are pairwise different.  The kernel sorts all of them (a complete evaluation over the
whole key space, by a checker proved sound below). -/

namespace Gds.Hasher.Word

def merge : Nat → List Nat → List Nat → List Nat
  | 0, _, _ => []
  | _ + 1, [], b => b
  | _ + 1, a, [] => a
  | f + 1, x :: a, y :: b => bif Nat.blt x y then x :: merge f a (y :: b) else y :: merge f (x :: a) b

/-- `wordHasher` before its last two bijective steps, on numbers. -/
def inner (lo : Nat) : Nat :=
  let h := Nat.xor (2870177450012600261 + 2) (lo * 2870177450012600261 % 18446744073709551616)
  Nat.lor (Nat.shiftLeft h 11 % 18446744073709551616) (Nat.shiftRight h 53) * 11400714785074694791 % 18446744073709551616

def val (x : Nat) : Nat := Nat.xor (inner (x % 256)) (x / 256 * 2870177450012600261 % 18446744073709551616)

/-- The high byte of the key with low byte `lo` whose value ends in the byte `b`. -/
def hi (b lo : Nat) : Nat := Nat.xor b (inner lo % 256) * 13 % 256

/-- The value of that key. -/
def cls (b lo : Nat) : Nat := Nat.xor (inner lo) (hi b lo * 2870177450012600261 % 18446744073709551616)

/-- The values of `f` at the `2^d` numbers from `p * 2^d` on, sorted. -/
def sorted (f : Nat → Nat) : Nat → Nat → List Nat
  | 0, p => [f p]
  | d + 1, p => merge (2 ^ (d + 1) + 1) (sorted f d (2 * p)) (sorted f d (2 * p + 1))

def increasing : List Nat → Bool
  | [] => true
  | x :: l => match l with
    | [] => true
    | y :: _ => bif Nat.blt x y then increasing l else false

theorem merge_perm : ∀ (f : Nat) (a b : List Nat), a.length + b.length < f → (merge f a b).Perm (a ++ b)
  | 0, _, _, h => by omega
  | f + 1, [], b, _ => by simp [merge]
  | f + 1, x :: a, [], _ => by simp [merge]
  | f + 1, x :: a, y :: b, h => by
    simp only [List.length_cons] at h
    rw [merge]
    cases Nat.blt x y
    · simp only [cond_false]
      exact ((merge_perm f (x :: a) b (by simp only [List.length_cons]; omega)).cons y).trans List.perm_middle.symm
    · simp only [cond_true, List.cons_append]
      exact (merge_perm f a (y :: b) (by simp only [List.length_cons]; omega)).cons x

theorem sorted_perm (f : Nat → Nat) : ∀ d p, (sorted f d p).Perm ((List.range (2 ^ d)).map fun i => f (p * 2 ^ d + i))
  | 0, p => by simp [sorted]
  | d + 1, p => by
    have h1 := sorted_perm f d (2 * p)
    have h2 := sorted_perm f d (2 * p + 1)
    have l1 := h1.length_eq
    have l2 := h2.length_eq
    simp only [List.length_map, List.length_range] at l1 l2
    rw [sorted]
    refine (merge_perm _ _ _ (by rw [l1, l2, Nat.pow_succ]; omega)).trans ((h1.append h2).trans ?_)
    rw [Nat.pow_succ, Nat.mul_two, List.range_add, List.map_append, List.map_map]
    apply List.Perm.of_eq
    congr 1
    · apply List.map_congr_left
      intro i _
      congr 2
      rw [Nat.mul_add]; rw [Nat.mul_assoc, Nat.two_mul]
    · apply List.map_congr_left
      intro i _
      simp only [Function.comp_apply]
      congr 1
      rw [Nat.mul_add, Nat.add_mul, Nat.mul_assoc, Nat.two_mul]; omega

theorem increasing_head : ∀ {l : List Nat} {x : Nat}, increasing (x :: l) = true → (∀ y ∈ l, x < y) ∧ increasing l = true
  | [], _, _ => ⟨by simp, rfl⟩
  | y :: l, x, h => by
    rw [increasing] at h
    cases hb : Nat.blt x y with
    | false => simp [hb] at h
    | true =>
      simp only [hb, cond_true] at h
      have hlt : x < y := by simpa [Nat.blt_eq] using hb
      obtain ⟨h1, h2⟩ := increasing_head h
      refine ⟨?_, h⟩
      intro z hz
      rcases List.mem_cons.1 hz with rfl | hz
      · exact hlt
      · exact Nat.lt_trans hlt (h1 z hz)

theorem increasing_nodup : ∀ {l : List Nat}, increasing l = true → l.Nodup
  | [], _ => List.nodup_nil
  | x :: l, h => by
    obtain ⟨h1, h2⟩ := increasing_head h
    exact List.nodup_cons.2 ⟨fun hm => Nat.lt_irrefl _ (h1 x hm), increasing_nodup h2⟩

/-- The classes of the bytes `b … b + n - 1` have no repetition. -/
def classes (b : Nat) : Nat → Bool
  | 0 => true
  | n + 1 => bif increasing (sorted (cls (b + n)) 8 0) then classes b n else false

theorem classes_sound {b : Nat} : ∀ {n : Nat}, classes b n = true → ∀ c, b ≤ c → c < b + n → ((List.range 256).map (cls c)).Nodup
  | 0, _, c, h1, h2 => by omega
  | n + 1, h, c, h1, h2 => by
    rw [classes] at h
    cases hi : increasing (sorted (cls (b + n)) 8 0) with
    | false => rw [hi] at h; cases h
    | true =>
      rw [hi, cond_true] at h
      by_cases hc : c = b + n
      · subst hc
        have := (sorted_perm (cls (b + n)) 8 0).nodup_iff.1 (increasing_nodup hi)
        simpa only [Nat.zero_mul, Nat.zero_add] using this
      · exact classes_sound h c h1 (by omega)

/-! The kernel evaluates the sorts of all 256 classes of 256 values. -/

theorem check0 : classes 0 16 = true := by decide +kernel
theorem check1 : classes 16 16 = true := by decide +kernel
theorem check2 : classes 32 16 = true := by decide +kernel
theorem check3 : classes 48 16 = true := by decide +kernel
theorem check4 : classes 64 16 = true := by decide +kernel
theorem check5 : classes 80 16 = true := by decide +kernel
theorem check6 : classes 96 16 = true := by decide +kernel
theorem check7 : classes 112 16 = true := by decide +kernel
theorem check8 : classes 128 16 = true := by decide +kernel
theorem check9 : classes 144 16 = true := by decide +kernel
theorem check10 : classes 160 16 = true := by decide +kernel
theorem check11 : classes 176 16 = true := by decide +kernel
theorem check12 : classes 192 16 = true := by decide +kernel
theorem check13 : classes 208 16 = true := by decide +kernel
theorem check14 : classes 224 16 = true := by decide +kernel
theorem check15 : classes 240 16 = true := by decide +kernel

theorem all_classes (c : Nat) (hc : c < 256) : ((List.range 256).map (cls c)).Nodup := by
  have h : 16 * (c / 16) ≤ c ∧ c < 16 * (c / 16) + 16 := by omega
  obtain ⟨h1, h2⟩ := h
  have hk : c / 16 < 16 := by omega
  generalize c / 16 = k at h1 h2 hk
  rcases (by omega : k = 0 ∨ k = 1 ∨ k = 2 ∨ k = 3 ∨ k = 4 ∨ k = 5 ∨ k = 6 ∨ k = 7 ∨ k = 8 ∨ k = 9 ∨ k = 10 ∨ k = 11 ∨ k = 12 ∨ k = 13 ∨
    k = 14 ∨ k = 15) with rfl | rfl | rfl | rfl | rfl | rfl | rfl | rfl | rfl | rfl | rfl | rfl | rfl | rfl | rfl | rfl
  · exact classes_sound check0 c h1 h2
  · exact classes_sound check1 c h1 h2
  · exact classes_sound check2 c h1 h2
  · exact classes_sound check3 c h1 h2
  · exact classes_sound check4 c h1 h2
  · exact classes_sound check5 c h1 h2
  · exact classes_sound check6 c h1 h2
  · exact classes_sound check7 c h1 h2
  · exact classes_sound check8 c h1 h2
  · exact classes_sound check9 c h1 h2
  · exact classes_sound check10 c h1 h2
  · exact classes_sound check11 c h1 h2
  · exact classes_sound check12 c h1 h2
  · exact classes_sound check13 c h1 h2
  · exact classes_sound check14 c h1 h2
  · exact classes_sound check15 c h1 h2

theorem hi_eq {x : Nat} (hx : x < 65536) : hi (val x % 256) (x % 256) = x / 256 := by
  have h1 : val x % 256 = Nat.xor (inner (x % 256) % 256) (x / 256 * 2870177450012600261 % 18446744073709551616 % 256) :=
    Nat.xor_mod_two_pow (n := 8)
  have h2 : x / 256 * 2870177450012600261 % 18446744073709551616 % 256 = x / 256 * 197 % 256 := by omega
  have h3 : Nat.xor (val x % 256) (inner (x % 256) % 256) = x / 256 * 197 % 256 := by
    rw [h1, h2]
    generalize inner (x % 256) % 256 = a
    generalize x / 256 * 197 % 256 = b
    show (a ^^^ b) ^^^ a = b
    rw [Nat.xor_comm a b, Nat.xor_assoc, Nat.xor_self, Nat.xor_zero]
  rw [hi, h3]
  omega

theorem val_eq_cls {x : Nat} (hx : x < 65536) : val x = cls (val x % 256) (x % 256) := by
  rw [cls, hi_eq hx]; rfl

theorem nodup_map_range {f : Nat → Nat} {n i j : Nat} (h : ((List.range n).map f).Nodup) (hi : i < n) (hj : j < n) (e : f i = f j) : i = j := by
  have hp := List.pairwise_map.1 h
  rw [List.pairwise_iff_getElem] at hp
  rcases Nat.lt_trichotomy i j with hlt | he | hlt
  · have := hp i j (by simpa using hi) (by simpa using hj) hlt
    simp only [List.getElem_range] at this
    exact absurd e this
  · exact he
  · have := hp j i (by simpa using hj) (by simpa using hi) hlt
    simp only [List.getElem_range] at this
    exact absurd e.symm this

theorem val_inj {x y : Nat} (hx : x < 65536) (hy : y < 65536) (h : val x = val y) : x = y := by
  have hc : cls (val x % 256) (x % 256) = cls (val x % 256) (y % 256) := by
    rw [← val_eq_cls hx]
    conv => rhs; rw [h]
    rw [← val_eq_cls hy]; exact h
  have hl : x % 256 = y % 256 := nodup_map_range (all_classes (val x % 256) (by omega)) (by omega) (by omega) hc
  have h1 := hi_eq hx
  have h2 := hi_eq hy
  rw [← h, ← hl, h1] at h2
  omega

end Gds.Hasher.Word

namespace Gds.Hasher

theorem word_val (x : BitVec 16) :
    (((prime5 + 2 ^^^ (x.setWidth 64 &&& 0xff) * prime5 : W).rotateLeft 11 * prime1) ^^^ (x.setWidth 64 >>> 8 &&& 0xff) * prime5).toNat =
      Word.val x.toNat := by
  have hx := x.isLt
  have h1 : (x.setWidth 64 &&& 0xff : W).toNat = x.toNat % 256 := by
    rw [BitVec.toNat_and, BitVec.toNat_setWidth, Nat.mod_eq_of_lt (a := x.toNat) (by omega)]
    exact Nat.and_two_pow_sub_one_eq_mod _ 8
  have h2 : (x.setWidth 64 >>> 8 &&& 0xff : W).toNat = x.toNat / 256 := by
    rw [BitVec.toNat_and, BitVec.toNat_ushiftRight, BitVec.toNat_setWidth, Nat.mod_eq_of_lt (a := x.toNat) (by omega)]
    refine (Nat.and_two_pow_sub_one_eq_mod _ 8).trans ?_
    rw [Nat.shiftRight_eq_div_pow]; omega
  rw [BitVec.toNat_xor, BitVec.toNat_mul, BitVec.toNat_mul, BitVec.rotateLeft_def, BitVec.toNat_or, BitVec.toNat_shiftLeft,
    BitVec.toNat_ushiftRight, BitVec.toNat_xor, BitVec.toNat_mul, h1, h2]
  rfl

/-- C68, 16-bit keys. -/
theorem wordHasher_injective {x y : BitVec 16} (h : wordHasher x = wordHasher y) : x = y := by
  have h' := rol_inj 11 (by omega) (mul1 (avalanche_inj h))
  have hv := congrArg BitVec.toNat h'
  have := (word_val x).symm.trans (hv.trans (word_val y))
  exact BitVec.eq_of_toNat_eq (Word.val_inj x.isLt y.isLt this)

attribute [local irreducible] byteHasher wordHasher dwordHasher qwordHasher in
/-- C68 through the API: two keys of the same predeclared fixed-width type other than complex128 (every integer type, floats,
complex64, pointers; 32- and 64-bit platforms) with the same hash have the same bits. -/
theorem hash_injective_all (w : IntSize) {k : Kind} (hk : k ≠ .string ∧ k ≠ .complex128) {x y : Key}
    (hx : x.shape = k.shape w) (hy : y.shape = k.shape w) {h : W} (h1 : hash w (.predeclared k) x = .ok h)
    (h2 : hash w (.predeclared k) y = .ok h) : x = y := by
  have e : hash w (.predeclared k) x = hash w (.predeclared k) y := by rw [h1, h2]
  clear h1 h2
  cases w <;> cases k <;> simp at hk <;> cases x <;> simp [Kind.shape, Key.shape] at hx <;> cases y <;>
    simp [Kind.shape, Key.shape] at hy <;> simp only [hash, getHashFunc, cast8, cast16, cast32, cast64, Res.ok.injEq] at e <;>
    first
    | exact congrArg Key.b8 (byteHasher_injective e)
    | exact congrArg Key.b16 (wordHasher_injective e)
    | exact congrArg Key.b32 (dwordHasher_injective e)
    | exact congrArg Key.b64 (qwordHasher_injective e)

example : wordHasher 3 ≠ wordHasher 0x300 := fun h => absurd (wordHasher_injective h) (by decide)

end Gds.Hasher
