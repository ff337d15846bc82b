import Verif.Hasher.Lemmas

/-! Properties C68 – C70, C74, C75 of `util/hasher`. -/

namespace Gds.Hasher

/-! ### C68: no collisions on fixed-width keys -/

/-- C68, 8-bit keys. -/
theorem byteHasher_injective {x y : BitVec 8} (h : byteHasher x = byteHasher y) : x = y := by
  have := mul5 ((BitVec.xor_right_inj _).1 (rol_inj 11 (by omega) (mul1 (avalanche_inj h))))
  exact setWidth_inj (by omega) this

/-- C68, 32-bit keys. -/
theorem dwordHasher_injective {x y : BitVec 32} (h : dwordHasher x = dwordHasher y) : x = y := by
  have := mul1 ((BitVec.xor_right_inj _).1 (rol_inj 23 (by omega) (mul2 (add_inj _ (avalanche_inj h)))))
  exact setWidth_inj (by omega) this

/-- C68, 64-bit keys. -/
theorem qwordHasher_injective {x y : BitVec 64} (h : qwordHasher x = qwordHasher y) : x = y := by
  exact mul2 (rol_inj 31 (by omega) (mul1 ((BitVec.xor_right_inj _).1 (rol_inj 27 (by omega) (mul1 (add_inj _ (avalanche_inj h)))))))

attribute [local irreducible] byteHasher dwordHasher qwordHasher in
/-- C68 through the API: two keys of the same 8-, 32- or 64-bit type (every predeclared integer type but the 16-bit ones,
floats, and on either platform int, uint, uintptr and pointers) with the same hash have the same bits. -/
theorem hash_injective (w : IntSize) {k : Kind} (hk : k.shape w = .s8 ∨ k.shape w = .s32 ∨ k.shape w = .s64) {x y : Key}
    (hx : x.shape = k.shape w) (hy : y.shape = k.shape w) {h : W} (h1 : hash w (.predeclared k) x = .ok h)
    (h2 : hash w (.predeclared k) y = .ok h) : x = y := by
  have e : hash w (.predeclared k) x = hash w (.predeclared k) y := by rw [h1, h2]
  clear h1 h2
  cases w <;> cases k <;> simp [Kind.shape] at hk <;> cases x <;> simp [Kind.shape, Key.shape] at hx <;> cases y <;>
    simp [Kind.shape, Key.shape] at hy <;> simp only [hash, getHashFunc, cast8, cast32, cast64, Res.ok.injEq] at e <;>
    first
    | exact congrArg Key.b8 (byteHasher_injective e)
    | exact congrArg Key.b32 (dwordHasher_injective e)
    | exact congrArg Key.b64 (qwordHasher_injective e)

/-! ### C69: agreement with the string hasher -/

theorem stringHasher_short {s : List Byte} (h : s.length < 32) :
    stringHasher s = avalanche (tailBytes (dword (words (prime5 + BitVec.ofNat 64 s.length) s).1 (words (prime5 + BitVec.ofNat 64 s.length) s).2).1
      (dword (words (prime5 + BitVec.ofNat 64 s.length) s).1 (words (prime5 + BitVec.ofNat 64 s.length) s).2).2) := by
  have : start s = (prime5, s) := by rw [start, if_neg (by omega)]
  rw [stringHasher, this]

/-- C69, 8-bit keys: the hash of the one-byte string. -/
theorem byteHasher_eq_string (x : BitVec 8) : byteHasher x = stringHasher [x] := by
  rw [stringHasher_short (by simp), words, if_neg (by simp), dword, if_neg (by simp)]
  rfl

/-- C69, 16-bit keys: low byte first. -/
theorem wordHasher_eq_string (x : BitVec 16) : wordHasher x = stringHasher [x.setWidth 8, (x >>> 8).setWidth 8] := by
  rw [stringHasher_short (by simp), words, if_neg (by simp), dword, if_neg (by simp)]
  have h1 : (x.setWidth 64 &&& 0xff : W) = (x.setWidth 8).setWidth 64 := by
    apply BitVec.eq_of_getLsbD_eq
    intro i hi
    have h8 : (0xff : W).getLsbD i = decide (i < 8) := by
      have : ∀ j : Fin 64, (0xff : W).getLsbD j = decide (j.val < 8) := by decide
      exact this ⟨i, hi⟩
    simp only [BitVec.getLsbD_and, BitVec.getLsbD_setWidth, h8]
    grind
  have h2 : (x.setWidth 64 >>> 8 &&& 0xff : W) = ((x >>> 8).setWidth 8).setWidth 64 := by
    apply BitVec.eq_of_getLsbD_eq
    intro i hi
    have h8 : (0xff : W).getLsbD i = decide (i < 8) := by
      have : ∀ j : Fin 64, (0xff : W).getLsbD j = decide (j.val < 8) := by decide
      exact this ⟨i, hi⟩
    simp only [BitVec.getLsbD_and, BitVec.getLsbD_setWidth, BitVec.getLsbD_ushiftRight, h8]
    grind
  unfold wordHasher
  rw [h1, h2]
  rfl

/-- C69, 32-bit keys. -/
theorem dwordHasher_eq_string (x : BitVec 32) : dwordHasher x = stringHasher (le32 x) := by
  have hl : (le32 x).length = 4 := rfl
  have hu := u32_le x []
  rw [List.append_nil] at hu
  rw [stringHasher_short (by omega), words, if_neg (by omega), dword, if_pos (by simp [hl]), hu]
  rfl

/-- C69, 64-bit keys. -/
theorem qwordHasher_eq_string (x : BitVec 64) : qwordHasher x = stringHasher (le64 x) := by
  have hl : (le64 x).length = 8 := rfl
  have hu := u64_le x []
  rw [List.append_nil] at hu
  have hd : (le64 x).drop 8 = [] := rfl
  rw [stringHasher_short (by omega), words, if_pos (by omega), hd, words, if_neg (by simp), hu, dword, if_neg (by simp)]
  show _ = avalanche (((prime5 + BitVec.ofNat 64 8) ^^^ round 0 x).rotateLeft 27 * prime1 + prime4)
  unfold qwordHasher round
  rw [show (0 : W) = 0#64 from rfl, BitVec.zero_add]
  rfl

/-- C69, complex128 keys. -/
theorem complex128Hasher_eq_string (lo hi : W) : complex128Hasher lo hi = stringHasher (le64 lo ++ le64 hi) := by
  have hl : (le64 lo ++ le64 hi).length = 16 := rfl
  have h1 := u64_le lo (le64 hi)
  have h2 := u64_le hi []
  rw [List.append_nil] at h2
  have hd : (le64 lo ++ le64 hi).drop 8 = le64 hi := rfl
  have hd2 : (le64 hi).drop 8 = [] := rfl
  have hl2 : (le64 hi).length = 8 := rfl
  rw [stringHasher_short (by omega), words, if_pos (by omega), hd, h1, words, if_pos (by omega), hd2, h2, words, if_neg (by simp), dword, if_neg (by simp)]
  unfold complex128Hasher round
  simp only [show (0 : W) = 0#64 from rfl, BitVec.zero_add]
  rfl

/-! ### C70: Hash is defined -/

/-- C70 (partial): on every predeclared type a hash function exists, and Hash returns on every key of that type. -/
theorem hash_defined_partial (w : IntSize) (k : Kind) : (getHashFunc w (.predeclared k)).isSome ∧
    ∀ x : Key, x.shape = k.shape w → ∃ h, hash w (.predeclared k) x = .ok h := by
  refine ⟨by cases w <;> cases k <;> rfl, ?_⟩
  intro x hx
  cases w <;> cases k <;> cases x <;> simp [Kind.shape, Key.shape] at hx <;> exact ⟨_, rfl⟩

/-- C70, the claim that fails: a defined type satisfies the constraint, and Hash panics on every key. -/
theorem hash_defined_refuted (w : IntSize) (name : Nat) (x : Key) :
    (Ty.defined name .int).hashable = true ∧ getHashFunc w (.defined name .int) = none ∧ hash w (.defined name .int) x = .panic .nilDeref :=
  ⟨rfl, rfl, rfl⟩

/-- … and so for every defined type. -/
theorem hash_panics_on_defined (w : IntSize) (name : Nat) (k : Kind) (x : Key) : hash w (.defined name k) x = .panic .nilDeref := rfl

/-! ### C74: equal keys hash equally -/

/-- Go's `==` on float64, on bit patterns: not NaN, and the same bits or both a zero. -/
def f64Eq (a b : BitVec 64) : Prop :=
  let nan (x : BitVec 64) := (x >>> 52 &&& 0x7ff) = 0x7ff ∧ (x &&& 0xfffffffffffff) ≠ 0
  ¬ nan a ∧ ¬ nan b ∧ (a = b ∨ (a &&& 0x7fffffffffffffff = 0 ∧ b &&& 0x7fffffffffffffff = 0))

/-- C74 (partial): keys of any predeclared type with the same bits (so equal keys of integer, pointer and string types) hash
equally; for floats, equal keys hash equally unless they are the two zeros. -/
theorem float_equal_partial (w : IntSize) {a b : BitVec 64} (h : f64Eq a b) (hz : a &&& 0x7fffffffffffffff ≠ 0) :
    hash w (.predeclared .float64) (.b64 a) = hash w (.predeclared .float64) (.b64 b) := by
  rcases h.2.2 with rfl | h
  · rfl
  · exact absurd h.1 hz

/-- C74, the claim that fails: 0.0 == -0.0, and they hash differently. -/
theorem float_equal_refuted (w : IntSize) : f64Eq 0 0x8000000000000000 ∧
    hash w (.predeclared .float64) (.b64 0) ≠ hash w (.predeclared .float64) (.b64 0x8000000000000000) := by
  refine ⟨⟨by decide, by decide, .inr ⟨by decide, by decide⟩⟩, ?_⟩
  intro h
  have h' : qwordHasher 0 = qwordHasher 0x8000000000000000 := by
    simpa [hash, getHashFunc, cast64] using h
  exact absurd (qwordHasher_injective h') (by decide)

/-! ### C75: a single changed byte is always detected in short strings -/

theorem tailBytes_inj {h h' : W} {b : List Byte} (e : tailBytes h b = tailBytes h' b) : h = h' := by
  induction b generalizing h h' with
  | nil => exact e
  | cons x b ih => exact (BitVec.xor_left_inj _).1 (rol_inj 11 (by omega) (mul1 (ih e)))

theorem tailBytes_diff {h : W} {pre post : List Byte} {x y : Byte} (e : tailBytes h (pre ++ x :: post) = tailBytes h (pre ++ y :: post)) : x = y := by
  induction pre generalizing h with
  | nil => exact setWidth_inj (by omega) (mul5 ((BitVec.xor_right_inj _).1 (rol_inj 11 (by omega) (mul1 (tailBytes_inj e)))))
  | cons z pre ih => exact ih e

/-- The 4-byte step and the tail. -/
def rest (h : W) (b : List Byte) : W := tailBytes (dword h b).1 (dword h b).2

theorem rest_inj {h h' : W} {b : List Byte} (e : rest h b = rest h' b) : h = h' := by
  unfold rest dword at e
  split at e
  · exact (BitVec.xor_left_inj _).1 (rol_inj 23 (by omega) (mul2 (add_inj _ (tailBytes_inj e))))
  · exact tailBytes_inj e

theorem u64_bytes {a b : List Byte} (e : u64 a = u64 b) (i : Nat) (hi : i < 8) : a.getD i 0 = b.getD i 0 := by
  apply BitVec.eq_of_getLsbD_eq
  intro j hj
  have := congrArg (fun z : W => z.getLsbD (8 * i + j)) e
  simp only [u64, BitVec.getLsbD_or, BitVec.getLsbD_shiftLeft, BitVec.getLsbD_setWidth] at this
  have h8 : i = 0 ∨ i = 1 ∨ i = 2 ∨ i = 3 ∨ i = 4 ∨ i = 5 ∨ i = 6 ∨ i = 7 := by omega
  rcases h8 with rfl | rfl | rfl | rfl | rfl | rfl | rfl | rfl <;> grind

theorem u32_bytes {a b : List Byte} (e : u32 a = u32 b) (i : Nat) (hi : i < 4) : a.getD i 0 = b.getD i 0 := by
  apply BitVec.eq_of_getLsbD_eq
  intro j hj
  have := congrArg (fun z : BitVec 32 => z.getLsbD (8 * i + j)) e
  simp only [u32, BitVec.getLsbD_or, BitVec.getLsbD_shiftLeft, BitVec.getLsbD_setWidth] at this
  have h8 : i = 0 ∨ i = 1 ∨ i = 2 ∨ i = 3 := by omega
  rcases h8 with rfl | rfl | rfl | rfl <;> grind

theorem getD_mid (pre post : List Byte) (x : Byte) : (pre ++ x :: post).getD pre.length 0 = x := by simp [List.getD]

theorem rest_diff {h : W} {pre post : List Byte} {x y : Byte} (e : rest h (pre ++ x :: post) = rest h (pre ++ y :: post)) : x = y := by
  unfold rest dword at e
  have hlen : (pre ++ x :: post).length = (pre ++ y :: post).length := by simp
  by_cases h4 : 4 ≤ (pre ++ x :: post).length
  · rw [if_pos h4, if_pos (by omega)] at e
    by_cases hp : pre.length < 4
    · have hd : (pre ++ x :: post).drop 4 = (pre ++ y :: post).drop 4 := by
        apply List.ext_getElem?
        intro i
        simp only [List.getElem?_drop]
        rw [List.getElem?_append_right (by omega), List.getElem?_append_right (by omega)]
        obtain ⟨k, hk⟩ : ∃ k, 4 + i - pre.length = k + 1 := ⟨4 + i - pre.length - 1, by omega⟩
        rw [hk]; simp
      simp only [hd] at e
      have := setWidth_inj (by omega) (mul1 ((BitVec.xor_right_inj _).1 (rol_inj 23 (by omega) (mul2 (add_inj _ (tailBytes_inj e))))))
      have := u32_bytes this pre.length hp
      rwa [getD_mid, getD_mid] at this
    · have hu : u32 (pre ++ x :: post) = u32 (pre ++ y :: post) := by
        unfold u32
        have : ∀ i, i < 4 → (pre ++ x :: post).getD i 0 = (pre ++ y :: post).getD i 0 := by
          intro i hi
          simp only [List.getD, List.getElem?_append_left (show i < pre.length by omega)]
        rw [this 0 (by omega), this 1 (by omega), this 2 (by omega), this 3 (by omega)]
      simp only [hu, List.drop_append_of_le_length (show 4 ≤ pre.length by omega)] at e
      exact tailBytes_diff e
  · rw [if_neg h4, if_neg (by omega)] at e
    exact tailBytes_diff e

theorem words_step {h : W} {b : List Byte} (hb : 8 ≤ b.length) : words h b = words ((h ^^^ round 0 (u64 b)).rotateLeft 27 * prime1 + prime4) (b.drop 8) := by
  rw [words, if_pos hb]

theorem words_done {h : W} {b : List Byte} (hb : ¬ 8 ≤ b.length) : words h b = (h, b) := by rw [words, if_neg hb]

/-- Everything after the length has been added. -/
def body (h : W) (b : List Byte) : W := rest (words h b).1 (words h b).2

theorem body_step (h : W) (b : List Byte) (hb : 8 ≤ b.length) : body h b = body ((h ^^^ round 0 (u64 b)).rotateLeft 27 * prime1 + prime4) (b.drop 8) := by
  unfold body; rw [words_step hb]

theorem body_done (h : W) (b : List Byte) (hb : ¬ 8 ≤ b.length) : body h b = rest h b := by unfold body; rw [words_done hb]

theorem body_inj (n : Nat) : ∀ {h h' : W} {b : List Byte}, b.length ≤ n → body h b = body h' b → h = h' := by
  induction n with
  | zero =>
    intro h h' b hb e
    unfold body at e
    rw [words_done (by omega), words_done (by omega)] at e
    exact rest_inj e
  | succ n ih =>
    intro h h' b hb e
    unfold body at e
    by_cases h8 : 8 ≤ b.length
    · rw [words_step h8, words_step h8] at e
      have := ih (b := b.drop 8) (by simp; omega) e
      exact (BitVec.xor_left_inj _).1 (rol_inj 27 (by omega) (mul1 (add_inj _ this)))
    · rw [words_done h8, words_done h8] at e
      exact rest_inj e

theorem body_diff (n : Nat) : ∀ {h : W} {pre post : List Byte} {x y : Byte}, pre.length ≤ n →
    body h (pre ++ x :: post) = body h (pre ++ y :: post) → x = y := by
  induction n with
  | zero =>
    intro h pre post x y hn e
    have : pre = [] := List.length_eq_zero_iff.1 (by omega)
    subst this
    have hlen : ([] ++ x :: post).length = ([] ++ y :: post).length := by simp
    by_cases h8 : 8 ≤ ([] ++ x :: post).length
    · rw [body_step h ([] ++ x :: post) h8, body_step h ([] ++ y :: post) (by omega)] at e
      have := body_inj _ (b := ([] ++ x :: post).drop 8) (Nat.le_refl _) (h := (h ^^^ round 0 (u64 ([] ++ x :: post))).rotateLeft 27 * prime1 + prime4)
        (h' := (h ^^^ round 0 (u64 ([] ++ y :: post))).rotateLeft 27 * prime1 + prime4) e
      have := round0_inj ((BitVec.xor_right_inj _).1 (rol_inj 27 (by omega) (mul1 (add_inj _ this))))
      have := u64_bytes this 0 (by omega)
      simpa using this
    · rw [body_done _ _ h8, body_done h ([] ++ y :: post) (by omega)] at e
      exact rest_diff (pre := []) e
  | succ n ih =>
    intro h pre post x y hn e
    have hlen : (pre ++ x :: post).length = (pre ++ y :: post).length := by simp
    by_cases h8 : 8 ≤ (pre ++ x :: post).length
    · rw [body_step h (pre ++ x :: post) h8, body_step h (pre ++ y :: post) (by omega)] at e
      by_cases hp : pre.length < 8
      · have hd : (pre ++ x :: post).drop 8 = (pre ++ y :: post).drop 8 := by
          apply List.ext_getElem?
          intro i
          simp only [List.getElem?_drop]
          rw [List.getElem?_append_right (by omega), List.getElem?_append_right (by omega)]
          obtain ⟨k, hk⟩ : ∃ k, 8 + i - pre.length = k + 1 := ⟨8 + i - pre.length - 1, by omega⟩
          rw [hk]; simp
        rw [hd] at e
        have := body_inj _ (b := (pre ++ y :: post).drop 8) (Nat.le_refl _) (h := (h ^^^ round 0 (u64 (pre ++ x :: post))).rotateLeft 27 * prime1 + prime4)
          (h' := (h ^^^ round 0 (u64 (pre ++ y :: post))).rotateLeft 27 * prime1 + prime4) e
        have := round0_inj ((BitVec.xor_right_inj _).1 (rol_inj 27 (by omega) (mul1 (add_inj _ this))))
        have := u64_bytes this pre.length hp
        rwa [getD_mid, getD_mid] at this
      · have hu : u64 (pre ++ x :: post) = u64 (pre ++ y :: post) := by
          unfold u64
          have : ∀ i, i < 8 → (pre ++ x :: post).getD i 0 = (pre ++ y :: post).getD i 0 := by
            intro i hi
            simp only [List.getD, List.getElem?_append_left (show i < pre.length by omega)]
          rw [this 0 (by omega), this 1 (by omega), this 2 (by omega), this 3 (by omega), this 4 (by omega), this 5 (by omega), this 6 (by omega),
            this 7 (by omega)]
        rw [hu, List.drop_append_of_le_length (show 8 ≤ pre.length by omega), List.drop_append_of_le_length (show 8 ≤ pre.length by omega)] at e
        exact ih (pre := pre.drop 8) (by simp; omega) e
    · rw [body_done _ _ h8, body_done h (pre ++ y :: post) (by omega)] at e
      exact rest_diff e

/-- C75: two strings of fewer than 32 bytes that differ in exactly one byte have different hashes. -/
theorem one_byte_change {pre post : List Byte} {x y : Byte} (hl : (pre ++ x :: post).length < 32) (hxy : x ≠ y) :
    stringHasher (pre ++ x :: post) ≠ stringHasher (pre ++ y :: post) := by
  intro e
  have hlen : (pre ++ x :: post).length = (pre ++ y :: post).length := by simp
  rw [stringHasher_short hl, stringHasher_short (by omega), ← hlen] at e
  exact hxy (body_diff _ (Nat.le_refl _) (avalanche_inj e))

/-! ### Non-vacuity -/

example : byteHasher 3 ≠ byteHasher 4 := by decide
example : hash .b64 (.predeclared .string) (.str [1, 2, 3]) ≠ hash .b64 (.predeclared .string) (.str [1, 7, 3]) := by
  intro h
  have := one_byte_change (pre := [1]) (x := 2) (y := 7) (post := [3]) (by decide) (by decide)
  exact this (by simpa [hash, getHashFunc, castStr] using h)

end Gds.Hasher
