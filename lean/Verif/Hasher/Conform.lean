import Verif.Hasher.Props
import Verif.Hasher.XXH64

/-! C85: every hash function of `util/hasher` is XXH64 (seed 0) of the bytes of the key. -/

namespace Gds.Hasher

theorem primes : prime1 = XXH64.P1 ∧ prime2 = XXH64.P2 ∧ prime3 = XXH64.P3 ∧ prime4 = XXH64.P4 ∧ prime5 = XXH64.P5 := by decide

theorem rotl_eq (x : W) {r : Nat} (h : r < 64) : XXH64.rotl x r = x.rotateLeft r := by
  rw [XXH64.rotl, BitVec.rotateLeft_def, Nat.mod_eq_of_lt h]

theorem round_eq (a x : W) : XXH64.round a x = round a x := by
  rw [XXH64.round, round, rotl_eq _ (by omega), primes.1, primes.2.1]

theorem merge_eq (a x : W) : XXH64.mergeAccumulator a x = mergeRound a x := by
  rw [XXH64.mergeAccumulator, mergeRound, round_eq, primes.1, primes.2.2.2.1]

theorem mix_eq (h : W) : XXH64.mix h = avalanche h := rfl

theorem or_step {n : Nat} {a : BitVec n} {x : Byte} {k : Nat} (hk : k + 8 ≤ n) (ha : a.toNat < 2 ^ k) :
    (a ||| x.setWidth n <<< k).toNat = a.toNat + x.toNat * 2 ^ k ∧ (a ||| x.setWidth n <<< k).toNat < 2 ^ (k + 8) := by
  have hx : x.toNat < 2 ^ 8 := x.isLt
  have h1 : x.toNat * 2 ^ k < 2 ^ (k + 8) := by
    rw [Nat.pow_add, Nat.mul_comm (2 ^ k)]
    exact Nat.mul_lt_mul_of_pos_right hx (Nat.two_pow_pos k)
  have h2 : (2 : Nat) ^ (k + 8) ≤ 2 ^ n := Nat.pow_le_pow_right (by omega) hk
  have h3 : (x.setWidth n <<< k).toNat = x.toNat <<< k := by
    rw [BitVec.toNat_shiftLeft, BitVec.toNat_setWidth, Nat.mod_eq_of_lt (a := x.toNat)]
    · rw [Nat.shiftLeft_eq, Nat.mod_eq_of_lt]; omega
    · exact Nat.lt_of_lt_of_le hx (Nat.pow_le_pow_right (by omega) (by omega))
  have h4 : (a ||| x.setWidth n <<< k).toNat = a.toNat + x.toNat * 2 ^ k := by
    rw [BitVec.toNat_or, h3, Nat.or_comm, ← Nat.shiftLeft_add_eq_or_of_lt ha, Nat.shiftLeft_eq, Nat.add_comm]
  refine ⟨h4, ?_⟩
  rw [h4]
  have h5 : x.toNat + 1 ≤ 2 ^ 8 := hx
  have h6 : (x.toNat + 1) * 2 ^ k ≤ 2 ^ 8 * 2 ^ k := Nat.mul_le_mul_right _ h5
  rw [Nat.pow_add, Nat.mul_comm (2 ^ k)]
  rw [Nat.add_mul, Nat.one_mul] at h6
  omega

theorem getD_drop (b : List Byte) (i j : Nat) : (b.drop i).getD j 0 = b.getD (i + j) 0 := by
  simp only [List.getD_eq_getElem?_getD, List.getElem?_drop]

theorem sum8 (f : Nat → Nat) : ((List.range 8).map f).sum = f 0 + (f 1 + (f 2 + (f 3 + (f 4 + (f 5 + (f 6 + f 7)))))) := by
  have : List.range 8 = [0, 1, 2, 3, 4, 5, 6, 7] := rfl
  rw [this]
  simp only [List.map, List.sum_cons, List.sum_nil, Nat.add_zero]

theorem sum4 (f : Nat → Nat) : ((List.range 4).map f).sum = f 0 + (f 1 + (f 2 + f 3)) := by
  have : List.range 4 = [0, 1, 2, 3] := rfl
  rw [this]
  simp only [List.map, List.sum_cons, List.sum_nil, Nat.add_zero]

/-- Eight bytes joined by or. -/
theorem or8 (x0 x1 x2 x3 x4 x5 x6 x7 : Byte) :
    (x0.setWidth 64 ||| x1.setWidth 64 <<< 8 ||| x2.setWidth 64 <<< 16 ||| x3.setWidth 64 <<< 24 ||| x4.setWidth 64 <<< 32 |||
      x5.setWidth 64 <<< 40 ||| x6.setWidth 64 <<< 48 ||| x7.setWidth 64 <<< 56 : W).toNat =
    x0.toNat + x1.toNat * 2 ^ 8 + x2.toNat * 2 ^ 16 + x3.toNat * 2 ^ 24 + x4.toNat * 2 ^ 32 + x5.toNat * 2 ^ 40 + x6.toNat * 2 ^ 48 +
      x7.toNat * 2 ^ 56 := by
  have hx0 : x0.toNat < 2 ^ 8 := x0.isLt
  have h0 : (x0.setWidth 64).toNat = x0.toNat := BitVec.toNat_setWidth_of_le (by omega)
  have l0 : (x0.setWidth 64).toNat < 2 ^ 8 := by rw [h0]; exact hx0
  obtain ⟨e1, l1⟩ := or_step (n := 64) (a := x0.setWidth 64) (x := x1) (k := 8) (by omega) l0
  obtain ⟨e2, l2⟩ := or_step (x := x2) (k := 16) (by omega) l1
  obtain ⟨e3, l3⟩ := or_step (x := x3) (k := 24) (by omega) l2
  obtain ⟨e4, l4⟩ := or_step (x := x4) (k := 32) (by omega) l3
  obtain ⟨e5, l5⟩ := or_step (x := x5) (k := 40) (by omega) l4
  obtain ⟨e6, l6⟩ := or_step (x := x6) (k := 48) (by omega) l5
  obtain ⟨e7, l7⟩ := or_step (x := x7) (k := 56) (by omega) l6
  rw [e7, e6, e5, e4, e3, e2, e1, h0]

theorem or4 (x0 x1 x2 x3 : Byte) :
    (x0.setWidth 32 ||| x1.setWidth 32 <<< 8 ||| x2.setWidth 32 <<< 16 ||| x3.setWidth 32 <<< 24 : BitVec 32).toNat =
    x0.toNat + x1.toNat * 2 ^ 8 + x2.toNat * 2 ^ 16 + x3.toNat * 2 ^ 24 := by
  have hx0 : x0.toNat < 2 ^ 8 := x0.isLt
  have h0 : (x0.setWidth 32).toNat = x0.toNat := BitVec.toNat_setWidth_of_le (by omega)
  have l0 : (x0.setWidth 32).toNat < 2 ^ 8 := by rw [h0]; exact hx0
  obtain ⟨e1, l1⟩ := or_step (n := 32) (a := x0.setWidth 32) (x := x1) (k := 8) (by omega) l0
  obtain ⟨e2, l2⟩ := or_step (x := x2) (k := 16) (by omega) l1
  obtain ⟨e3, l3⟩ := or_step (x := x3) (k := 24) (by omega) l2
  rw [e3, e2, e1, h0]

theorem p256 (k : Nat) : 256 ^ k = 2 ^ (8 * k) := by
  rw [Nat.pow_mul]

theorem u64_toNat (b : List Byte) (off : Nat) : (u64 (b.drop off)).toNat = XXH64.le b off 8 := by
  unfold u64
  rw [or8, XXH64.le, sum8]
  simp only [getD_drop, Nat.add_zero, p256, Nat.add_assoc]
  rw [Nat.mul_zero, Nat.pow_zero, Nat.mul_one]

theorem u64_drop (b : List Byte) (off : Nat) : u64 (b.drop off) = XXH64.lane b off := by
  rw [XXH64.lane, ← u64_toNat, BitVec.ofNat_toNat, BitVec.setWidth_eq]

theorem u32_toNat (b : List Byte) (off : Nat) : (u32 (b.drop off)).toNat = XXH64.le b off 4 := by
  unfold u32
  rw [or4, XXH64.le, sum4]
  simp only [getD_drop, Nat.add_zero, p256, Nat.add_assoc]
  rw [Nat.mul_zero, Nat.pow_zero, Nat.mul_one]

theorem u32_drop (b : List Byte) (off : Nat) : (u32 (b.drop off)).setWidth 64 = BitVec.ofNat 64 (XXH64.le b off 4) := by
  rw [← u32_toNat, BitVec.ofNat_toNat]

theorem acc0 (s : List Byte) (k : Nat) : XXH64.acc s 0 (k + 1) = XXH64.round (XXH64.acc s 0 k) (XXH64.lane s (32 * k)) := by
  rw [XXH64.acc, show ((0 : Fin 4).val) = 0 from rfl, Nat.mul_zero, Nat.add_zero]
theorem acc1 (s : List Byte) (k : Nat) : XXH64.acc s 1 (k + 1) = XXH64.round (XXH64.acc s 1 k) (XXH64.lane s (32 * k + 8)) := by
  rw [XXH64.acc, show ((1 : Fin 4).val) = 1 from rfl, Nat.mul_one]
theorem acc2 (s : List Byte) (k : Nat) : XXH64.acc s 2 (k + 1) = XXH64.round (XXH64.acc s 2 k) (XXH64.lane s (32 * k + 16)) := by
  rw [XXH64.acc, show 8 * ((2 : Fin 4).val) = 16 from rfl]
theorem acc3 (s : List Byte) (k : Nat) : XXH64.acc s 3 (k + 1) = XXH64.round (XXH64.acc s 3 k) (XXH64.lane s (32 * k + 24)) := by
  rw [XXH64.acc, show 8 * ((3 : Fin 4).val) = 24 from rfl]

/-- The stripe loop, from the state after `k` stripes. -/
theorem stripes_eq (s : List Byte) (k : Nat) (hk : k ≤ s.length / 32) :
    stripes (XXH64.acc s 0 k) (XXH64.acc s 1 k) (XXH64.acc s 2 k) (XXH64.acc s 3 k) (s.drop (32 * k)) =
      (XXH64.acc s 0 (s.length / 32), XXH64.acc s 1 (s.length / 32), XXH64.acc s 2 (s.length / 32), XXH64.acc s 3 (s.length / 32),
        s.drop (32 * (s.length / 32))) := by
  rw [stripes]
  by_cases h : k = s.length / 32
  · rw [if_neg (by rw [List.length_drop]; omega), ← h]
  · rw [if_pos (by rw [List.length_drop]; omega)]
    have := stripes_eq s (k + 1) (by omega)
    rw [acc0, acc1, acc2, acc3, Nat.mul_add, Nat.mul_one] at this
    simp only [List.drop_drop, u64_drop, ← round_eq]
    exact this
termination_by s.length / 32 - k

theorem start_eq (s : List Byte) : start s =
    (if s.length < 32 then XXH64.P5 else XXH64.converge fun i => XXH64.acc s i (s.length / 32), s.drop (32 * (s.length / 32))) := by
  rw [start]
  by_cases h : s.length < 32
  · rw [if_neg (by omega), if_pos h, Nat.div_eq_of_lt h, Nat.mul_zero, List.drop_zero, primes.2.2.2.2]
  · rw [if_pos (by omega), if_neg h]
    have hs := stripes_eq s 0 (by omega)
    rw [Nat.mul_zero, List.drop_zero] at hs
    have hi : stripes (prime1 + prime2) prime2 0 (-prime1) s =
        stripes (XXH64.acc s 0 0) (XXH64.acc s 1 0) (XXH64.acc s 2 0) (XXH64.acc s 3 0) s := by
      have : (-prime1 : W) = 0 - XXH64.P1 := by decide
      rw [this]; rfl
    rw [hi, hs]
    simp only [XXH64.converge, List.foldl, merge_eq, rotl_eq _ (show 1 < 64 by omega), rotl_eq _ (show 7 < 64 by omega),
      rotl_eq _ (show 12 < 64 by omega), rotl_eq _ (show 18 < 64 by omega)]

theorem words_eq (s : List Byte) (h : W) (off : Nat) : words h (s.drop off) =
    (((List.range ((s.length - off) / 8)).map fun k => XXH64.lane s (off + 8 * k)).foldl XXH64.step8 h,
      s.drop (off + 8 * ((s.length - off) / 8))) := by
  rw [words, List.length_drop]
  by_cases hc : 8 ≤ s.length - off
  · rw [if_pos hc, List.drop_drop, words_eq s _ (off + 8)]
    obtain ⟨m, hm⟩ : ∃ m, (s.length - off) / 8 = m + 1 := ⟨(s.length - off) / 8 - 1, by omega⟩
    have hm' : (s.length - (off + 8)) / 8 = m := by omega
    rw [hm, hm', List.range_succ_eq_map, List.map_cons, List.foldl_cons, List.map_map, u64_drop]
    have hs8 : XXH64.step8 h (XXH64.lane s (off + 8 * 0)) =
        (h ^^^ round 0 (XXH64.lane s off)).rotateLeft 27 * prime1 + prime4 := by
      rw [XXH64.step8, rotl_eq _ (by omega), round_eq, primes.1, primes.2.2.2.1, Nat.mul_zero, Nat.add_zero]
    have hmap : (List.range m).map ((fun k => XXH64.lane s (off + 8 * k)) ∘ Nat.succ) =
        (List.range m).map fun k => XXH64.lane s (off + 8 + 8 * k) := by
      apply List.map_congr_left
      intro k _
      rw [Function.comp_apply, Nat.succ_eq_add_one, Nat.mul_add, Nat.mul_one, Nat.add_assoc, Nat.add_comm 8]
    have hoff : off + 8 * (m + 1) = off + 8 + 8 * m := by omega
    rw [hs8, hmap, hoff]
  · have : (s.length - off) / 8 = 0 := by omega
    rw [if_neg hc, this]
    rfl
termination_by s.length - off

theorem tail_eq (s : List Byte) (h : W) (off : Nat) : tailBytes h (s.drop off) =
    ((List.range (s.length - off)).map fun k => BitVec.ofNat 64 (XXH64.le s (off + k) 1)).foldl XXH64.step1 h := by
  by_cases hc : off < s.length
  · obtain ⟨m, hm⟩ : ∃ m, s.length - off = m + 1 := ⟨s.length - off - 1, by omega⟩
    have hm' : s.length - (off + 1) = m := by omega
    rw [List.drop_eq_getElem_cons hc, tailBytes, tail_eq s _ (off + 1), hm, hm', List.range_succ_eq_map, List.map_cons,
      List.foldl_cons, List.map_map]
    have hb : BitVec.ofNat 64 (XXH64.le s (off + 0) 1) = s[off].setWidth 64 := by
      have : XXH64.le s off 1 = s[off].toNat := by
        have hr : List.range 1 = [0] := rfl
        rw [XXH64.le, hr]
        simp only [List.map, List.sum_cons, List.sum_nil, Nat.add_zero, Nat.pow_zero, Nat.mul_one, List.getD_eq_getElem?_getD,
          List.getElem?_eq_getElem hc, Option.getD_some]
      rw [Nat.add_zero, this, BitVec.ofNat_toNat]
    have hs1 : XXH64.step1 h (s[off].setWidth 64) = (h ^^^ s[off].setWidth 64 * prime5).rotateLeft 11 * prime1 := by
      rw [XXH64.step1, rotl_eq _ (by omega), primes.1, primes.2.2.2.2]
    have hmap : (List.range m).map ((fun k => BitVec.ofNat 64 (XXH64.le s (off + k) 1)) ∘ Nat.succ) =
        (List.range m).map fun k => BitVec.ofNat 64 (XXH64.le s (off + 1 + k) 1) := by
      apply List.map_congr_left
      intro k _
      rw [Function.comp_apply, Nat.succ_eq_add_one, Nat.add_assoc, Nat.add_comm 1]
    rw [hb, hs1, hmap]
  · have : s.length - off = 0 := by omega
    rw [List.drop_eq_nil_of_le (by omega), this]
    rfl
termination_by s.length - off

/-- C85, strings: the hash of a string of any length is its XXH64 digest. -/
theorem stringHasher_xxh64 (s : List Byte) : stringHasher s = XXH64.digest s := by
  unfold stringHasher XXH64.digest
  simp only [start_eq, words_eq, dword, List.length_drop, List.drop_drop, mix_eq]
  have e1 : s.length - 32 * (s.length / 32) = s.length % 32 := by omega
  have e2 : 32 * (s.length / 32) + 8 * (s.length % 32 / 8) = 8 * (s.length / 8) := by omega
  rw [e1, e2]
  by_cases h4 : 4 ≤ s.length % 8
  · rw [if_pos (by omega), if_pos h4]
    simp only [tail_eq, u32_drop]
    have e3 : s.length - (8 * (s.length / 8) + 4) = s.length % 4 := by omega
    have e4 : 8 * (s.length / 8) + 4 = 4 * (s.length / 4) := by omega
    rw [e3, e4, XXH64.step4, rotl_eq _ (by omega), primes.1, primes.2.1, primes.2.2.1]
  · rw [if_neg (by omega), if_neg h4]
    simp only [tail_eq]
    have e3 : s.length - 8 * (s.length / 8) = s.length % 4 := by omega
    have e4 : 8 * (s.length / 8) = 4 * (s.length / 4) := by omega
    rw [e3, e4]

/-- The `n` bytes of a number, least significant first. -/
def bytesOf (x : Nat) (n : Nat) : List Byte := (List.range n).map fun i => BitVec.ofNat 8 (x / 256 ^ i)

/-- The bytes in memory of a key (low byte first: the layout the code reads). -/
def Key.bytes : Key → List Byte
  | .b8 v => bytesOf v.toNat 1
  | .b16 v => bytesOf v.toNat 2
  | .b32 v => bytesOf v.toNat 4
  | .b64 v => bytesOf v.toNat 8
  | .b128 lo hi => bytesOf (lo.toNat + 2 ^ 64 * hi.toNat) 16
  | .str s => s

theorem byte_eq {n : Nat} (x : BitVec n) (i : Nat) : (x >>> (8 * i)).setWidth 8 = BitVec.ofNat 8 (x.toNat / 256 ^ i) := by
  apply BitVec.eq_of_toNat_eq
  rw [BitVec.toNat_setWidth, BitVec.toNat_ushiftRight, Nat.shiftRight_eq_div_pow, Nat.pow_mul, BitVec.toNat_ofNat]

theorem byteHasher_xxh64 (x : BitVec 8) : byteHasher x = XXH64.digest (Key.b8 x).bytes := by
  rw [byteHasher_eq_string, stringHasher_xxh64]
  congr 1
  simp [Key.bytes, bytesOf]

theorem wordHasher_xxh64 (x : BitVec 16) : wordHasher x = XXH64.digest (Key.b16 x).bytes := by
  rw [wordHasher_eq_string, stringHasher_xxh64]
  congr 1
  have h0 := byte_eq x 0
  have h1 := byte_eq x 1
  simp only [Nat.mul_zero, Nat.mul_one, BitVec.ushiftRight_zero] at h0 h1
  simp only [Key.bytes, bytesOf, List.range, List.range.loop, List.map, ← h0, ← h1]

theorem dwordHasher_xxh64 (x : BitVec 32) : dwordHasher x = XXH64.digest (Key.b32 x).bytes := by
  rw [dwordHasher_eq_string, stringHasher_xxh64]
  congr 1
  simp only [le32, Key.bytes, bytesOf, byte_eq]

theorem qwordHasher_xxh64 (x : BitVec 64) : qwordHasher x = XXH64.digest (Key.b64 x).bytes := by
  rw [qwordHasher_eq_string, stringHasher_xxh64]
  congr 1
  simp only [le64, Key.bytes, bytesOf, byte_eq]

theorem complex128Hasher_xxh64 (lo hi : W) : complex128Hasher lo hi = XXH64.digest (Key.b128 lo hi).bytes := by
  rw [complex128Hasher_eq_string, stringHasher_xxh64]
  congr 1
  have hlo := lo.isLt
  simp only [le64, Key.bytes, bytesOf, byte_eq, List.range, List.range.loop, List.map, List.cons_append, List.nil_append,
    List.cons.injEq, and_true]
  refine ⟨?_, ?_, ?_, ?_, ?_, ?_, ?_, ?_, ?_, ?_, ?_, ?_, ?_, ?_, ?_, ?_⟩ <;> apply BitVec.eq_of_toNat_eq <;>
    simp only [BitVec.toNat_ofNat] <;> omega

/-- C85: on every predeclared type and every key of it, on 32- and 64-bit platforms, `Hash` returns the XXH64 digest (seed 0) of
the bytes of the key. -/
theorem hash_xxh64 (w : IntSize) (k : Kind) {x : Key} (hx : x.shape = k.shape w) :
    hash w (.predeclared k) x = .ok (XXH64.digest x.bytes) := by
  have e8 := byteHasher_xxh64
  have e16 := wordHasher_xxh64
  have e32 := dwordHasher_xxh64
  have e64 := qwordHasher_xxh64
  have e128 := complex128Hasher_xxh64
  have es := stringHasher_xxh64
  cases w <;> cases k <;> cases x <;> simp [Kind.shape, Key.shape] at hx <;>
    simp only [hash, getHashFunc, cast8, cast16, cast32, cast64, cast128, castStr, e16, e32, e64, e128, es, e8, Key.bytes]

example : hash .b64 (.predeclared .string) (.str (XXH64.ascii "Nobody inspects the spammish repetition")) = .ok 0xFBCEA83C8A378BF1 := by
  rw [hash_xxh64 .b64 .string rfl]
  decide +kernel
example : (Key.b64 7).shape = Kind.shape .b64 .int := rfl

/-! ### C75 for strings of any length -/

theorem le_congr {s s' : List Byte} {off n : Nat} (h : ∀ j, j < off + n → s.getD j 0 = s'.getD j 0) : XXH64.le s off n = XXH64.le s' off n := by
  unfold XXH64.le
  congr 1
  apply List.map_congr_left
  intro k hk
  rw [List.mem_range] at hk
  rw [h (off + k) (by omega)]

theorem acc_congr {s s' : List Byte} (i : Fin 4) : ∀ {k : Nat}, (∀ j, j < 32 * k → s.getD j 0 = s'.getD j 0) →
    XXH64.acc s i k = XXH64.acc s' i k
  | 0, _ => rfl
  | k + 1, h => by
    have hi := i.isLt
    rw [XXH64.acc, XXH64.acc, acc_congr i (fun j hj => h j (by omega)), XXH64.lane, XXH64.lane,
      le_congr (fun j hj => h j (by omega))]

/-- C75, strings of any length: changing one byte behind the last complete 32-byte stripe always changes the hash. -/
theorem one_byte_change_tail {pre post : List Byte} {x y : Byte} (hp : 32 * ((pre ++ x :: post).length / 32) ≤ pre.length) (hxy : x ≠ y) :
    stringHasher (pre ++ x :: post) ≠ stringHasher (pre ++ y :: post) := by
  intro e
  have hlen : (pre ++ y :: post).length = (pre ++ x :: post).length := by simp
  have hb : ∀ s : List Byte, stringHasher s = avalanche (body ((start s).1 + BitVec.ofNat 64 s.length) (start s).2) := fun _ => rfl
  have ha : ∀ i, XXH64.acc (pre ++ x :: post) i ((pre ++ x :: post).length / 32) = XXH64.acc (pre ++ y :: post) i ((pre ++ x :: post).length / 32) := by
    intro i
    apply acc_congr
    intro j hj
    simp only [List.getD, List.getElem?_append_left (show j < pre.length by omega)]
  have hst : (start (pre ++ y :: post)).1 = (start (pre ++ x :: post)).1 := by
    simp only [start_eq, hlen, ha]
  have hx2 : (start (pre ++ x :: post)).2 = pre.drop (32 * ((pre ++ x :: post).length / 32)) ++ x :: post := by
    simp only [start_eq, List.drop_append_of_le_length hp]
  have hy2 : (start (pre ++ y :: post)).2 = pre.drop (32 * ((pre ++ x :: post).length / 32)) ++ y :: post := by
    simp only [start_eq, hlen, List.drop_append_of_le_length hp]
  rw [hb, hb, hst, hlen, hx2, hy2] at e
  exact hxy (body_diff _ (Nat.le_refl _) (avalanche_inj e))

example : stringHasher (List.replicate 33 7 ++ 1 :: [2]) ≠ stringHasher (List.replicate 33 7 ++ 3 :: [2]) :=
  one_byte_change_tail (by decide) (by decide)

end Gds.Hasher
