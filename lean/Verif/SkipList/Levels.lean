import Verif.SkipList.Towers
import Verif.LockFree.Props
import Mathlib.Data.Int.CardIntervalMod
import Mathlib.SetTheory.Cardinal.Finite
import Mathlib.Algebra.Order.BigOperators.Group.Finset

/-! Property C126: how often each level is drawn. -/
namespace Gds.SkipList

/-- The numbers below `q * m + 1` whose remainder modulo `m` lies in an interval. -/
theorem card_rem (N q m lo hi : Nat) (hN : N = q * m + 1) (hm : 2 ≤ m) (hh : hi ≤ m) :
    ((Finset.range N).filter (fun n => n % m ∈ Finset.Ico lo hi)).card = q * (hi - lo) + if lo = 0 ∧ 0 < hi then 1 else 0 := by
  rw [Finset.card_eq_sum_card_fiberwise (f := fun n => n % m) (t := Finset.Ico lo hi) (by intro x hx; simpa using (Finset.mem_filter.1 hx).2)]
  have : ∀ v ∈ Finset.Ico lo hi, (((Finset.range N).filter (fun n => n % m ∈ Finset.Ico lo hi)).filter (fun n => n % m = v)).card =
      q + if v = 0 then 1 else 0 := by
    intro v hv
    have h := Nat.count_modEq_card (r := m) (b := N) (by omega) v
    rw [Nat.count_eq_card_filter_range] at h
    have hv' := (Finset.mem_Ico.1 hv).2
    rw [Nat.mod_eq_of_lt (by omega : v < m)] at h
    have e1 : N / m = q := by
      rw [hN, Nat.mul_comm, Nat.mul_add_div (by omega), Nat.div_eq_of_lt (by omega)]; rfl
    have e2 : N % m = 1 := by rw [hN, Nat.mul_comm, Nat.mul_add_mod, Nat.mod_eq_of_lt (by omega)]
    rw [e1, e2] at h
    have e3 : (v < 1) = (v = 0) := by apply propext; omega
    simp only [e3] at h
    rw [← h, Finset.filter_filter]
    congr 1
    apply Finset.filter_congr
    intro n _
    rw [Nat.ModEq, Nat.mod_eq_of_lt (by omega : v < m)]
    constructor
    · exact fun h => h.2
    · intro h; exact ⟨by rw [h]; exact hv, h⟩
  rw [Finset.sum_congr rfl this, Finset.sum_add_distrib, Finset.sum_const, Nat.card_Ico, Finset.sum_ite_eq', nsmul_eq_mul, Nat.mul_comm]
  simp

/-- The `uint64` numbers with a property of their value. -/
theorem card_draws (p : Nat → Prop) [DecidablePred p] : Nat.card {d : UInt64 // p d.toNat} = ((Finset.range (2 ^ 64)).filter p).card := by
  generalize hN : (2 ^ 64 : Nat) = N
  have e : {d : UInt64 // p d.toNat} ≃ {n // n ∈ (Finset.range N).filter p} :=
    { toFun := fun d => ⟨d.1.toNat, by rw [Finset.mem_filter, Finset.mem_range, ← hN]; exact ⟨d.1.toNat_lt, d.2⟩⟩
      invFun := fun n => ⟨UInt64.ofNat n.1, by
        have h := Finset.mem_filter.1 n.2
        have h1 : n.1 < 2 ^ 64 := by rw [hN]; exact Finset.mem_range.1 h.1
        rw [UInt64.toNat_ofNat_of_lt' h1]; exact h.2⟩
      left_inv := fun d => by simp
      right_inv := fun n => by
        have h1 : n.1 < 2 ^ 64 := by rw [hN]; exact Finset.mem_range.1 (Finset.mem_filter.1 n.2).1
        exact Subtype.ext (UInt64.toNat_ofNat_of_lt' h1) }
  rw [Nat.card_congr e, Nat.card_eq_fintype_card, Fintype.card_coe]

theorem height_eq (d : UInt64) (l : Nat) (h1 : 1 ≤ l) (h32 : l ≤ 32) :
    heightOf d = l ↔ d.toNat % 4294967295 ∈ Finset.Ico (2 ^ (32 - l) - 1) (2 ^ (33 - l) - 1) := by
  have hk := Nat.mod_lt d.toNat (show 4294967295 > 0 by omega)
  unfold heightOf
  generalize d.toNat % 4294967295 = k at hk ⊢
  have hlt : (k + 1).log2 < 32 := by rw [Nat.log2_lt (by omega)]; omega
  have : 32 - (k + 1).log2 = l ↔ (k + 1).log2 = 32 - l := by omega
  rw [this, Nat.log2_eq_iff (by omega), Finset.mem_Ico, show 32 - l + 1 = 33 - l by omega]
  have := Nat.one_le_two_pow (n := 32 - l)
  omega

/-- C126: of the 2^64 numbers `Uint64` can return, the level is `l` for exactly 2^(32-l) * (2^32+1) of them (one more for level 32). -/
theorem level_count (l : Nat) (h1 : 1 ≤ l) (h32 : l ≤ 32) :
    Nat.card {d : UInt64 // randomLevel d = .ok l} = 2 ^ (32 - l) * (2 ^ 32 + 1) + if l = 32 then 1 else 0 := by
  have e : ∀ d, randomLevel d = .ok l ↔ d.toNat % 4294967295 ∈ Finset.Ico (2 ^ (32 - l) - 1) (2 ^ (33 - l) - 1) := by
    intro d
    rw [randomLevel_exact, Res.ok.injEq, height_eq d l h1 h32]
  simp only [e]
  rw [card_draws (fun n => n % 4294967295 ∈ Finset.Ico (2 ^ (32 - l) - 1) (2 ^ (33 - l) - 1))]
  have hp : 2 ^ (33 - l) = 2 * 2 ^ (32 - l) := by rw [← Nat.pow_succ']; congr 1; omega
  have hb : 2 ^ (33 - l) ≤ 2 ^ 32 := Nat.pow_le_pow_right (by decide) (by omega)
  have h0 := Nat.one_le_two_pow (n := 32 - l)
  rw [card_rem (2 ^ 64) (2 ^ 32 + 1) 4294967295 _ _ (by norm_num) (by norm_num) (by omega)]
  have hd : 2 ^ (33 - l) - 1 - (2 ^ (32 - l) - 1) = 2 ^ (32 - l) := by omega
  rw [hd, Nat.mul_comm]
  congr 1
  by_cases hl : l = 32
  · subst hl; simp
  · have : 2 ^ 1 ≤ 2 ^ (32 - l) := Nat.pow_le_pow_right (by decide) (by omega)
    rw [if_neg hl, if_neg (by omega)]

/-- C126: at least `l + 1` levels: a 2^l-th of the draws, almost exactly. -/
theorem level_tail (l : Nat) (h : l ≤ 31) :
    Nat.card {d : UInt64 // ∃ r, randomLevel d = .ok r ∧ l < r} = (2 ^ (32 - l) - 1) * (2 ^ 32 + 1) + 1 := by
  have e : ∀ d, (∃ r, randomLevel d = .ok r ∧ l < r) ↔ d.toNat % 4294967295 ∈ Finset.Ico 0 (2 ^ (32 - l) - 1) := by
    intro d
    have hk := Nat.mod_lt d.toNat (show 4294967295 > 0 by omega)
    have h1 : (∃ r, randomLevel d = .ok r ∧ l < r) ↔ l < heightOf d := by
      rw [randomLevel_exact]
      constructor
      · rintro ⟨r, hr, hlr⟩; cases hr; exact hlr
      · exact fun h => ⟨_, rfl, h⟩
    rw [h1, heightOf]
    generalize d.toNat % 4294967295 = k at hk ⊢
    have hlt : (k + 1).log2 < 32 := by rw [Nat.log2_lt (by omega)]; omega
    have : l < 32 - (k + 1).log2 ↔ (k + 1).log2 < 32 - l := by omega
    rw [this, Nat.log2_lt (by omega), Finset.mem_Ico]
    have := Nat.one_le_two_pow (n := 32 - l)
    omega
  simp only [e]
  rw [card_draws (fun n => n % 4294967295 ∈ Finset.Ico 0 (2 ^ (32 - l) - 1))]
  have hb : 2 ^ (32 - l) ≤ 2 ^ 32 := Nat.pow_le_pow_right (by decide) (by omega)
  have h0 : 2 ^ 1 ≤ 2 ^ (32 - l) := Nat.pow_le_pow_right (by decide) (by omega)
  rw [card_rem (2 ^ 64) (2 ^ 32 + 1) 4294967295 _ _ (by norm_num) (by norm_num) (by omega), if_pos ⟨rfl, by omega⟩, Nat.mul_comm, Nat.sub_zero]

example : Nat.card {d : UInt64 // randomLevel d = .ok 1} = 2 ^ 63 + 2 ^ 31 := level_count 1 (by decide) (by decide)
example : Nat.card {d : UInt64 // randomLevel d = .ok 32} = 2 ^ 32 + 2 := level_count 32 (by decide) (by decide)

end Gds.SkipList

namespace Gds.LockFree

/-- A list of outcomes as what `coin level` answers in the iteration that starts with `level`, from level `s` on. -/
def tosses {k : Nat} (c : Fin k → Bool) (s : Nat) : Nat → Bool := fun i => if h : s ≤ i ∧ i - s < k then c ⟨i - s, h.2⟩ else false

theorem loop_congr {f g : Nat → Bool} : ∀ (k s : Nat), (∀ i, s ≤ i → f i = g i) → randomLevelLoop f k s = randomLevelLoop g k s
  | 0, _, _ => rfl
  | k + 1, s, h => by
    rw [randomLevelLoop, randomLevelLoop, h s (Nat.le_refl _), loop_congr k (s + 1) (fun i hi => h i (by omega))]

theorem loop_cons {k : Nat} (s : Nat) (b : Bool) (c : Fin k → Bool) :
    randomLevelLoop (tosses (Fin.cons b c : Fin (k + 1) → Bool) s) (k + 1) s = if b then randomLevelLoop (tosses c (s + 1)) k (s + 1) else s := by
  rw [randomLevelLoop]
  have h0 : tosses (Fin.cons b c : Fin (k + 1) → Bool) s s = b := by simp [tosses]
  rw [h0]
  congr 1
  apply loop_congr
  intro i hi
  unfold tosses
  by_cases h : i - s < k + 1
  · rw [dif_pos ⟨by omega, h⟩, dif_pos ⟨hi, by omega⟩]
    have : (⟨i - s, h⟩ : Fin (k + 1)) = Fin.succ ⟨i - (s + 1), by omega⟩ := by apply Fin.ext; simp; omega
    rw [this, Fin.cons_succ]
  · rw [dif_neg (by omega), dif_neg (by omega)]

theorem card_cons {k : Nat} (P : (Fin (k + 1) → Bool) → Prop) :
    Nat.card {c // P c} = Nat.card {c : Fin k → Bool // P (Fin.cons true c)} + Nat.card {c : Fin k → Bool // P (Fin.cons false c)} := by
  rw [← Nat.card_sum]
  refine Nat.card_congr (Equiv.symm (Equiv.ofBijective (fun x : {c : Fin k → Bool // P (Fin.cons true c)} ⊕ {c : Fin k → Bool // P (Fin.cons false c)} =>
    match x with
    | .inl c => (⟨Fin.cons true c.1, c.2⟩ : {c // P c})
    | .inr c => ⟨Fin.cons false c.1, c.2⟩) ⟨?_, ?_⟩))
  · rintro (⟨a, ha⟩ | ⟨a, ha⟩) (⟨b, hb⟩ | ⟨b, hb⟩) h
    · simpa using h
    · have := congrFun (congrArg Subtype.val h) 0; simp at this
    · have := congrFun (congrArg Subtype.val h) 0; simp at this
    · simpa using h
  · rintro ⟨c, hc⟩
    have e : c = Fin.cons (c 0) (Fin.tail c) := (Fin.cons_self_tail c).symm
    cases hb : c 0 with
    | true => rw [hb] at e; exact ⟨.inl ⟨Fin.tail c, e ▸ hc⟩, Subtype.ext e.symm⟩
    | false => rw [hb] at e; exact ⟨.inr ⟨Fin.tail c, e ▸ hc⟩, Subtype.ext e.symm⟩

theorem count_loop : ∀ (k s j : Nat), j ≤ k →
    Nat.card {c : Fin k → Bool // randomLevelLoop (tosses c s) k s = s + j} = 2 ^ (k - j - 1)
  | 0, s, j, hj => by
    have : j = 0 := by omega
    subst this
    simp [randomLevelLoop]
  | k + 1, s, j, hj => by
    rw [card_cons]
    simp only [loop_cons, if_true, Bool.false_eq_true, if_false]
    cases j with
    | zero =>
      have h1 : ∀ c : Fin k → Bool, ¬ randomLevelLoop (tosses c (s + 1)) k (s + 1) = s + 0 := by
        intro c h
        have := (randomLevelLoop_range (tosses c (s + 1)) k (s + 1)).1
        omega
      have h4 : IsEmpty {c : Fin k → Bool // randomLevelLoop (tosses c (s + 1)) k (s + 1) = s + 0} := ⟨fun c => h1 c.1 c.2⟩
      rw [Nat.card_of_isEmpty]
      simp
    | succ j =>
      have h2 : ∀ r, r = s + (j + 1) ↔ r = s + 1 + j := fun r => by omega
      have h3 : ¬ s = s + 1 + j := by omega
      simp only [h2, h3, count_loop k (s + 1) j (by omega)]
      simp

/-- C126: of the 2^19 outcomes of the 19 coin tosses, the level is `l` for exactly 2^(19-l) of them (one for level 20). -/
theorem level_count (l : Nat) (h1 : 1 ≤ l) (h20 : l ≤ 20) :
    Nat.card {c : Fin 19 → Bool // randomLevel (tosses c 1) = l} = 2 ^ (19 - l) := by
  have := count_loop 19 1 (l - 1) (by omega)
  rw [show 1 + (l - 1) = l by omega, show 19 - (l - 1) - 1 = 19 - l by omega] at this
  exact this

example : Nat.card {c : Fin 19 → Bool // randomLevel (tosses c 1) = 1} = 2 ^ 18 := level_count 1 (by decide) (by decide)

end Gds.LockFree
