import Verif.Fn.Model
import Mathlib.Order.Lattice

/-! Properties C01, C02. -/
namespace Gds.Fn

section Comp
variable {T : Type _} [LinearOrder T]

/-- C01: `Comp` answers exactly by the three cases of a linear order. -/
theorem comp_cases (a b : T) :
    (comp a b = -1 ↔ a < b) ∧ (comp a b = 0 ↔ a = b) ∧ (comp a b = 1 ↔ b < a) := by
  unfold comp
  rcases lt_trichotomy a b with h | h | h
  · have h1 : ¬ b < a := not_lt_of_gt h
    have h2 : a ≠ b := ne_of_lt h
    simp [h, h1, h2]
  · subst h; simp
  · have h1 : ¬ a < b := not_lt_of_gt h
    have h2 : a ≠ b := (ne_of_lt h).symm
    simp [h, h1, h2]

/-- C01: the answer is -1, 0 or 1 and nothing else. -/
theorem comp_range (a b : T) : comp a b = -1 ∨ comp a b = 0 ∨ comp a b = 1 := by
  unfold comp; split
  · simp
  · split <;> simp

/-- C01: exchanging the arguments negates the answer. -/
theorem comp_swap (a b : T) : comp b a = - comp a b := by
  have hab := comp_cases a b
  have hba := comp_cases b a
  rcases lt_trichotomy a b with h | h | h
  · rw [hab.1.2 h, hba.2.2.2 h]; rfl
  · subst h; rw [hab.2.1.2 rfl]; rfl
  · rw [hab.2.2.2 h, hba.1.2 h]

/-- C01: transitivity. -/
theorem comp_trans (a b c : T) (h1 : comp a b ≤ 0) (h2 : comp b c ≤ 0) : comp a c ≤ 0 := by
  have key : ∀ x y : T, comp x y ≤ 0 ↔ x ≤ y := by
    intro x y
    have := comp_cases x y
    rcases lt_trichotomy x y with h | h | h
    · rw [this.1.2 h]; simp [le_of_lt h]
    · subst h; rw [this.2.1.2 rfl]; simp
    · rw [this.2.2.2 h]; simp [h]
  rw [key] at *
  exact le_trans h1 h2

/-- C01: `Comp` meets every comparator requirement used elsewhere in this development. -/
theorem comp_strict : Compare.Strict (comp : Compare T) where
  flip a b := by have := comp_swap a b; omega
  trans := comp_trans
  range := comp_range
  eq_of a b h := (comp_cases a b).2.1.1 h

example : comp (3 : Int) 5 = -1 ∧ comp (5 : Int) 3 = 1 ∧ comp (4 : Int) 4 = 0 := by decide

end Comp

section Combinators

/-- C02: `Compose` applies `before` first, `AndThen` applies `after` last. -/
theorem compose_apply {T V R : Type _} (b : V → T) (c : T → R) (v : V) : compose b c v = c (b v) := rfl
theorem andThen_apply {T V R : Type _} (c : T → R) (a : R → V) (t : T) : andThen c a t = a (c t) := rfl
theorem compose_assoc {A B C D : Type _} (f : A → B) (g : B → C) (h : C → D) :
    compose (compose f g) h = compose f (compose g h) := rfl

/-- C02: predicate combinators denote the propositional connectives, at every argument. -/
theorem predicate_and_iff {T} (p q : Predicate T) (t : T) : p.and q t = true ↔ p t = true ∧ q t = true := by
  simp [Predicate.and]
theorem predicate_or_iff {T} (p q : Predicate T) (t : T) : p.or q t = true ↔ p t = true ∨ q t = true := by
  simp [Predicate.or]
theorem predicate_negate_iff {T} (p : Predicate T) (t : T) : p.negate t = true ↔ ¬ p t = true := by
  simp [Predicate.negate]
theorem not_iff {T} (p : Predicate T) (t : T) : not p t = true ↔ ¬ p t = true := predicate_negate_iff p t

/-- C02: De Morgan's laws and double negation as equalities of predicates. -/
theorem predicate_deMorgan_and {T} (p q : Predicate T) : (p.and q).negate = p.negate.or q.negate := by
  funext t; simp [Predicate.and, Predicate.or, Predicate.negate]
theorem predicate_deMorgan_or {T} (p q : Predicate T) : (p.or q).negate = p.negate.and q.negate := by
  funext t; simp [Predicate.and, Predicate.or, Predicate.negate]
theorem predicate_negate_negate {T} (p : Predicate T) : p.negate.negate = p := by
  funext t; simp [Predicate.negate]

/-- C02: consumers run one after the other. -/
theorem consumer_andThen {W T} (c a : Consumer W T) (t : T) (w : W) : c.andThen a t w = a t (c t w) := rfl
theorem binConsumer_andThen {W T U} (c a : BinConsumer W T U) (t : T) (u : U) (w : W) :
    c.andThen a t u w = a t u (c t u w) := rfl

theorem binPredicate_and_iff {T U} (p q : BinPredicate T U) (t : T) (u : U) :
    p.and q t u = true ↔ p t u = true ∧ q t u = true := by
  simp [BinPredicate.and]
theorem binPredicate_negate_iff {T U} (p : BinPredicate T U) (t : T) (u : U) :
    p.negate t u = true ↔ ¬ p t u = true := by
  simp [BinPredicate.negate]

/-- C02, the claim that fails: `BinPredicate.Or` is not disjunction. -/
theorem binPredicate_or_refuted :
    ¬ ∀ (p q : BinPredicate Int Int) (t u : Int), p.or q t u = true ↔ (p t u = true ∨ q t u = true) := by
  intro h
  have := h (fun _ _ => true) (fun _ _ => false) 0 0
  simp [BinPredicate.or] at this

/-- C02, what `BinPredicate.Or` computes; it agrees with disjunction exactly where both operands agree. -/
theorem binPredicate_or_partial {T U} (p q : BinPredicate T U) (t : T) (u : U) :
    (p.or q t u = true ↔ (p t u = true ∧ q t u = true)) ∧
    ((p.or q t u = (p t u || q t u)) ↔ p t u = q t u) := by
  constructor
  · simp [BinPredicate.or]
  · unfold BinPredicate.or; cases p t u <;> cases q t u <;> simp

example : (Predicate.and (fun n : Int => n > 0) (fun n => n < 10)) 5 = true ∧
          (Predicate.or (fun n : Int => n > 0) (fun n => n < -10)) (-3) = false := by decide

end Combinators
end Gds.Fn
