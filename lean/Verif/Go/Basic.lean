/-
  Shared vocabulary for the model of ydmxcz/gds: outcomes of Go calls, comparators.
  Nothing in this file is specific to one Go file, except `Compare` (fn/comp.go:11).
-/

namespace Gds

/-- Kinds of Go run-time panics the model distinguishes. -/
inductive Panic where
  | indexOutOfRange
  | nilDeref
  | sliceBounds
  | sendOnClosed
  | explicit
  deriving DecidableEq, Repr

/-- Outcome of running a Go function body: it returns a value, panics, or never returns. -/
inductive Res (α : Type _) where
  | ok (a : α)
  | panic (k : Panic)
  | hang
  deriving DecidableEq, Repr

namespace Res

@[inline] protected def pure {α} (a : α) : Res α := .ok a

/-- Sequencing: a panic or a hang aborts the rest of the body. -/
@[inline] protected def bind {α β} (x : Res α) (f : α → Res β) : Res β :=
  match x with
  | .ok a => f a
  | .panic k => .panic k
  | .hang => .hang

instance : Monad Res where
  pure := Res.pure
  bind := Res.bind

@[simp] theorem bind_ok {α β} (a : α) (f : α → Res β) : (Res.ok a >>= f) = f a := rfl
@[simp] theorem bind_panic {α β} (k) (f : α → Res β) : ((Res.panic k : Res α) >>= f) = .panic k := rfl
@[simp] theorem bind_hang {α β} (f : α → Res β) : ((Res.hang : Res α) >>= f) = .hang := rfl
@[simp] theorem pure_eq {α} (a : α) : (pure a : Res α) = .ok a := rfl

/-! `Res` is a flat domain with `hang` at the bottom, so Go loops can be written with
    `partial_fixpoint`: the loop's value is `hang` exactly when no finite unfolding returns. -/

open Lean.Order in
instance {α : Type _} : PartialOrder (Res α) := inferInstanceAs (PartialOrder (FlatOrder Res.hang))
open Lean.Order in
noncomputable instance {α : Type _} : CCPO (Res α) := inferInstanceAs (CCPO (FlatOrder Res.hang))
open Lean.Order in
instance : MonoBind Res where
  bind_mono_left h := by
    cases h
    · exact FlatOrder.rel.bot
    · exact FlatOrder.rel.refl
  bind_mono_right {α β a f g} h := by
    cases a with
    | ok a => exact h a
    | panic k => exact FlatOrder.rel.refl
    | hang => exact FlatOrder.rel.refl

/-- The call returned normally. -/
def isOk {α} : Res α → Bool
  | .ok _ => true
  | _ => false

end Res

/-- `fn.Compare[T]` (fn/comp.go:11): a three-way comparison returning an `int`. -/
abbrev Compare (T : Type _) := T → T → Int

/-- What a sensible comparator guarantees: swapping the arguments flips the sign and
    "not greater" is transitive (a total preorder). -/
structure Compare.Lawful {T : Type _} (cmp : Compare T) : Prop where
  flip : ∀ a b, cmp a b < 0 ↔ 0 < cmp b a
  trans : ∀ a b c, cmp a b ≤ 0 → cmp b c ≤ 0 → cmp a c ≤ 0

/-- A comparator that in addition answers only -1, 0 or 1, as `fn.Comp` does; parts of the
    repository compare its result with `== 1` or `== -1`. -/
structure Compare.ThreeWay {T : Type _} (cmp : Compare T) : Prop extends Compare.Lawful cmp where
  range : ∀ a b, cmp a b = -1 ∨ cmp a b = 0 ∨ cmp a b = 1

/-- A comparator for which "compares equal" means equal. -/
structure Compare.Strict {T : Type _} (cmp : Compare T) : Prop extends Compare.ThreeWay cmp where
  eq_of : ∀ a b, cmp a b = 0 → a = b

namespace Compare.Lawful
variable {T : Type _} {cmp : Compare T} (h : cmp.Lawful)
include h

theorem self (a : T) : cmp a a = 0 := by
  have := h.flip a a; omega

theorem pos_iff (a b : T) : 0 < cmp a b ↔ cmp b a < 0 := (h.flip b a).symm

theorem le_iff (a b : T) : cmp a b ≤ 0 ↔ 0 ≤ cmp b a := by
  have := h.flip b a; omega

theorem zero_symm {a b : T} (e : cmp a b = 0) : cmp b a = 0 := by
  have h1 := h.flip a b; have h2 := h.flip b a; omega

theorem zero_comm (a b : T) : cmp a b = 0 ↔ cmp b a = 0 :=
  ⟨h.zero_symm, h.zero_symm⟩

theorem total (a b : T) : cmp a b ≤ 0 ∨ cmp b a ≤ 0 := by
  have h1 := h.flip a b; have h2 := h.flip b a; omega

theorem lt_of_lt_of_le {a b c : T} (h1 : cmp a b < 0) (h2 : cmp b c ≤ 0) : cmp a c < 0 := by
  by_cases hc : cmp a c < 0
  · exact hc
  · exfalso
    have hca : cmp c a ≤ 0 := by have := h.le_iff c a; omega
    have := h.trans b c a h2 hca
    have := h.flip a b; omega

theorem lt_of_le_of_lt {a b c : T} (h1 : cmp a b ≤ 0) (h2 : cmp b c < 0) : cmp a c < 0 := by
  by_cases hc : cmp a c < 0
  · exact hc
  · exfalso
    have hca : cmp c a ≤ 0 := by have := h.le_iff c a; omega
    have := h.trans c a b hca h1
    have := h.flip b c; omega

theorem lt_trans {a b c : T} (h1 : cmp a b < 0) (h2 : cmp b c < 0) : cmp a c < 0 :=
  h.lt_of_lt_of_le h1 (by omega)

end Compare.Lawful

end Gds
