import Mathlib.Order.Defs.LinearOrder
import Verif.Go.Basic

/-! Model of package `fn` (fn/comp.go, fn/function.go).  Go function values are Lean functions;
    a consumer (a function called for its effect) is a state transformer. -/

namespace Gds.Fn

/-- fn/comp.go:13-21 `Comp`.  `constraints.Ordered` without NaN is a linear order. -/
def comp {T : Type _} [LinearOrder T] (v1 v2 : T) : Int :=
  if v1 > v2 then 1 else if v1 < v2 then -1 else 0

/-- fn/function.go:5-9 `Compose`. -/
def compose {T V R : Type _} (before : V → T) (curr : T → R) : V → R := fun v => curr (before v)

/-- fn/function.go:11-15 `AndThen`. -/
def andThen {T V R : Type _} (curr : T → R) (after : R → V) : T → V := fun t => after (curr t)

/-- fn/function.go:17 `Predicate`. -/
abbrev Predicate (T : Type _) := T → Bool

/-- fn/function.go:19-23 `Predicate.And`. -/
def Predicate.and {T} (p other : Predicate T) : Predicate T := fun t => p t && other t
/-- fn/function.go:25-29 `Predicate.Negate`. -/
def Predicate.negate {T} (p : Predicate T) : Predicate T := fun t => !(p t)
/-- fn/function.go:31-35 `Predicate.Or`. -/
def Predicate.or {T} (p other : Predicate T) : Predicate T := fun t => p t || other t
/-- fn/function.go:37-39 `Not`. -/
def not {T} (target : Predicate T) : Predicate T := Predicate.negate target

/-- fn/function.go:43 `Consumer`: its effect on the world `W`. -/
abbrev Consumer (W T : Type _) := T → W → W
/-- fn/function.go:45-50 `Consumer.AndThen`: `c(t); after(t)`. -/
def Consumer.andThen {W T} (c after : Consumer W T) : Consumer W T := fun t w => after t (c t w)

/-- fn/function.go:56 `BinConsumer`. -/
abbrev BinConsumer (W T U : Type _) := T → U → W → W
/-- fn/function.go:58-63 `BinConsumer.AndThen`. -/
def BinConsumer.andThen {W T U} (curr after : BinConsumer W T U) : BinConsumer W T U :=
  fun t u w => after t u (curr t u w)

/-- fn/function.go:71 `BinPredicate`. -/
abbrev BinPredicate (T U : Type _) := T → U → Bool
/-- fn/function.go:73-77 `BinPredicate.And`. -/
def BinPredicate.and {T U} (curr other : BinPredicate T U) : BinPredicate T U :=
  fun t u => curr t u && other t u
/-- fn/function.go:79-83 `BinPredicate.Or` — the body really is `curr(t, u) && other(t, u)`. -/
def BinPredicate.or {T U} (curr other : BinPredicate T U) : BinPredicate T U :=
  fun t u => curr t u && other t u
/-- fn/function.go:85-89 `BinPredicate.negate`. -/
def BinPredicate.negate {T U} (curr : BinPredicate T U) : BinPredicate T U :=
  fun t u => !(curr t u)

end Gds.Fn
