import Verif.Go.Basic

/-! Comparators with state, for the properties about comparator calls. -/
namespace Gds

/-- A Go closure `func(a, b T) int` (fn/comp.go:11 `fn.Compare`) with state: it may count, log, or answer differently every time. -/
abbrev EComp (T E : Type) := T → T → E → Int × E

/-- Not Go code: the comparator with a call counter in front of its state. -/
def counted {T E : Type} (cmp : EComp T E) : EComp T (Nat × E) := fun a b e => let r := cmp a b e.2; (r.1, e.1 + 1, r.2)

end Gds
