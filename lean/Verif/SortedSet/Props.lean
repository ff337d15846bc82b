import Verif.SortedSet.Model

namespace Gds.SortedSet

variable {K V : Type}

/-- C71, the claim that fails: on the result of New every call panics, whatever the map and tree packages do. -/
theorem new_refuted (rest : Obj K V → K → V → Res (Obj K V)) (c : Call K V) (cs : List (Call K V)) :
    run rest (new K V) (c :: cs) = .panic .nilDeref := by
  cases c <;> rfl

/-- C71, what there is: a history completes only if it makes no call. -/
theorem new_partial (rest : Obj K V → K → V → Res (Obj K V)) (cs : List (Call K V)) : (run rest (new K V) cs).isOk = true ↔ cs = [] := by
  cases cs with
  | nil => simp [run, Res.isOk]
  | cons c cs => rw [new_refuted]; simp [Res.isOk]

/-- The calls are not doomed by the model: on a real object they return. -/
example : run (K := Nat) (V := Nat) (fun o k v => .ok ⟨fun j => if j = k then some v else o.hashmap j⟩) (some ⟨fun _ => none⟩) [.set 1 5, .get 1] = .ok [some 5] := rfl

end Gds.SortedSet
