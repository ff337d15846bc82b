import Verif.PQ.Raise

/-! Property C139: a history in which the comparator does not panic is the history of C123. -/
namespace Gds.PQ
variable {T E : Type}

/-- The comparator that answers 0 where the other one panics. -/
def fill (cmp : PComp T E) : EComp T E := fun a b e => ((cmp a b e).1.getD 0, (cmp a b e).2)

theorem fill_some {cmp : PComp T E} {a b : T} {e : E} {z : Int} (h : (cmp a b e).1 = some z) : fill cmp a b e = (z, (cmp a b e).2) := by
  simp [fill, h]

theorem ok_of_bind {A B : Type} {x : Res A} {k : A → Res B} {b : B} (h : (x >>= k) = .ok b) : ∃ a, x = .ok a ∧ k a = .ok b := by
  cases x with
  | ok a => exact ⟨a, rfl, h⟩
  | panic => simp at h
  | hang => simp at h

theorem percolateUpP_ok (cmp : PComp T E) (pos : Nat) : ∀ (e : E) (q q' : Queue T) (e' : E),
    percolateUpP cmp e q pos = .ok (true, q', e') → percolateUpE (fill cmp) e q pos = .ok (q', e') := by
  induction pos using Nat.strongRecOn with
  | _ pos ih =>
    intro e q q' e' h
    rw [percolateUpP] at h
    rw [percolateUpE]
    simp only [tdiv_par] at h ⊢
    by_cases h0 : par pos = pos
    · simp only [h0, if_true] at h ⊢; cases h; rfl
    · have hpp : par pos < pos := by simp only [par] at *; omega
      simp only [h0, if_false] at h ⊢
      obtain ⟨a, h1, h⟩ := ok_of_bind h
      obtain ⟨b, h2, h⟩ := ok_of_bind h
      simp only [h1, h2, Res.bind_ok]
      cases hc : (cmp a b e).1 with
      | none => simp only [hc] at h; cases h
      | some z =>
        simp only [hc] at h
        simp only [fill_some hc]
        by_cases hz : z ≥ 0
        · simp only [hz, if_true] at h ⊢; cases h; rfl
        · simp only [hz, if_false] at h ⊢
          obtain ⟨q1, h3, h⟩ := ok_of_bind h
          simp only [h3, Res.bind_ok]
          exact ih _ hpp _ _ _ _ h

theorem minChildP_ok (cmp : PComp T E) (e : E) (q : Queue T) (j n x : Nat) (e' : E) (h : minChildP cmp e q j n = .ok (some x, e')) :
    minChildE (fill cmp) e q j n = .ok (x, e') ∧ j ≤ x ∧ (j < n → x < n) := by
  unfold minChildP at h
  unfold minChildE
  by_cases hj : j + 1 < n
  · simp only [hj, if_true] at h ⊢
    obtain ⟨a, h1, h⟩ := ok_of_bind h
    obtain ⟨b, h2, h⟩ := ok_of_bind h
    simp only [h1, h2, Res.bind_ok]
    cases hc : (cmp a b e).1 with
    | none => simp only [hc] at h; cases h
    | some z =>
      simp only [hc] at h
      simp only [fill_some hc]
      by_cases hz : z < 0
      · simp only [hz, if_true] at h ⊢; cases h; exact ⟨rfl, by omega, fun _ => hj⟩
      · simp only [hz, if_false] at h ⊢; cases h; exact ⟨rfl, by omega, fun h => h⟩
  · simp only [hj, if_false] at h ⊢; cases h; exact ⟨rfl, by omega, fun h => h⟩

theorem percolateDownP_ok (cmp : PComp T E) (n : Nat) : ∀ (m i : Nat), n - i = m → ∀ (e : E) (q q' : Queue T) (e' : E),
    percolateDownP cmp e q i n = .ok (true, q', e') → percolateDownE (fill cmp) e q i n = .ok (q', e') := by
  intro m
  induction m using Nat.strongRecOn with
  | _ m ih =>
    intro i hm e q q' e' h
    rw [percolateDownP] at h
    rw [percolateDownE]
    by_cases h0 : 2 * i + 1 ≥ n
    · simp only [h0, if_true] at h ⊢; cases h; rfl
    · simp only [h0, if_false] at h ⊢
      obtain ⟨⟨o, e1⟩, h1, h⟩ := ok_of_bind h
      cases o with
      | none => cases h
      | some j =>
        obtain ⟨h2, h3, h4⟩ := minChildP_ok cmp e q _ n j e1 h1
        simp only [h2, Res.bind_ok]
        obtain ⟨a, h5, h⟩ := ok_of_bind h
        obtain ⟨b, h6, h⟩ := ok_of_bind h
        simp only [h5, h6, Res.bind_ok]
        cases hc : (cmp a b e1).1 with
        | none => simp only [hc] at h; cases h
        | some z =>
          simp only [hc] at h
          simp only [fill_some hc]
          by_cases hz : z ≥ 0
          · simp only [hz, if_true] at h ⊢; cases h; rfl
          · simp only [hz, if_false] at h ⊢
            obtain ⟨q1, h7, h⟩ := ok_of_bind h
            simp only [h7, Res.bind_ok]
            exact ih (n - j) (by omega) j rfl _ _ _ _ h

theorem stepP_ok (cmp : PComp T E) (e : E) (q : Queue T) (op : Op T) {q' : Queue T} {o : Out T} {e' : E}
    (h : stepP cmp e q op = .ok (q', some o, e')) : stepE (fill cmp) e q op = .ok (q', o, e') := by
  cases op with
  | push x =>
    simp only [stepP] at h
    obtain ⟨⟨b, q1, e1⟩, h1, h⟩ := ok_of_bind h
    cases b with
    | false => cases h
    | true =>
      cases h
      simp only [pushP] at h1
      simp only [stepE, pushE]
      by_cases hs : q.size ≥ q.len
      · simp only [hs, if_true, Res.pure_eq, Res.bind_ok] at h1 ⊢
        simp only [percolateUpP_ok cmp _ _ _ _ _ h1, Res.bind_ok]
      · simp only [hs, if_false] at h1 ⊢
        obtain ⟨q2, h2, h3⟩ := ok_of_bind h1
        simp only [h2, Res.bind_ok, percolateUpP_ok cmp _ _ _ _ _ h3, Res.pure_eq]
  | pop =>
    simp only [stepP] at h
    obtain ⟨⟨b, q1, e1⟩, h1, h⟩ := ok_of_bind h
    cases b with
    | none => cases h
    | some b =>
      cases h
      unfold popP at h1
      simp only [stepE, popE]
      by_cases h0 : q.size = 0
      · simp only [h0, if_true] at h1 ⊢; cases h1; rfl
      · simp only [h0, if_false] at h1 ⊢
        obtain ⟨q2, h2, h1⟩ := ok_of_bind h1
        obtain ⟨⟨c, q3, e3⟩, h3, h1⟩ := ok_of_bind h1
        cases c with
        | false => cases h1
        | true =>
          simp only [if_true] at h1
          obtain ⟨v, h4, h1⟩ := ok_of_bind h1
          cases h1
          simp only [h2, Res.bind_ok, percolateDownP_ok cmp _ _ _ rfl _ _ _ _ h3, h4, Res.pure_eq]
  | peek =>
    simp only [stepP] at h
    obtain ⟨r, h1, h⟩ := ok_of_bind h
    cases h
    simp only [stepE, h1, Res.bind_ok, Res.pure_eq]
  | len => cases h; rfl

/-! ### C139 -/

/-- C139, the calls that return: up to the first call in which the comparator panics — and in a history without such a call to its end — the queue does and
answers what C123 says it does and answers, with a comparator that answers like this one and never panics. -/
theorem raised_returned_partial (cmp : PComp T E) : ∀ (ops : List (Op T)) (e : E) (q : Queue T) (outs : List (Out T)) (q' : Queue T) (e' : E),
    runP cmp e q ops = .ok (q', outs.map some, e') → runE (fill cmp) e q ops = .ok (q', outs, e')
  | [], e, q, outs, q', e', h => by
    cases outs with
    | nil => cases h; rfl
    | cons => cases h
  | op :: ops, e, q, outs, q', e', h => by
    simp only [runP] at h
    obtain ⟨⟨q1, o, e1⟩, h1, h⟩ := ok_of_bind h
    obtain ⟨⟨q2, os, e2⟩, h2, h⟩ := ok_of_bind h
    cases outs with
    | nil => cases h
    | cons x outs =>
      simp only [Res.pure_eq, Res.ok.injEq, Prod.mk.injEq, List.map_cons, List.cons.injEq] at h
      obtain ⟨rfl, ⟨rfl, rfl⟩, rfl⟩ := h
      simp only [runE, stepP_ok cmp e q op h1, raised_returned_partial cmp ops _ _ _ _ _ h2, Res.bind_ok, Res.pure_eq]

/-- Such histories exist: the comparator would panic in its tenth call. -/
example : answersOnce 9 [.push 2, .push 3, .push 1, .peek, .pop, .pop, .pop] =
    .ok ([.pushed, .pushed, .pushed, .val (some 1), .val (some 1), .val (some 2), .val (some 3)].map some) := by cbv

end Gds.PQ
