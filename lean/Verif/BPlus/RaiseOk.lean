import Verif.BPlus.Raise
import Verif.BPlus.CallsProps

/-! Property C138: a call in which the comparator does not panic is the call of C128. -/
namespace Gds.BPlus
open Tree
variable {K V E : Type} [Inhabited K] [Inhabited V]

/-- The comparator that answers 0 where the other one panics. -/
def fill (cmp : PComp K E) : EComp K E := fun a b e => ((cmp a b e).1.getD 0, (cmp a b e).2)

omit [Inhabited K] in
theorem fill_some {cmp : PComp K E} {a b : K} {e : E} {z : Int} (h : (cmp a b e).1 = some z) : fill cmp a b e = (z, (cmp a b e).2) := by
  simp [fill, h]

theorem bsearchP_ok (cmp : PComp K E) (t : Tree K V) (node : Option Nat) (key : K) : ∀ (d l hi mid : Nat) (e : E) (x : Nat × Nat × Bool) (e' : E), hi - l ≤ d →
    bsearchP cmp e t node key l hi mid = .ok (some x, e') → bsearchE (fill cmp) e t node key l hi mid = .ok (x, e') := by
  intro d
  induction d with
  | zero => intro l hi mid e x e' hd h; rw [bsearchP, if_neg (by omega)] at h; rw [bsearchE, if_neg (by omega)]; cases h; rfl
  | succ d ih =>
    intro l hi mid e x e' hd h
    rw [bsearchP] at h
    rw [bsearchE]
    by_cases hlt : l < hi
    · simp only [hlt, if_true] at h ⊢
      obtain ⟨v, h1, h⟩ := Res.ok_of_bind h
      simp only [h1, Res.bind_ok]
      cases hc : (cmp key v.1 e).1 with
      | none => rw [hc] at h; cases h
      | some z =>
        rw [hc] at h
        simp only [fill_some hc]
        simp only at h
        by_cases h2 : z < 0
        · simp only [h2, if_true] at h ⊢; exact ih _ _ _ _ _ _ (by omega) h
        · simp only [h2, if_false] at h ⊢
          by_cases h3 : 0 < z
          · simp only [h3, if_true] at h ⊢; exact ih _ _ _ _ _ _ (by omega) h
          · simp only [h3, if_false] at h ⊢; cases h; rfl
    · simp only [hlt, if_false] at h ⊢; cases h; rfl

theorem searchLoopP_ok (cmp : PComp K E) (t : Tree K V) (key : K) : ∀ (e : E) (node : Option Nat) (r : Option (Option Nat × Nat × Bool) × E),
    searchLoopP cmp e t node key = .ok r → ∀ x, r.1 = some x → searchLoopE (fill cmp) e t node key = .ok (x, r.2) := by
  apply searchLoopP.fixpoint_induct cmp t key
    (fun F => ∀ (e : E) (node : Option Nat) (r : Option (Option Nat × Nat × Bool) × E), F e node = .ok r →
      ∀ x, r.1 = some x → searchLoopE (fill cmp) e t node key = .ok (x, r.2))
  · refine Lean.Order.admissible_pi _ fun e => Lean.Order.admissible_pi _ fun node => ?_
    exact Lean.Order.admissible_apply (fun _ (G : Option Nat → Res (Option (Option Nat × Nat × Bool) × E)) => ∀ r, G node = .ok r →
        ∀ x, r.1 = some x → searchLoopE (fill cmp) e t node key = .ok (x, r.2)) e
      (Lean.Order.admissible_apply (fun nd (y : Res (Option (Option Nat × Nat × Bool) × E)) => ∀ r, y = .ok r →
        ∀ x, r.1 = some x → searchLoopE (fill cmp) e t node key = .ok (x, r.2)) node (admissible_ok _))
  · intro F ih e node r h x hx
    obtain ⟨n, h1, h⟩ := Res.ok_of_bind h
    obtain ⟨b, h2, h⟩ := Res.ok_of_bind h
    obtain ⟨o, e1⟩ := b
    cases o with
    | none => cases h; cases hx
    | some b =>
      obtain ⟨lf, h3, h⟩ := Res.ok_of_bind h
      rw [searchLoopE]
      simp only [h1, bsearchP_ok cmp t node key _ _ _ _ _ _ _ (Nat.le_refl _) h2, h3, Res.bind_ok]
      cases lf with
      | true =>
        simp only [if_true] at h ⊢
        cases hb : b.2.2 <;> simp only [hb, if_true, Bool.false_eq_true, if_false] at h ⊢ <;> (cases h; cases hx; rfl)
      | false =>
        simp only [Bool.false_eq_true, if_false] at h ⊢
        obtain ⟨c, h4, h⟩ := Res.ok_of_bind h
        simp only [h4, Res.bind_ok]
        exact ih _ _ _ h x hx

theorem searchP_ok (cmp : PComp K E) (t : Tree K V) (key : K) (e : E) {x : Option Nat × Nat × Bool} {e' : E}
    (h : searchP cmp e t key = .ok (some x, e')) : searchE (fill cmp) e t key = .ok (x, e') := by
  rw [searchP] at h
  rw [searchE]
  by_cases hs : t.size = 0
  · simp only [hs, if_true] at h ⊢; cases h; rfl
  · simp only [hs, if_false] at h ⊢; exact searchLoopP_ok cmp t key _ _ _ h x rfl

theorem leafShiftP_ok (cmp : PComp K E) (node : Option Nat) (key : K) : ∀ (n : Nat) (t : Tree K V) (e : E) (t' : Tree K V) (x : Nat) (e' : E),
    leafShiftP cmp e t node key n = .ok ((t', some x), e') → leafShiftE (fill cmp) e t node key n = .ok ((t', x), e') := by
  intro n
  induction n with
  | zero => intro t e t' x e' h; cases h; rfl
  | succ n ih =>
    intro t e t' x e' h
    rw [leafShiftP] at h
    obtain ⟨v, h1, h⟩ := Res.ok_of_bind h
    rw [leafShiftE]
    simp only [h1, Res.bind_ok]
    cases hc : (cmp key v.1 e).1 with
    | none => simp only [hc] at h; cases h
    | some z =>
      simp only [hc] at h
      simp only [fill_some hc]
      by_cases h2 : z < 0
      · simp only [h2, if_true] at h ⊢
        obtain ⟨t1, h3, h⟩ := Res.ok_of_bind h
        simp only [h3, Res.bind_ok]
        exact ih _ _ _ _ _ h
      · simp only [h2, if_false] at h ⊢; cases h; rfl

theorem descendPosP_ok (cmp : PComp K E) (t : Tree K V) (node : Option Nat) (key : K) : ∀ (n : Nat) (e : E) (x : Nat) (e' : E),
    descendPosP cmp e t node key n = .ok (some x, e') → descendPosE (fill cmp) e t node key n = .ok (x, e') := by
  intro n
  induction n with
  | zero => intro e x e' h; cases h; rfl
  | succ n ih =>
    intro e x e' h
    rw [descendPosP] at h
    obtain ⟨v, h1, h⟩ := Res.ok_of_bind h
    rw [descendPosE]
    simp only [h1, Res.bind_ok]
    cases hc : (cmp key v.1 e).1 with
    | none => simp only [hc] at h; cases h
    | some z =>
      simp only [hc] at h
      simp only [fill_some hc]
      by_cases h2 : z < 0
      · simp only [h2, if_true] at h ⊢; exact ih _ _ _ h
      · simp only [h2, if_false] at h ⊢; cases h; rfl

theorem insertNonFullP_ok (cmp : PComp K E) (p : K × V) : ∀ (e : E) (t : Tree K V) (node : Option Nat) (r : Bool × Tree K V × E),
    insertNonFullP cmp e t node p = .ok r → r.1 = true → insertNonFullE (fill cmp) e t node p = .ok r.2 := by
  apply insertNonFullP.fixpoint_induct cmp p
    (fun F => ∀ (e : E) (t : Tree K V) (node : Option Nat) (r : Bool × Tree K V × E), F e t node = .ok r → r.1 = true →
      insertNonFullE (fill cmp) e t node p = .ok r.2)
  · refine Lean.Order.admissible_pi _ fun e => Lean.Order.admissible_pi _ fun t => Lean.Order.admissible_pi _ fun node => ?_
    exact Lean.Order.admissible_apply (fun _ (G : Tree K V → Option Nat → Res (Bool × Tree K V × E)) => ∀ r, G t node = .ok r → r.1 = true →
        insertNonFullE (fill cmp) e t node p = .ok r.2) e
      (Lean.Order.admissible_apply (fun _ (G : Option Nat → Res (Bool × Tree K V × E)) => ∀ r, G node = .ok r → r.1 = true →
          insertNonFullE (fill cmp) e t node p = .ok r.2) t
        (Lean.Order.admissible_apply (fun _ (x : Res (Bool × Tree K V × E)) => ∀ r, x = .ok r → r.1 = true →
          insertNonFullE (fill cmp) e t node p = .ok r.2) node (admissible_ok _)))
  · intro F ih e t node r h hr
    obtain ⟨lf, h1, h⟩ := Res.ok_of_bind h
    rw [insertNonFullE]
    simp only [h1, Res.bind_ok]
    cases lf with
    | true =>
      simp only [if_true] at h ⊢
      obtain ⟨n, h2, h⟩ := Res.ok_of_bind h
      obtain ⟨⟨⟨t0, o⟩, e1⟩, h3, h⟩ := Res.ok_of_bind h
      cases o with
      | none => cases h; cases hr
      | some x =>
        obtain ⟨t1, h4, h⟩ := Res.ok_of_bind h
        obtain ⟨t2, h5, h⟩ := Res.ok_of_bind h
        simp only [h2, leafShiftP_ok cmp node p.1 n t e _ _ _ h3, h4, h5, Res.bind_ok]
        cases h; rfl
    | false =>
      simp only [Bool.false_eq_true, if_false] at h ⊢
      obtain ⟨n, h2, h⟩ := Res.ok_of_bind h
      obtain ⟨⟨o, e1⟩, h3, h⟩ := Res.ok_of_bind h
      cases o with
      | none => cases h; cases hr
      | some x =>
        obtain ⟨c, h4, h⟩ := Res.ok_of_bind h
        obtain ⟨cn, h5, h⟩ := Res.ok_of_bind h
        simp only [h2, descendPosP_ok cmp t node p.1 n e _ _ h3, h4, h5, Res.bind_ok]
        by_cases hf : 2 * t.degree - 1 = cn
        · simp only [hf, if_true] at h ⊢
          obtain ⟨t1, h6, h⟩ := Res.ok_of_bind h
          obtain ⟨v, h7, h⟩ := Res.ok_of_bind h
          simp only [h6, h7, Res.bind_ok]
          cases hc : (cmp v.1 p.1 e1).1 with
          | none => rw [hc] at h; cases h; cases hr
          | some z =>
            rw [hc] at h
            obtain ⟨c2, h8, h⟩ := Res.ok_of_bind h
            simp only [fill_some hc, h8, Res.bind_ok]
            exact ih _ _ _ _ h hr
        · simp only [hf, if_false] at h ⊢
          exact ih _ _ _ _ h hr

theorem insertP_ok (cmp : PComp K E) (p : K × V) (e : E) (t : Tree K V) {t' : Tree K V} {e' : E}
    (h : insertP cmp e t p = .ok (true, t', e')) : insertE (fill cmp) e t p = .ok (t', e') := by
  rw [insertP] at h
  rw [insertE]
  by_cases h0 : t.root = none
  · simp only [h0, if_true] at h ⊢; cases h; rfl
  · simp only [h0, if_false] at h ⊢
    obtain ⟨n, h1, h⟩ := Res.ok_of_bind h
    simp only [h1, Res.bind_ok]
    by_cases hf : t.degree * 2 - 1 = n
    · simp only [hf, if_true] at h ⊢
      obtain ⟨t1, h2, h⟩ := Res.ok_of_bind h
      obtain ⟨t2, h3, h⟩ := Res.ok_of_bind h
      obtain ⟨t3, h4, h⟩ := Res.ok_of_bind h
      obtain ⟨q, h5, h⟩ := Res.ok_of_bind h
      by_cases hq : q.1 = true
      · simp only [hq, if_true] at h
        simp only [h2, h3, h4, insertNonFullP_ok cmp p _ _ _ _ h5 hq, Res.bind_ok]
        cases h; rfl
      · simp only [hq] at h; cases h
    · simp only [hf, if_false] at h ⊢
      exact insertNonFullP_ok cmp p _ _ _ _ h rfl

/-! ### C138 -/

/-- C138, the calls that return: `GetVerify` and `InsertUnique`, if the comparator does not panic in them, do and answer in any tree what C128 says they do and
answer, with a comparator that answers like this one and never panics. -/
theorem raised_returned_partial (cmp : PComp K E) (e : E) (t : Tree K V) (k : K) (v : V) (a : PAns V) (t' : Tree K V) (e' : E) :
    (stepP cmp e t (.get k) = .ok (some a, t', e') → ∃ o, a = .get o ∧ stepE (fill cmp) e t (.get k) = .ok (.get o, t', e')) ∧
    (stepP cmp e t (.insertUnique k v) = .ok (some a, t', e') → ∃ b, a = .inserted b ∧ stepE (fill cmp) e t (.insertUnique k v) = .ok (.inserted b, t', e')) := by
  constructor
  · intro h
    simp only [stepP, getVerifyP] at h
    obtain ⟨r, hr, h⟩ := Res.ok_of_bind h
    obtain ⟨s, hs, hr⟩ := Res.ok_of_bind hr
    obtain ⟨o, e1⟩ := s
    cases o with
    | none => cases hr; cases h
    | some x =>
      simp only [stepE, getVerifyE, searchP_ok cmp t k e hs, Res.bind_ok]
      cases hb : x.2.2 with
      | false =>
        simp only [hb, Bool.false_eq_true, if_false] at hr ⊢
        cases hr; cases h; exact ⟨_, rfl, rfl⟩
      | true =>
        simp only [hb, if_true] at hr ⊢
        obtain ⟨w, hw, hr⟩ := Res.ok_of_bind hr
        cases hr; cases h
        simp only [hw, Res.bind_ok]
        exact ⟨_, rfl, rfl⟩
  · intro h
    simp only [stepP] at h
    obtain ⟨s, hs, h⟩ := Res.ok_of_bind h
    obtain ⟨o, e1⟩ := s
    cases o with
    | none => cases h
    | some x =>
      simp only [stepE, insertUniqueE, containsKeyE, searchP_ok cmp t k e hs, Res.bind_ok]
      cases hb : x.2.2 with
      | true =>
        simp only [hb, if_true] at h
        cases h; exact ⟨_, rfl, rfl⟩
      | false =>
        simp only [hb, Bool.false_eq_true, if_false] at h
        obtain ⟨⟨b, t2, e2⟩, h2, h⟩ := Res.ok_of_bind h
        cases b with
        | false => cases h
        | true =>
          cases h
          simp only [Bool.not_false, if_true, insertP_ok cmp (k, v) e1 t h2, Res.bind_ok]
          exact ⟨_, rfl, rfl⟩

/-- Such calls exist, also those that split a node and those that come after a panic. -/
example : answersOnce 2 3 [.insertUnique 10 1, .insertUnique 20 2, .insertUnique 30 3, .insertUnique 30 3, .insertUnique 40 4, .get 40] =
    .ok [some (.inserted true), some (.inserted true), none, some (.inserted true), some (.inserted true), some (.get (some 4))] := by cbv

end Gds.BPlus
