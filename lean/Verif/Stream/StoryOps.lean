import Verif.Stream.Story
import Verif.Stream.Lemmas

/-! The operators of the package play the stories of `Story.lean`. -/

namespace Gds.Stream

variable {E T R U : Type}

theorem LivesStep.mono {s : Stm E T} {P Q : s.S → s.L → Life E T → Prop} (h : ∀ st l L, P st l L → Q st l L) {st l L}
    (hp : LivesStep s P st l L) : LivesStep s Q st l L := by
  unfold LivesStep at *
  split at hp
  · exact hp
  · obtain ⟨st', l', h1, h2⟩ := hp
    exact ⟨st', l', h1, h _ _ _ h2⟩

theorem Lives.step {s : Stm E T} {st l L} (h : Lives s st l L) : LivesStep s (Lives s) st l L := by
  obtain ⟨P, h1, h2⟩ := h
  exact (h2 _ _ _ h1).mono fun st l L hp => ⟨P, hp, h2⟩

theorem Lives.coind (s : Stm E T) (P : s.S → s.L → Life E T → Prop) (h : ∀ st l L, P st l L → LivesStep s P st l L) {st l L}
    (hp : P st l L) : Lives s st l L := ⟨P, hp, h⟩

theorem Lives.of_step {s : Stm E T} {st l L} (h : LivesStep s (Lives s) st l L) : Lives s st l L :=
  Lives.coind s (fun st l L => LivesStep s (Lives s) st l L) (fun _ _ _ hp => hp.mono fun _ _ _ h => h.step) h

theorem Lives.cons {s : Stm E T} {st l f x its fin later} (h : Lives s st l ⟨⟨(f, x) :: its, fin⟩, later⟩) :
    ∃ st' l', (∀ e, s.pull st l e = .ok (some x, st', l', f e)) ∧ Lives s st' l' ⟨⟨its, fin⟩, later⟩ := h.step

theorem Lives.done {s : Stm E T} {st l f later} (h : Lives s st l ⟨⟨[], some f⟩, later⟩) :
    ∃ st' l', (∀ e, s.pull st l e = .ok (none, st', l', f e)) ∧ Lives s st' l' ⟨later 0, fun k => later (k + 1)⟩ := h.step

theorem Lives.panics {s : Stm E T} {st l later} (h : Lives s st l ⟨⟨[], none⟩, later⟩) :
    ∀ e, s.pull st l e = .panic .indexOutOfRange := h.step

theorem LivesStep.after {s : Stm E T} {P : s.S → s.L → Life E T → Prop} {st l st1 l1 f r later}
    (h : ∀ e, s.pull st l e = s.pull st1 l1 (f e)) (hs : LivesStep s P st1 l1 ⟨r, later⟩) : LivesStep s P st l ⟨r.after f, later⟩ := by
  obtain ⟨_ | ⟨⟨g, x⟩, t⟩, fin⟩ := r
  · cases fin with
    | none => exact fun e => by rw [h]; exact hs (f e)
    | some g =>
      obtain ⟨st', l', h1, h2⟩ := hs
      exact ⟨st', l', fun e => by rw [h, h1]; rfl, h2⟩
  · obtain ⟨st', l', h1, h2⟩ := hs
    exact ⟨st', l', fun e => by rw [h, h1]; rfl, h2⟩

/-! ### Map, Inspect, Filter, SkipWhile -/

theorem map_lives {s : Stm E T} (f : T → R) {st l L} (h : Lives s st l L) : Lives (map s f) st l (L.each (Round.map f)) := by
  refine Lives.coind (map s f) (fun st l M => ∃ L, Lives s st l L ∧ M = L.each (Round.map f)) ?_ ⟨L, h, rfl⟩
  rintro st l _ ⟨⟨⟨_ | ⟨⟨g, x⟩, its⟩, fin⟩, later⟩, h, rfl⟩
  · cases fin with
    | none => exact fun e => by simp [map, h.panics e]
    | some g =>
      obtain ⟨st', l', h1, h2⟩ := h.done
      exact ⟨st', l', fun e => by simp [map, h1], _, h2, rfl⟩
  · obtain ⟨st', l', h1, h2⟩ := h.cons
    exact ⟨st', l', fun e => by simp [map, h1], _, h2, rfl⟩

theorem inspect_lives {s : Stm E T} (f : T → E → E) {st l L} (h : Lives s st l L) :
    Lives (inspect s f) st l (L.each (Round.inspect f)) := by
  refine Lives.coind (inspect s f) (fun st l M => ∃ L, Lives s st l L ∧ M = L.each (Round.inspect f)) ?_ ⟨L, h, rfl⟩
  rintro st l _ ⟨⟨⟨_ | ⟨⟨g, x⟩, its⟩, fin⟩, later⟩, h, rfl⟩
  · cases fin with
    | none => exact fun e => by simp [inspect, h.panics e]
    | some g =>
      obtain ⟨st', l', h1, h2⟩ := h.done
      exact ⟨st', l', fun e => by simp [inspect, h1], _, h2, rfl⟩
  · obtain ⟨st', l', h1, h2⟩ := h.cons
    exact ⟨st', l', fun e => by simp [inspect, h1], _, h2, rfl⟩

theorem filter_lives {s : Stm E T} (q : T → Bool) {st l L} (h : Lives s st l L) :
    Lives (filter s q) st l (L.each fun r => Round.filter q r.items r.fin) := by
  refine Lives.coind (filter s q) (fun st l M => ∃ L, Lives s st l L ∧ M = L.each fun r => Round.filter q r.items r.fin) ?_ ⟨L, h, rfl⟩
  rintro (st : s.S) (l : s.L) _ ⟨⟨⟨its, fin⟩, later⟩, h, rfl⟩
  induction its generalizing st l with
  | nil =>
    cases fin with
    | none => exact fun e => by simp [filter]; rw [filterPull]; simp [h.panics e]
    | some g =>
      obtain ⟨st', l', h1, h2⟩ := h.done
      exact ⟨st', l', fun e => by simp [filter]; rw [filterPull]; simp [h1], _, h2, rfl⟩
  | cons it its ih =>
    obtain ⟨g, x⟩ := it
    obtain ⟨st', l', h1, h2⟩ := h.cons
    by_cases hq : q x = true
    · simp only [Life.each, Round.filter, hq, if_true]
      exact ⟨st', l', fun e => by simp [filter]; rw [filterPull]; simp [h1, hq], _, h2, rfl⟩
    · simp only [Life.each, Round.filter, hq]
      refine LivesStep.after (fun e => ?_) (ih _ _ h2)
      show filterPull s q _ _ _ = filterPull s q _ _ _
      conv_lhs => rw [filterPull]
      simp [h1, hq]

theorem skipWhile_lives {s : Stm E T} (q : T → Bool) {st l L} (h : Lives s st l L) :
    Lives (skipWhile s q) st l (L.each fun r => Round.filter (fun t => !q t) r.items r.fin) := by
  refine Lives.coind (skipWhile s q) (fun st l M => ∃ L, Lives s st l L ∧ M = L.each fun r => Round.filter (fun t => !q t) r.items r.fin) ?_
    ⟨L, h, rfl⟩
  rintro (st : s.S) (l : s.L) _ ⟨⟨⟨its, fin⟩, later⟩, h, rfl⟩
  induction its generalizing st l with
  | nil =>
    cases fin with
    | none => exact fun e => by simp [skipWhile]; rw [skipWhilePull]; simp [h.panics e]
    | some g =>
      obtain ⟨st', l', h1, h2⟩ := h.done
      exact ⟨st', l', fun e => by simp [skipWhile]; rw [skipWhilePull]; simp [h1], _, h2, rfl⟩
  | cons it its ih =>
    obtain ⟨g, x⟩ := it
    obtain ⟨st', l', h1, h2⟩ := h.cons
    by_cases hq : q x = true
    · simp only [Life.each, Round.filter, hq, Bool.not_true, Bool.false_eq_true, if_false]
      refine LivesStep.after (fun e => ?_) (ih _ _ h2)
      show skipWhilePull s q _ _ _ = skipWhilePull s q _ _ _
      conv_lhs => rw [skipWhilePull]
      simp [h1, hq]
    · simp only [Bool.not_eq_true] at hq
      simp only [Life.each, Round.filter, hq, Bool.not_false, if_true]
      exact ⟨st', l', fun e => by simp [skipWhile]; rw [skipWhilePull]; simp [h1, hq], _, h2, rfl⟩

/-! ### Take, Skip, Enumerate -/

theorem scan_take_zero (L : Life E T) : L.scan (fun n r => Round.take n r.items r.fin) 0 = Life.nothing := by
  have : ∀ (k : Nat) (later : Nat → Round E T),
      Life.scanFrom (fun n r => Round.take n r.items r.fin) 0 later k = Round.ended := by
    intro k
    induction k with
    | zero => intro later; simp [Life.scanFrom, Round.take]
    | succ k ih => intro later; simp only [Life.scanFrom, Round.take]; exact ih _
  simp only [Life.scan, Round.take, Life.nothing, Life.mk.injEq, true_and]
  funext k
  exact this k _

theorem take_lives {s : Stm E T} (n c : Int) {st l L} (h : Lives s st l L) :
    Lives (take s n) st (c, l) (L.scan (fun n r => Round.take n r.items r.fin) (n - c).toNat) := by
  refine Lives.coind (take s n) (fun st l M => ∃ L, Lives s st l.2 L ∧ M = L.scan (fun n r => Round.take n r.items r.fin) (n - l.1).toNat) ?_
    ⟨L, h, rfl⟩
  rintro st ⟨c, l⟩ _ ⟨L, h, rfl⟩
  simp only at h ⊢
  by_cases hc : c < n
  · obtain ⟨k, hk⟩ : ∃ k, (n - c).toNat = k + 1 := ⟨(n - c).toNat - 1, by omega⟩
    rw [hk]
    obtain ⟨⟨_ | ⟨⟨g, x⟩, its⟩, fin⟩, later⟩ := L
    · cases fin with
      | none => exact fun e => by simp [take, hc, h.panics e]
      | some g =>
        obtain ⟨st', l', h1, h2⟩ := h.done
        exact ⟨st', (c, l'), fun e => by simp [take, hc, h1], _, h2, by simp only [hk]; rfl⟩
    · obtain ⟨st', l', h1, h2⟩ := h.cons
      exact ⟨st', (c + 1, l'), fun e => by simp [take, hc, h1], _, h2, by
        rw [show (n - (c + 1)).toNat = k by omega]; rfl⟩
  · rw [show (n - c).toNat = 0 by omega, scan_take_zero]
    exact ⟨st, (c, l), fun e => by simp [take, hc], L, h, by
      simp only [show (n - c).toNat = 0 by omega]; rw [scan_take_zero]; rfl⟩

theorem enumerate_lives {s : Stm E T} (c : Int) {st l L} (h : Lives s st l L) :
    Lives (enumerate s) st (c, l) (L.scan (fun k r => Round.number k r.items r.fin) c) := by
  refine Lives.coind (enumerate s) (fun st l M => ∃ L, Lives s st l.2 L ∧ M = L.scan (fun k r => Round.number k r.items r.fin) l.1) ?_ ⟨L, h, rfl⟩
  rintro st ⟨c, l⟩ _ ⟨⟨⟨_ | ⟨⟨g, x⟩, its⟩, fin⟩, later⟩, h, rfl⟩
  · cases fin with
    | none => exact fun e => by simp [enumerate, h.panics e]
    | some g =>
      obtain ⟨st', l', h1, h2⟩ := h.done
      exact ⟨st', (c, l'), fun e => by simp [enumerate, h1], _, h2, rfl⟩
  · obtain ⟨st', l', h1, h2⟩ := h.cons
    exact ⟨st', (c + 1, l'), fun e => by simp [enumerate, h1], _, h2, rfl⟩

theorem skip_lives {s : Stm E T} (n c : Int) {st l L} (h : Lives s st l L) :
    Lives (skip s n) st (c, l) (L.scan (fun n r => Round.drop n r.items r.fin) (n - 1 - c).toNat) := by
  refine Lives.coind (skip s n) (fun st l M => ∃ L, Lives s st l.2 L ∧ M = L.scan (fun n r => Round.drop n r.items r.fin) (n - 1 - l.1).toNat) ?_
    ⟨L, h, rfl⟩
  rintro (st : s.S) ⟨c, (l : s.L)⟩ _ ⟨⟨⟨its, fin⟩, later⟩, h, rfl⟩
  simp only at h ⊢
  induction its generalizing st c l with
  | nil =>
    have hd : ∀ m, Round.drop m ([] : List ((E → E) × T)) fin = (⟨[], fin⟩, m) := fun m => by cases m <;> rfl
    simp only [Life.scan, hd]
    cases fin with
    | none => exact fun e => by simp [skip]; rw [skipPull]; simp [h.panics e]
    | some g =>
      obtain ⟨st', l', h1, h2⟩ := h.done
      exact ⟨st', (c, l'), fun e => by simp [skip]; rw [skipPull]; simp [h1], _, h2, rfl⟩
  | cons it its ih =>
    obtain ⟨g, x⟩ := it
    obtain ⟨st', l', h1, h2⟩ := h.cons
    have ih' := ih st' (c + 1) l' h2
    by_cases hc : c + 1 < n
    · obtain ⟨k, hk⟩ : ∃ k, (n - 1 - c).toNat = k + 1 := ⟨(n - 1 - c).toNat - 1, by omega⟩
      rw [hk]
      rw [show (n - 1 - (c + 1)).toNat = k by omega] at ih'
      refine LivesStep.after (fun e => ?_) ih'
      show skipPull s n _ _ _ = skipPull s n _ _ _
      conv_lhs => rw [skipPull]
      simp [h1, hc]
    · rw [show (n - 1 - c).toNat = 0 by omega]
      exact ⟨st', (c + 1, l'), fun e => by simp [skip]; rw [skipPull]; simp [h1, hc], _, h2, by
        simp only [show (n - 1 - (c + 1)).toNat = 0 by omega]; rfl⟩

/-! ### Zip -/

theorem zip_lives (z : T × R) {s : Stm E T} {s2 : Stm E R} {st l L st2 l2 Q} (h : Lives s st l L) (h2 : Lives s2 st2 l2 Q) :
    Lives (zip z s s2) (st, st2) (l, l2) (L.scan (fun Q r => Life.zipRound z r.items r.fin Q) Q) := by
  refine Lives.coind (zip z s s2) (fun st l M => ∃ L Q, Lives s st.1 l.1 L ∧ Lives s2 st.2 l.2 Q ∧
    M = L.scan (fun Q r => Life.zipRound z r.items r.fin Q) Q) ?_ ⟨L, Q, h, h2, rfl⟩
  rintro ⟨st, st2⟩ ⟨l, l2⟩ _ ⟨⟨⟨its, fin⟩, later⟩, Q, h, h2, rfl⟩
  simp only at h h2
  have hq := h2.step
  unfold LivesStep at hq
  cases its with
  | nil =>
    cases fin with
    | none =>
      have : (Life.scan (fun Q r => Life.zipRound z r.items r.fin Q) Q (⟨⟨[], none⟩, later⟩ : Life E T)).ask = none := by
        simp only [Life.scan, Life.zipRound]
        split <;> rfl
      unfold LivesStep
      rw [this]
      exact fun e => by simp [zip, h.panics e]
    | some g =>
      obtain ⟨st', l', h1, h3⟩ := h.done
      simp only [Life.scan, Life.zipRound]
      split at hq <;> rename_i heq <;> simp only [heq]
      · exact fun e => by simp [zip, h1, hq]
      · obtain ⟨st2', l2', q1, q2⟩ := hq
        rename_i oy Q'
        exact ⟨(st', st2'), (l', l2'), fun e => by simp [zip, h1, q1], _, Q', h3, q2, rfl⟩
  | cons it its =>
    obtain ⟨g, x⟩ := it
    obtain ⟨st', l', h1, h3⟩ := h.cons
    simp only [Life.scan, Life.zipRound]
    split at hq <;> rename_i heq <;> simp only [heq]
    · exact fun e => by simp [zip, h1, hq]
    · obtain ⟨st2', l2', q1, q2⟩ := hq
      rename_i oy Q'
      cases oy with
      | none => exact ⟨(st', st2'), (l', l2'), fun e => by simp [zip, h1, q1], _, Q', h3, q2, rfl⟩
      | some y => exact ⟨(st', st2'), (l', l2'), fun e => by simp [zip, h1, q1], _, Q', h3, q2, rfl⟩

/-! ### FlatMap -/

theorem Round.append_cons (f : E → E) (x : T) (its fin) (c : Round E T) :
    Round.append ⟨(f, x) :: its, fin⟩ c = Round.cons f x (Round.append ⟨its, fin⟩ c) := by
  cases fin <;> rfl

theorem Round.append_nil_some (f : E → E) (c : Round E T) : Round.append ⟨[], some f⟩ c = c.after f := rfl

theorem Round.append_nil_none (c : Round E T) : Round.append ⟨[], none⟩ c = Round.broken := rfl

theorem Round.after_after (f g : E → E) (c : Round E T) : (c.after f).after g = c.after (f ∘ g) := by
  obtain ⟨_ | ⟨⟨h, x⟩, t⟩, _ | fin⟩ := c <;> rfl

theorem flat_form (k : T → Story E U) (its : List ((E → E) × T)) (fin : Option (E → E)) (cl : Nat → Round E U) :
    ∃ X S, ∀ r, Life.flatRound k its fin ⟨r, cl⟩ = (r.append X, S) := by
  cases its with
  | nil => exact ⟨⟨[], fin⟩, ⟨cl 0, fun k => cl (k + 1)⟩, fun r => rfl⟩
  | cons it its =>
    obtain ⟨g, t⟩ := it
    cases h : (k t).start with
    | none => exact ⟨Round.broken, Life.nothing, fun r => by simp only [Life.flatRound, h]⟩
    | some s => exact ⟨_, _, fun r => by simp only [Life.flatRound, h]; rfl⟩

theorem flatMap_lives {s : Stm E T} (f : T → Stm E U) (k : T → Story E U) (hk : ∀ t, Plays (f t) 0 (f t).init (k t))
    {so l t li sti O cur} (hO : Lives s so l O) (hc : Lives (f t) sti li cur) :
    Lives (flatMap s f) (so, some ⟨t, li, sti⟩) l (O.scan (fun cur r => Life.flatRound k r.items r.fin cur) cur) := by
  refine Lives.coind (flatMap s f) (fun (st : s.S × Inner f) (l : s.L) M => (st.2 = none ∧ M = Life.nothing) ∨
    ∃ t li sti cur O, st.2 = some ⟨t, li, sti⟩ ∧ Lives s st.1 l O ∧ Lives (f t) sti li cur ∧
      M = O.scan (fun cur r => Life.flatRound k r.items r.fin cur) cur) ?_ (.inr ⟨t, li, sti, cur, O, rfl, hO, hc, rfl⟩)
  rintro ⟨so, inner⟩ (l : s.L) M (⟨h, rfl⟩ | ⟨t, li, sti, ⟨⟨ci, cf⟩, cl⟩, ⟨⟨its, fin⟩, later⟩, h, hO, hc, rfl⟩) <;> simp only at h <;>
    subst h
  · exact ⟨(so, none), l, fun e => by simp [flatMap]; rw [flatMapPull], .inl ⟨rfl, rfl⟩⟩
  simp only at hO hc
  induction its generalizing so l t li sti ci cf cl with
  | nil =>
    cases ci with
    | cons it ci =>
      obtain ⟨g, x⟩ := it
      obtain ⟨st', l', h1, h2⟩ := hc.cons
      simp only [Life.scan, Life.flatRound, Round.append_cons]
      exact ⟨(so, some ⟨t, l', st'⟩), l, fun e => by simp [flatMap]; rw [flatMapPull]; simp [h1],
        .inr ⟨t, l', st', _, _, rfl, hO, h2, rfl⟩⟩
    | nil =>
      simp only [Life.scan, Life.flatRound]
      cases cf with
      | none => exact fun e => by simp [flatMap]; rw [flatMapPull]; simp [hc.panics e]
      | some c =>
        obtain ⟨st', l', h1, h2⟩ := hc.done
        cases fin with
        | none => exact fun e => by simp [flatMap]; rw [flatMapPull]; simp [h1, hO.panics _]
        | some g =>
          obtain ⟨so', lo', o1, o2⟩ := hO.done
          exact ⟨(so', some ⟨t, l', st'⟩), lo', fun e => by simp [flatMap]; rw [flatMapPull]; simp [h1, o1],
            .inr ⟨t, l', st', _, _, rfl, o2, h2, rfl⟩⟩
  | cons it its ih =>
    cases ci with
    | cons it' ci =>
      obtain ⟨g, x⟩ := it'
      obtain ⟨st', l', h1, h2⟩ := hc.cons
      obtain ⟨X, S, hX⟩ := flat_form k (it :: its) fin cl
      simp only [Life.scan, hX, Round.append_cons]
      exact ⟨(so, some ⟨t, l', st'⟩), l, fun e => by simp [flatMap]; rw [flatMapPull]; simp [h1],
        .inr ⟨t, l', st', _, _, rfl, hO, h2, by simp only [Life.scan, hX]; rfl⟩⟩
    | nil =>
      obtain ⟨g, t'⟩ := it
      cases cf with
      | none =>
        have hp : ∀ e, (flatMap s f).pull (so, some ⟨t, li, sti⟩) l e = .panic .indexOutOfRange :=
          fun e => by simp [flatMap]; rw [flatMapPull]; simp [hc.panics e]
        obtain ⟨X, S, hX⟩ := flat_form k ((g, t') :: its) fin cl
        simp only [Life.scan, hX, Round.append_nil_none]
        exact hp
      | some c =>
        obtain ⟨st', l', h1, h2⟩ := hc.done
        obtain ⟨so', lo', o1, o2⟩ := hO.cons
        have hk' := hk t'
        unfold Plays at hk'
        cases hs : (k t').start with
        | none =>
          rw [hs] at hk'
          simp only [Life.scan, Life.flatRound, hs]
          exact fun e => by simp [flatMap]; rw [flatMapPull]; simp [h1, o1, flatOpen, hk']
        | some s' =>
          rw [hs] at hk'
          obtain ⟨g1, stx, l1, k1, k2, -⟩ := hk'
          simp only [Life.scan, Life.flatRound, hs, Round.append_nil_some, Round.after_after]
          refine LivesStep.after (fun e => ?_) (ih so' lo' t' l1 stx _ _ _ k2 o2)
          show flatMapPull s f _ _ _ = flatMapPull s f _ _ _
          conv_lhs => rw [flatMapPull]
          simp [h1, o1, flatOpen, k1]

/-! ### Chain -/

section Chain
variable {n : Nat} {ss : Fin n → Stm E T}

theorem Life.chain_cons (f : E → E) (x : T) (its fin later) (Ls : List (Life E T)) :
    Life.chain ⟨⟨(f, x) :: its, fin⟩, later⟩ Ls =
      ⟨Round.cons f x (Life.chain ⟨⟨its, fin⟩, later⟩ Ls).now, (Life.chain ⟨⟨its, fin⟩, later⟩ Ls).later⟩ := by
  cases Ls with
  | nil => rfl
  | cons L' Ls => simp only [Life.chain, Round.append_cons]

/-- Still in the first pass: the segments of `rest` have not been touched. -/
def ChainA (ss : Fin n → Stm E T) (C : ChainSt ss) (l : ∀ i, (ss i).L) (M : Life E T) : Prop :=
  ∃ pre i st rest L, ∃ Lf : Fin n → Life E T, C = ⟨pre ++ ⟨i, st⟩ :: rest, pre.length, pre.length⟩ ∧ Lives (ss i) st (l i) L ∧
    (i :: rest.map Sigma.fst).Nodup ∧ (∀ x ∈ rest, Lives (ss x.1) x.2 (l x.1) (Lf x.1)) ∧
    M = Life.chain L (rest.map fun x => Lf x.1)

/-- The end has been reported. -/
def ChainB (ss : Fin n → Stm E T) (C : ChainSt ss) (l : ∀ i, (ss i).L) (M : Life E T) : Prop :=
  ∃ pre i st items fin later, C = ⟨pre ++ [⟨i, st⟩], pre.length + 1, pre.length⟩ ∧ Lives (ss i) st (l i) ⟨⟨items, fin⟩, later⟩ ∧
    M.now = ⟨items, none⟩

theorem chainB_step {C : ChainSt ss} {l M} (h : ChainB ss C l M) : LivesStep (chain ss) (ChainB ss) C l M := by
  obtain ⟨pre, i, st, items, fin, later, rfl, hl, hM⟩ := h
  obtain ⟨⟨mi, mf⟩, ml⟩ := M
  simp only [Round.mk.injEq] at hM
  obtain ⟨rfl, rfl⟩ := hM
  cases mi with
  | nil =>
    show ∀ e, (chain ss).pull _ _ e = _
    intro e
    cases fin with
    | none => simp only [chain]; rw [chainPull]; simp [hl.panics e]
    | some g =>
      obtain ⟨st', l', h1, -⟩ := hl.done
      simp only [chain]; rw [chainPull]; simp [h1]
  | cons it mi =>
    obtain ⟨f, x⟩ := it
    obtain ⟨st', l', h1, h2⟩ := hl.cons
    refine ⟨⟨pre ++ [⟨i, st'⟩], pre.length + 1, pre.length⟩, Function.update l i l', fun e => ?_,
      pre, i, st', mi, fin, later, rfl, by simpa using h2, rfl⟩
    simp only [chain]; rw [chainPull]; simp [h1]

theorem chainA_step {C : ChainSt ss} {l M} (h : ChainA ss C l M) :
    LivesStep (chain ss) (fun C l M => ChainA ss C l M ∨ ChainB ss C l M) C l M := by
  obtain ⟨pre, i, st, rest, ⟨⟨its, fin⟩, later⟩, Lf, rfl, hl, hn, hr, rfl⟩ := h
  induction rest generalizing pre i st l its fin later with
  | nil =>
    cases its with
    | cons it its =>
      obtain ⟨f, x⟩ := it
      obtain ⟨st', l', h1, h2⟩ := hl.cons
      refine ⟨⟨pre ++ [⟨i, st'⟩], pre.length, pre.length⟩, Function.update l i l', fun e => ?_,
        .inl ⟨pre, i, st', [], _, Lf, rfl, by simpa using h2, by simp, by simp, rfl⟩⟩
      simp only [chain]; rw [chainPull]; simp [h1]
    | nil =>
      cases fin with
      | none => exact fun e => by simp only [chain]; rw [chainPull]; simp [hl.panics e]
      | some g =>
        obtain ⟨st', l', h1, h2⟩ := hl.done
        refine ⟨⟨pre ++ [⟨i, st'⟩], pre.length + 1, pre.length⟩, Function.update l i l', fun e => ?_,
          .inr ⟨pre, i, st', _, _, _, rfl, by simpa using h2, rfl⟩⟩
        simp only [chain]; rw [chainPull]; simp [h1]
  | cons y rest ih =>
    obtain ⟨j, stj⟩ := y
    have hne : ∀ x ∈ ((⟨j, stj⟩ : Σ i, (ss i).S) :: rest), x.1 ≠ i := by
      intro x hx hxi
      have hn' := (List.nodup_cons.1 hn).1
      apply hn'
      rw [← hxi]
      exact (List.mem_map_of_mem (f := Sigma.fst) hx)
    cases its with
    | cons it its =>
      obtain ⟨f, x⟩ := it
      obtain ⟨st', l', h1, h2⟩ := hl.cons
      rw [Life.chain_cons]
      refine ⟨⟨pre ++ ⟨i, st'⟩ :: ⟨j, stj⟩ :: rest, pre.length, pre.length⟩, Function.update l i l', fun e => ?_,
        .inl ⟨pre, i, st', ⟨j, stj⟩ :: rest, ⟨⟨its, fin⟩, later⟩, Lf, rfl, by simpa using h2, hn, fun x hx => ?_, rfl⟩⟩
      · simp only [chain]; rw [chainPull]; simp [h1]
      · rw [Function.update_of_ne (hne x hx)]; exact hr x hx
    | nil =>
      cases fin with
      | none => exact fun e => by simp only [chain]; rw [chainPull]; simp [hl.panics e]
      | some g =>
        obtain ⟨st', l', h1, h2⟩ := hl.done
        have hj := hr ⟨j, stj⟩ List.mem_cons_self
        have ih' := ih (l := Function.update l i l') (pre := pre ++ [⟨i, st'⟩]) (i := j) (st := stj) (its := (Lf j).now.items) (fin := (Lf j).now.fin) (later := (Lf j).later)
          (by rw [Function.update_of_ne (hne _ List.mem_cons_self)]; exact hj) (by simpa using (List.nodup_cons.1 hn).2)
          (fun x hx => by
            rw [Function.update_of_ne (hne x (List.mem_cons_of_mem _ hx))]
            exact hr x (List.mem_cons_of_mem _ hx))
        simp only [List.map_cons, Life.chain, Round.append_nil_some]
        refine LivesStep.after (fun e => ?_) ih'
        simp only [chain]
        conv_lhs => rw [chainPull]
        simp [h1]

theorem chain_lives {i : Fin n} {st rest L} {Lf : Fin n → Life E T} {l} (h : Lives (ss i) st (l i) L)
    (hn : (i :: rest.map Sigma.fst).Nodup) (hr : ∀ x ∈ rest, Lives (ss x.1) x.2 (l x.1) (Lf x.1)) :
    Lives (chain ss) (⟨⟨i, st⟩ :: rest, 0, 0⟩ : ChainSt ss) l (Life.chain L (rest.map fun x => Lf x.1)) := by
  refine Lives.coind (chain ss) (fun C l M => ChainA ss C l M ∨ ChainB ss C l M) ?_
    (.inl ⟨[], i, st, rest, L, Lf, rfl, h, hn, hr, rfl⟩)
  rintro C l M (h | h)
  · exact chainA_step h
  · exact (chainB_step h).mono fun _ _ _ => .inr

end Chain

end Gds.Stream
