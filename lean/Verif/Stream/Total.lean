import Verif.Stream.StoryPlays
import Verif.Stream.Props

/-! C110: the exact behaviour of every sequential pipeline, without side conditions. -/

namespace Gds.Stream

variable {E T R U A : Type}

/-! ### Terminal operations -/

theorem foldSeg_lives {s : Stm E T} (f : A → T → E → A × E) {st l L} (h : Lives s st l L) :
    (L.now.fin = none → ∀ a e, foldSeg s f st a l e = .panic .indexOutOfRange) ∧
    (∀ g, L.now.fin = some g → ∃ l', ∀ a e, foldSeg s f st a l e =
      let z := L.now.items.foldl (fun z it => f z.1 it.2 (it.1 z.2)) (a, e)
      .ok (z.1, l', g z.2)) := by
  obtain ⟨⟨its, fin⟩, later⟩ := L
  simp only
  induction its generalizing st l with
  | nil =>
    refine ⟨?_, ?_⟩
    · rintro rfl a e
      rw [foldSeg]; simp [h.panics e]
    · rintro g rfl
      obtain ⟨st', l', h1, -⟩ := h.done
      exact ⟨l', fun a e => by rw [foldSeg]; simp [h1]⟩
  | cons it its ih =>
    obtain ⟨g, x⟩ := it
    obtain ⟨st', l', h1, h2⟩ := h.cons
    obtain ⟨i1, i2⟩ := ih h2
    refine ⟨fun hf a e => ?_, fun g' hf => ?_⟩
    · rw [foldSeg]; simp only [h1, Res.bind_ok]; exact i1 hf _ _
    · obtain ⟨l2, i2⟩ := i2 g' hf
      exact ⟨l2, fun a e => by rw [foldSeg]; simp only [h1, Res.bind_ok]; rw [i2]; simp⟩

/-- What a terminal operation over a whole story returns. -/
def finish {L : Type} (l' : L) : Option (A × E) → Res (A × L × E)
  | none => .panic .indexOutOfRange
  | some r => .ok (r.1, l', r.2)

theorem foldSegs_plays {s : Stm E T} (f : A → T → E → A × E) {p l t} (h : Plays s p l t) :
    ∃ l', ∀ a e, foldSegs s f (s.activate p) a l e = finish l' (t.consume f a e) := by
  cases ht : t.start with
  | none => exact ⟨l, fun a e => by rw [foldSegs]; simp [h.panics ht, Story.consume, ht, finish]⟩
  | some b =>
    obtain ⟨g1, st, l1, h1, h2, h3⟩ := h.ok ht
    obtain ⟨k1, k2⟩ := foldSeg_lives f h2
    cases hf : t.life.now.fin with
    | none =>
      refine ⟨l, fun a e => ?_⟩
      rw [foldSegs]
      simp [h1, k1 hf, Story.consume, ht, hf, finish]
    | some g =>
      obtain ⟨l', k2⟩ := k2 g hf
      refine ⟨l', fun a e => ?_⟩
      rw [foldSegs]
      simp only [h1, Res.bind_ok, k2]
      rw [foldSegs]
      obtain ⟨g2, e2⟩ := h3 l' (g (t.life.now.items.foldl (fun z it => f z.1 it.2 (it.1 z.2)) (a, b e)).2)
      simp [e2, Story.consume, ht, hf, finish]

/-- C110: FoldWith (hence Fold, Sum, ReduceWith) over any sequential pipeline consumes its story. -/
theorem foldWith_flow (p : Flow E T) (f : A → T → A) : ∃ l', ∀ a e,
    foldWith p.stm a f p.stm.init e = finish l' (p.story.consume (fun a x e => (f a x, e)) a e) := by
  have h := p.plays
  rw [← p.par_zero] at h
  exact foldSegs_plays _ h

/-- C110: Collect over any sequential pipeline consumes its story. -/
theorem collect_flow (p : Flow E T) (c : T → E → E) : ∃ l', ∀ e,
    collect p.stm c p.stm.init e = (finish l' (p.story.consume (fun (_ : Unit) x e => ((), c x e)) () e)).bind fun r => .ok r.2 := by
  have h := p.plays
  rw [← p.par_zero] at h
  obtain ⟨l', h⟩ := foldSegs_plays (fun (_ : Unit) x e => ((), c x e)) h
  exact ⟨l', fun e => by unfold collect; rw [h]; rfl⟩

theorem first_plays (z : T) {s : Stm E T} {l t} (h : Plays s s.par l t) : ∃ l', ∀ e, first z s l e =
    match t.head e with
    | none => .panic .indexOutOfRange
    | some (o, e') => .ok ((o.getD z, o.isSome), l', e') := by
  cases ht : t.start with
  | none => exact ⟨l, fun e => by simp [first, h.panics ht, Story.head, ht]⟩
  | some b =>
    obtain ⟨g1, st, l1, h1, h2, h3⟩ := h.ok ht
    have hs := h2.step
    unfold LivesStep at hs
    cases ha : t.life.ask with
    | none =>
      rw [ha] at hs
      exact ⟨l, fun e => by simp [first, h1, hs, Story.head, ht, ha]⟩
    | some r =>
      obtain ⟨f, o, L'⟩ := r
      rw [ha] at hs
      obtain ⟨st', l', k1, -⟩ := hs
      refine ⟨l', fun e => ?_⟩
      cases o <;> simp [first, h1, k1, Story.head, ht, ha]

/-- C110: First over any sequential pipeline asks once. -/
theorem first_flow (z : T) (p : Flow E T) : ∃ l', ∀ e, first z p.stm p.stm.init e =
    match p.story.head e with
    | none => .panic .indexOutOfRange
    | some (o, e') => .ok ((o.getD z, o.isSome), l', e') := by
  have h := p.plays
  rw [← p.par_zero] at h
  exact first_plays z h

/-- C110: Reduce (and MaxBy, MinBy, Max and Min, which have the same body) over any sequential pipeline without counters: First, and
then the whole story again, starting from the first element. -/
theorem reduce_flow (z : T) (p : Flow E T) (hp : p.NoCounter) (f : T → T → T) (e : E) : ∃ l', reduce z p.stm f p.stm.init e =
    match p.story.head e with
    | none => .panic .indexOutOfRange
    | some (none, e') => .ok (z, l', e')
    | some (some x, e') => finish l' (p.story.consume (fun a x e => (f a x, e)) x e') := by
  have h : ∀ l, Plays p.stm p.stm.par l p.story := by rw [p.par_zero]; exact p.replays hp
  obtain ⟨l1, h1⟩ := first_plays z (h p.stm.init)
  obtain ⟨l2, h2⟩ := foldSegs_plays (fun a x e => (f a x, e)) (h l1)
  unfold reduce
  rw [h1]
  cases hh : p.story.head e with
  | none => exact ⟨l1, rfl⟩
  | some r =>
    obtain ⟨_ | x, e'⟩ := r
    · exact ⟨l1, rfl⟩
    · exact ⟨l2, by simpa [foldWith] using h2 x e'⟩

/-- C110: every sequential pipeline finishes: FoldWith returns or panics with an index out of range; it never runs for ever. -/
theorem flow_finishes (p : Flow E T) (f : A → T → A) (a : A) (e : E) :
    (∃ r l' e', foldWith p.stm a f p.stm.init e = .ok (r, l', e')) ∨
      foldWith p.stm a f p.stm.init e = .panic .indexOutOfRange := by
  obtain ⟨l', h⟩ := foldWith_flow p f
  rw [h]
  cases p.story.consume (fun a x e => (f a x, e)) a e with
  | none => exact .inr rfl
  | some r => exact .inl ⟨r.1, l', r.2, rfl⟩

/-! ### The elements, as the list functions -/

/-- `ys` are the elements of a round that is known to break off early only by a panic. -/
def Shows (r : Round E T) (ys : List T) : Prop := r.vals <+: ys ∧ (r.fin ≠ none → r.vals = ys)

theorem Shows.broken (ys : List T) : Shows (Round.broken : Round E T) ys := ⟨List.nil_prefix, fun h => (h rfl).elim⟩

theorem Shows.cons {r : Round E T} {ys} (h : Shows r ys) (f : E → E) (x : T) : Shows (r.cons f x) (x :: ys) :=
  ⟨by simpa [Round.vals, Round.cons] using h.1, fun hf => by simpa [Round.vals, Round.cons] using h.2 hf⟩

theorem Round.vals_after (f : E → E) (r : Round E T) : (r.after f).vals = r.vals := by
  obtain ⟨_ | ⟨⟨g, x⟩, t⟩, fin⟩ := r <;> rfl

theorem Round.fin_after (f : E → E) (r : Round E T) : (r.after f).fin = none ↔ r.fin = none := by
  obtain ⟨_ | ⟨⟨g, x⟩, t⟩, fin⟩ := r <;> simp [Round.after]

theorem Shows.after {r : Round E T} {ys} (h : Shows r ys) (f : E → E) : Shows (r.after f) ys :=
  ⟨by rw [Round.vals_after]; exact h.1, fun hf => by rw [Round.vals_after]; exact h.2 (fun h0 => hf ((Round.fin_after f r).2 h0))⟩

theorem Shows.append {r c : Round E T} {ys zs} (h : Shows r ys) (h' : Shows c zs) : Shows (r.append c) (ys ++ zs) := by
  unfold Round.append
  split
  · next hf => exact ⟨h.1.trans (List.prefix_append ..), fun h0 => (h0 hf).elim⟩
  · next f hf =>
    have hr : r.vals = ys := h.2 (by simp [hf])
    have hv : (⟨r.items ++ (c.after f).items, (c.after f).fin⟩ : Round E T).vals = ys ++ c.vals := by
      rw [← hr, ← Round.vals_after f c]
      simp [Round.vals]
    refine ⟨?_, fun h0 => ?_⟩
    · rw [hv, List.prefix_append_right_inj]; exact h'.1
    · rw [hv, h'.2 fun h1 => h0 ((Round.fin_after f c).2 h1)]

theorem shows_filter (q : T → Bool) (its : List ((E → E) × T)) (fin) (xs : List T) (h : Shows ⟨its, fin⟩ xs) :
    Shows (Round.filter q its fin) (xs.filter q) := by
  induction its generalizing xs with
  | nil =>
    refine ⟨List.nil_prefix, fun hf => ?_⟩
    have : [] = xs := h.2 hf
    subst this; rfl
  | cons it its ih =>
    obtain ⟨f, x⟩ := it
    obtain ⟨ys, rfl⟩ : ∃ ys, xs = x :: ys := by
      obtain ⟨ys, h1⟩ := h.1
      exact ⟨_, h1.symm⟩
    have h' : Shows ⟨its, fin⟩ ys := ⟨by simpa [Round.vals] using h.1, fun hf => by simpa [Round.vals] using h.2 hf⟩
    unfold Round.filter
    split
    · next hq => rw [List.filter_cons_of_pos hq]; exact (ih ys h').cons f x
    · next hq => rw [List.filter_cons_of_neg hq]; exact (ih ys h').after f

theorem shows_tail {f : E → E} {x : T} {its fin xs} (h : Shows ⟨(f, x) :: its, fin⟩ xs) :
    ∃ ys, xs = x :: ys ∧ Shows (⟨its, fin⟩ : Round E T) ys := by
  obtain ⟨ys, h1⟩ := h.1
  refine ⟨_, h1.symm, ?_⟩
  have h' := h
  rw [← h1] at h'
  exact ⟨by simpa [Round.vals] using h'.1, fun hf => by simpa [Round.vals] using h'.2 hf⟩

theorem shows_nil {fin : Option (E → E)} {xs} (h : Shows (⟨[], fin⟩ : Round E T) xs) (hf : fin ≠ none) : xs = [] := (h.2 hf).symm

theorem shows_take (n : Nat) (its : List ((E → E) × T)) (fin) (xs : List T) (h : Shows ⟨its, fin⟩ xs) :
    Shows (Round.take n its fin).1 (xs.take n) := by
  induction n generalizing its xs with
  | zero => exact ⟨List.nil_prefix, fun _ => rfl⟩
  | succ n ih =>
    cases its with
    | nil =>
      refine ⟨List.nil_prefix, fun hf => ?_⟩
      rw [shows_nil h hf]; rfl
    | cons it its =>
      obtain ⟨f, x⟩ := it
      obtain ⟨ys, rfl, h'⟩ := shows_tail h
      exact (ih its ys h').cons f x

theorem shows_drop (n : Nat) (its : List ((E → E) × T)) (fin) (xs : List T) (h : Shows ⟨its, fin⟩ xs) :
    Shows (Round.drop n its fin).1 (xs.drop n) := by
  induction its generalizing n xs with
  | nil =>
    refine ⟨by cases n <;> exact List.nil_prefix, fun hf => ?_⟩
    have hf' : fin ≠ none := by cases n <;> exact hf
    rw [shows_nil h hf', List.drop_nil]
    cases n <;> rfl
  | cons it its ih =>
    obtain ⟨f, x⟩ := it
    obtain ⟨ys, rfl, h'⟩ := shows_tail h
    cases n with
    | zero => have := ih 0 ys h'; rw [List.drop_zero] at this; exact this.cons f x
    | succ n => exact (ih n ys h').after f

theorem shows_number (k : Nat) (its : List ((E → E) × T)) (fin) (xs : List T) (h : Shows ⟨its, fin⟩ xs) :
    Shows (Round.number k its fin).1 ((List.range' k xs.length).zipWith (fun k x => ((k : Int) + 1, x)) xs) := by
  induction its generalizing k xs with
  | nil =>
    refine ⟨List.nil_prefix, fun hf => ?_⟩
    rw [shows_nil h hf]; rfl
  | cons it its ih =>
    obtain ⟨f, x⟩ := it
    obtain ⟨ys, rfl, h'⟩ := shows_tail h
    have := (ih (k + 1) ys h').cons f ((k : Int) + 1, x)
    simpa [Round.number, List.range'_succ] using this

/-- Zip with zero pairs once the right side is exhausted. -/
def padZip (z : T × R) (xs : List T) (ys : List R) : List (T × R) := xs.zip ys ++ List.replicate (xs.length - ys.length) z

theorem padZip_cons (z : T × R) (x : T) (y : R) (xs ys) : padZip z (x :: xs) (y :: ys) = (x, y) :: padZip z xs ys := by
  simp [padZip]

theorem padZip_cons_nil (z : T × R) (x : T) (xs) : padZip z (x :: xs) [] = z :: padZip z xs [] := by
  simp [padZip, List.replicate_succ]

theorem padZip_nil (z : T × R) (ys) : padZip z ([] : List T) ys = [] := by simp [padZip]

theorem shows_zip (z : T × R) (its : List ((E → E) × T)) (fin) (xs : List T) (h : Shows ⟨its, fin⟩ xs) (Q : Life E R) (ys : List R)
    (hQ : Shows Q.now ys) (hl : ∀ k, (Q.later k).items = []) : Shows (Life.zipRound z its fin Q).1 (padZip z xs ys) := by
  induction its generalizing xs Q ys with
  | nil =>
    simp only [Life.zipRound]
    split
    · exact Shows.broken _
    · refine ⟨List.nil_prefix, fun hf => ?_⟩
      rw [shows_nil h (by simpa using hf), padZip_nil]
      rfl
  | cons it its ih =>
    obtain ⟨f, x⟩ := it
    obtain ⟨xs', rfl, h'⟩ := shows_tail h
    obtain ⟨⟨qi, qf⟩, ql⟩ := Q
    simp only at hQ hl
    cases qi with
    | cons it' qi =>
      obtain ⟨g, y⟩ := it'
      obtain ⟨ys', rfl, hQ'⟩ := shows_tail hQ
      rw [padZip_cons]
      exact (ih xs' h' ⟨⟨qi, qf⟩, ql⟩ ys' hQ' hl).cons _ _
    | nil =>
      cases qf with
      | none => exact Shows.broken _
      | some g =>
        rw [shows_nil hQ (by simp), padZip_cons_nil]
        refine (ih xs' h' ⟨ql 0, fun k => ql (k + 1)⟩ [] ?_ fun k => hl _).cons _ _
        exact ⟨by simp [Round.vals, hl], fun _ => by simp [Round.vals, hl]⟩

theorem shows_flat (k : T → Story E U) (kv : T → List U) (hk : ∀ t, (k t).start ≠ none → Shows (k t).life.now (kv t))
    (its : List ((E → E) × T)) (fin) (xs : List T) (h : Shows ⟨its, fin⟩ xs) (cur : Life E U) (ys : List U) (hc : Shows cur.now ys) :
    Shows (Life.flatRound k its fin cur).1 (ys ++ xs.flatMap kv) := by
  induction its generalizing xs cur ys with
  | nil =>
    refine hc.append ⟨List.nil_prefix, fun hf => ?_⟩
    rw [shows_nil h hf]; rfl
  | cons it its ih =>
    obtain ⟨g, t⟩ := it
    obtain ⟨xs', rfl, h'⟩ := shows_tail h
    simp only [Life.flatRound]
    cases hs : (k t).start with
    | none => exact hc.append (Shows.broken _)
    | some s => exact hc.append ((ih xs' h' (k t).life (kv t) (hk t (by simp [hs]))).after _)

/-! Later rounds -/

/-- Nothing is delivered after the end. -/
def Life.Over (L : Life E T) : Prop := ∀ k, (L.later k).items = []

theorem scanFrom_over {σ : Type} {step : σ → Round E T → Round E U × σ} (I : σ → Prop)
    (h : ∀ s r, I s → r.items = [] → (step s r).1.items = [] ∧ I (step s r).2) (k : Nat) (s : σ) (hs : I s) (later : Nat → Round E T)
    (hl : ∀ k, (later k).items = []) : (Life.scanFrom step s later k).items = [] := by
  induction k generalizing s later with
  | zero => exact (h s _ hs (hl 0)).1
  | succ k ih => exact ih _ (h s _ hs (hl 0)).2 _ fun k => hl _

theorem flat_over (k : T → Story E U) (hk : ∀ t, (k t).life.Over) (its : List ((E → E) × T)) (fin) (cur : Life E U) (hc : cur.Over) :
    (Life.flatRound k its fin cur).2.now.items = [] ∧ (Life.flatRound k its fin cur).2.Over := by
  induction its generalizing cur with
  | nil => exact ⟨hc 0, fun k => hc _⟩
  | cons it its ih =>
    obtain ⟨g, t⟩ := it
    simp only [Life.flatRound]
    cases (k t).start with
    | none => exact ⟨rfl, fun _ => rfl⟩
    | some s => exact ih _ (hk t)

theorem chain_over (L : Life E T) (Ls : List (Life E T)) (h : L.Over) (hs : ∀ M ∈ Ls, M.Over) : (Life.chain L Ls).Over := by
  induction Ls generalizing L with
  | nil => exact fun k => h 0
  | cons L' Ls ih => exact ih L' (hs L' (by simp)) fun M hM => hs M (by simp [hM])

theorem shows_chain (L : Life E T) (Ls : List (Life E T)) (v : List T) (vs : List (List T)) (h : Shows L.now v)
    (hs : List.Forall₂ (fun M w => Shows M.now w) Ls vs) : Shows (Life.chain L Ls).now (v ++ vs.flatten) := by
  induction hs generalizing L v with
  | nil => simpa [Life.chain] using h
  | cons h1 _ ih => exact h.append (ih _ _ h1)

theorem Flow.over {T : Type} (p : Flow E T) (hp : p.Ends) : p.story.life.Over := by
  induction p with
  | src s L h => exact hp.2
  | map p f ih => exact fun k => by simp [Flow.story, Story.map, Life.each, Round.map, ih hp k]
  | filter p q ih => exact fun k => by simp [Flow.story, Story.filter, Life.each, ih hp k, Round.filter]
  | inspect p g ih => exact fun k => by simp [Flow.story, Story.inspect, Life.each, Round.inspect, ih hp k]
  | zip z p q ih1 ih2 =>
    intro k
    refine scanFrom_over (fun _ => True) (fun s r _ hr => ⟨?_, trivial⟩) k _ trivial _ (ih1 hp.1)
    rw [hr]
    simp only [Life.zipRound]
    split <;> rfl
  | chain ps ih =>
    refine chain_over _ _ (ih 0 (hp 0)) fun M hM => ?_
    simp only [List.mem_map, List.mem_ofFn] at hM
    obtain ⟨_, ⟨i, rfl⟩, rfl⟩ := hM
    exact ih _ (hp _)
  | flatMap p f ih1 ih2 =>
    have h1 := ih1 hp.1
    simp only [Flow.story, Story.bind]
    split
    · exact fun _ => rfl
    · exact fun _ => rfl
    · next b x O ha =>
      have hO : O.Over := by
        generalize p.story.life = L at *
        obtain ⟨⟨_ | ⟨⟨g, y⟩, its⟩, _ | fin⟩, later⟩ := L <;> simp [Life.ask] at ha
        · obtain ⟨-, -, rfl⟩ := ha; exact h1
        · obtain ⟨-, -, rfl⟩ := ha; exact h1
      intro k
      have f1 := flat_over (fun t => (f t).story) (fun t => ih2 t (hp.2 t)) O.now.items O.now.fin (f x).story.life (ih2 x (hp.2 x))
      refine scanFrom_over (fun cur => cur.now.items = [] ∧ cur.Over) (fun cur r hc hr => ?_) k _ f1 _ hO
      have := flat_over (fun t => (f t).story) (fun t => ih2 t (hp.2 t)) r.items r.fin cur hc.2
      refine ⟨?_, this⟩
      rw [hr]
      simp only [Life.flatRound, Round.append]
      split
      · exact hc.1
      · rw [hc.1]; rfl
  | take p n ih =>
    intro k
    refine scanFrom_over (fun _ => True) (fun s r _ hr => ⟨?_, trivial⟩) k _ trivial _ (ih hp)
    rw [hr]; cases s <;> rfl
  | skip p n ih =>
    intro k
    refine scanFrom_over (fun _ => True) (fun s r _ hr => ⟨?_, trivial⟩) k _ trivial _ (ih hp)
    rw [hr]; cases s <;> rfl
  | skipWhile p q ih => exact fun k => by simp [Flow.story, Story.filter, Life.each, ih hp k, Round.filter]
  | enumerate p ih =>
    intro k
    refine scanFrom_over (fun _ => True) (fun s r _ hr => ⟨?_, trivial⟩) k _ trivial _ (ih hp)
    rw [hr]; rfl

theorem Flow.shows {T : Type} (p : Flow E T) (hp : p.Ends) (hs : p.story.start ≠ none) : Shows p.story.life.now p.vals := by
  induction p with
  | src s L h => exact ⟨List.prefix_rfl, fun _ => rfl⟩
  | map p f ih =>
    obtain ⟨h1, h2⟩ := ih hp hs
    have e : (Flow.map p f).story.life.now.vals = p.story.life.now.vals.map f := by
      simp [Flow.story, Story.map, Life.each, Round.map, Round.vals, Function.comp_def]
    exact ⟨by rw [e]; exact h1.map f, fun hf => by rw [e, h2 hf]; rfl⟩
  | filter p q ih => exact shows_filter _ _ _ _ (ih hp hs)
  | inspect p g ih =>
    obtain ⟨h1, h2⟩ := ih hp hs
    have e : (Flow.inspect p g).story.life.now.vals = p.story.life.now.vals := by
      simp [Flow.story, Story.inspect, Life.each, Round.inspect, Round.vals, Function.comp_def]
    exact ⟨by rw [e]; exact h1, fun hf => by rw [e, h2 hf]; rfl⟩
  | zip z p q ih1 ih2 =>
    have s1 : p.story.start ≠ none := fun h => hs (by simp [Flow.story, Story.zip, h])
    have s2 : q.story.start ≠ none := fun h => hs (by simp [Flow.story, Story.zip, h])
    exact shows_zip z _ _ _ (ih1 hp.1 s1) _ _ (ih2 hp.2 s2) (q.over hp.2)
  | @chain V n ps ih =>
    have hs' : ∀ i, (ps i).story.start ≠ none := fun i hi => hs (startAll_none.2 ⟨_, by
      rw [← List.ofFn_succ (f := fun i => (ps i).story)]
      exact List.mem_ofFn.2 ⟨i, rfl⟩, hi⟩)
    rw [Flow.vals, List.ofFn_succ, List.flatten_cons]
    refine shows_chain _ _ _ _ (ih 0 (hp 0) (hs' 0)) ?_
    rw [List.map_ofFn, List.forall₂_iff_get]
    refine ⟨by simp, fun i h1 h2 => ?_⟩
    simp only [List.get_eq_getElem, List.getElem_ofFn, Function.comp]
    exact ih _ (hp _) (hs' _)
  | flatMap p f ih1 ih2 =>
    have hk : ∀ t, (f t).story.start ≠ none → Shows (f t).story.life.now (f t).vals := fun t ht => ih2 t (hp.2 t) ht
    rw [Flow.vals]
    simp only [Flow.story, Story.bind] at hs ⊢
    split
    · next ha => simp [ha] at hs
    · next b O ha =>
      refine ⟨List.nil_prefix, fun _ => ?_⟩
      have s1 : p.story.start ≠ none := fun h => hs (by simp [ha, h])
      have h1 := ih1 hp.1 s1
      have : p.vals = [] := by
        generalize p.story.life = L at *
        obtain ⟨⟨_ | ⟨⟨g, y⟩, its⟩, _ | fin⟩, later⟩ := L <;> simp [Life.ask] at ha
        exact shows_nil h1 (by simp)
      rw [this]; rfl
    · next b x O ha =>
      have s1 : p.story.start ≠ none := fun h => hs (by simp [ha, h])
      have s2 : (f x).story.start ≠ none := fun h => hs (by simp [ha, h])
      have h1 := ih1 hp.1 s1
      obtain ⟨xs, hxs, hO⟩ : ∃ xs, p.vals = x :: xs ∧ Shows O.now xs := by
        generalize p.story.life = L at *
        obtain ⟨⟨_ | ⟨⟨g, y⟩, its⟩, _ | fin⟩, later⟩ := L <;> simp [Life.ask] at ha
        · obtain ⟨-, rfl, rfl⟩ := ha; exact shows_tail h1
        · obtain ⟨-, rfl, rfl⟩ := ha; exact shows_tail h1
      rw [hxs, List.flatMap_cons]
      exact shows_flat _ _ hk _ _ _ hO _ _ (hk x s2)
  | take p n ih => exact shows_take _ _ _ _ (ih hp hs)
  | skip p n ih => exact shows_drop _ _ _ _ (ih hp hs)
  | skipWhile p q ih => exact shows_filter _ _ _ _ (ih hp hs)
  | enumerate p ih =>
    have := shows_number 0 _ _ _ (ih hp hs)
    rw [Flow.vals, List.range_eq_range']
    exact this

theorem consume_fold (p : Story E T) (f : A → T → A) (a : A) (e : E) : p.consume (fun a x e => (f a x, e)) a e =
    p.start.bind fun s => p.life.now.fin.map fun g =>
      (p.life.now.vals.foldl f a, g (p.life.now.items.foldl (fun e it => it.1 e) (s e))) := by
  have : ∀ (its : List ((E → E) × T)) (a : A) (e : E),
      its.foldl (fun (z : A × E) it => (f z.1 it.2, it.1 z.2)) (a, e) =
        ((its.map Prod.snd).foldl f a, its.foldl (fun e it => it.1 e) e) := by
    intro its
    induction its with
    | nil => intro a e; rfl
    | cons it its ih => intro a e; simpa using ih _ _
  simp only [Story.consume, this]
  rfl

/-- C110: when FoldWith over a sequential pipeline panics, and it is the same for every accumulator function. -/
theorem flow_panics_iff (p : Flow E T) (f : A → T → A) (a : A) (e : E) :
    foldWith p.stm a f p.stm.init e = .panic .indexOutOfRange ↔ p.story.start = none ∨ p.story.life.now.fin = none := by
  obtain ⟨l', h⟩ := foldWith_flow p f
  rw [h, consume_fold]
  cases p.story.start with
  | none => simp [finish]
  | some s => cases p.story.life.now.fin <;> simp [finish]

/-- C110: over sources that deliver nothing after their end (slices, trees, skip lists), every sequential pipeline either delivers
exactly the elements given by the list functions or panics. -/
theorem flow_elements (p : Flow E T) (hp : p.Ends) (f : A → T → A) (a : A) (e : E) :
    (∃ l' e', foldWith p.stm a f p.stm.init e = .ok (p.vals.foldl f a, l', e')) ∨
      foldWith p.stm a f p.stm.init e = .panic .indexOutOfRange := by
  obtain ⟨l', h⟩ := foldWith_flow p f
  rw [h, consume_fold]
  cases hs : p.story.start with
  | none => exact .inr rfl
  | some s =>
    cases hf : p.story.life.now.fin with
    | none => exact .inr rfl
    | some g =>
      have := (p.shows hp (by simp [hs])).2 (by simp [hf])
      exact .inl ⟨l', _, by simp only [finish, this, Option.bind_some, Option.map_some]; rfl⟩

/-- C110: … and whatever it hands out before a panic is a beginning of those elements. -/
theorem flow_prefix (p : Flow E T) (hp : p.Ends) (hs : p.story.start ≠ none) : p.story.life.now.vals <+: p.vals := (p.shows hp hs).1

/-! ### A pipeline without segments -/

/-- C32, C40: `Chain()` without arguments has no segment: a terminal operation sees an empty stream, and TryFold, AllMatch and
AnyMatch over it answer false. -/
theorem chain_empty (ss : Fin 0 → Stm E T) (l : ∀ i, (ss i).L) (z : T) (a : T) (f : T → T → T) (h : T → T → T × Bool) (q : T → Bool) (e : E) :
    foldWith (chain ss) a f l e = .ok (a, l, e) ∧ first z (chain ss) l e = .ok ((z, false), l, e) ∧
    tryFold z (chain ss) a h l e = .ok ((z, false), l, e) ∧ allMatch z (chain ss) q l e = .ok (false, l, e) ∧
    anyMatch z (chain ss) q l e = .ok (false, l, e) ∧ reduce z (chain ss) f l e = .ok (z, l, e) := by
  have hs : (chain ss).seg ((chain ss).activate (chain ss).par) l e = .ok (none, [], l, e) := by simp [chain, chainSegs]
  have h1 : first z (chain ss) l e = .ok ((z, false), l, e) := by simp [first, hs]
  refine ⟨?_, h1, by simp [tryFold, hs], by simp [allMatch, h1], by simp [anyMatch, h1], by simp [reduce, h1]⟩
  unfold foldWith
  refine (foldSegs.eq_def ..).trans ?_
  rw [hs]
  rfl

/-! ### Concrete cases -/

/-- A slice holding `xs`. -/
def demoFlow (E : Type) (xs : List Int) : Flow E Int :=
  .src (demo E xs).stm (Life.once xs) (Source.behaving (by
    have := ofSlice_source (E := E) (demoMem xs) { arr := 0, off := 0, len := xs.length, cap := xs.length }
    rwa [show (demoMem xs).view _ = _ from demo_vals (E := E) xs] at this))

/-- The case C32 leaves open: the right side of a Zip is itself an uneven Zip that is asked again after its end. -/
def unevenTwice : Flow Unit (Int × Int × Int) :=
  .zip (0, 0, 0) (demoFlow Unit [1, 2, 3, 4]) (.zip (0, 0) (demoFlow Unit [5]) (demoFlow Unit [7, 8, 9]))

example : unevenTwice.Ends ∧ ∃ l', foldWith unevenTwice.stm [] (fun acc x => acc ++ [x]) unevenTwice.stm.init () =
    .ok ([(1, 5, 7), (0, 0, 0), (0, 0, 0), (0, 0, 0)], l', ()) := by
  refine ⟨⟨⟨by simp [Life.once], fun _ => rfl⟩, ⟨by simp [Life.once], fun _ => rfl⟩, by simp [Life.once], fun _ => rfl⟩, ?_⟩
  obtain ⟨l', h⟩ := foldWith_flow unevenTwice (fun acc x => acc ++ [x])
  exact ⟨l', by rw [h]; rfl⟩

/-- A Chain on the right side of a Zip, behind a Filter.  It reports its end once, so that a left side with one more element still
gets a zero pair; with two more elements the whole pipeline panics. -/
def breaking (xs : List Int) : Flow Unit (Int × Int) :=
  .zip (0, 0) (demoFlow Unit xs) (.filter (.chain fun _ : Fin 2 => demoFlow Unit [7]) fun x => x == 7)

example : (∀ xs, (breaking xs).Ends) ∧
    (∃ l', foldWith (breaking [1, 2]).stm [] (fun acc x => acc ++ [x]) (breaking [1, 2]).stm.init () = .ok ([(1, 7), (2, 7)], l', ())) ∧
    foldWith (breaking [1, 2, 3]).stm [] (fun acc x => acc ++ [x]) (breaking [1, 2, 3]).stm.init () = .panic .indexOutOfRange := by
  refine ⟨fun xs => ⟨⟨by simp [Life.once], fun _ => rfl⟩, fun _ => ⟨by simp [Life.once], fun _ => rfl⟩⟩, ?_,
    (flow_panics_iff _ _ _ _).2 (.inr rfl)⟩
  obtain ⟨l', h⟩ := foldWith_flow (breaking [1, 2]) (fun acc x => acc ++ [x])
  exact ⟨l', by rw [h]; rfl⟩

/-- A linked list on the right side starts over after its end; behind a Chain it does so once, and the next end panics. -/
example (s : Stm Unit Int) (h : Behaving s (Life.again [10, 20])) :
    foldWith (Flow.zip (0, 0) (demoFlow Unit [1, 2, 3, 4, 5]) (.chain fun _ : Fin 1 => .src s _ h)).stm [] (fun acc x => acc ++ [x])
      (Flow.zip (0, 0) (demoFlow Unit [1, 2, 3, 4, 5]) (.chain fun _ : Fin 1 => .src s _ h)).stm.init () = .panic .indexOutOfRange ∧
    (∃ l', foldWith (Flow.zip (0, 0) (demoFlow Unit [1, 2, 3, 4]) (.chain fun _ : Fin 1 => .src s _ h)).stm [] (fun acc x => acc ++ [x])
      (Flow.zip (0, 0) (demoFlow Unit [1, 2, 3, 4]) (.chain fun _ : Fin 1 => .src s _ h)).stm.init () =
        .ok ([(1, 10), (2, 20), (0, 0), (4, 10)], l', ())) := by
  refine ⟨(flow_panics_iff _ _ _ _).2 (.inr rfl), ?_⟩
  obtain ⟨l', h⟩ := foldWith_flow (Flow.zip (0, 0) (demoFlow Unit [1, 2, 3, 4]) (.chain fun _ : Fin 1 => .src s _ h)) (fun acc x => acc ++ [x])
  exact ⟨l', by rw [h]; rfl⟩

/-- Inspect inside a FlatMap: the effects, in order (the environment is the list of the elements seen). -/
example : ∃ l', collect (Flow.flatMap (.inspect (demoFlow (List Int) [1, 2]) fun x e => e ++ [x])
      fun x => .inspect (demoFlow (List Int) [10 * x]) fun y e => e ++ [y]).stm (fun x e => e ++ [-x])
      (Flow.flatMap (.inspect (demoFlow (List Int) [1, 2]) fun x e => e ++ [x])
        fun x => .inspect (demoFlow (List Int) [10 * x]) fun y e => e ++ [y]).stm.init [] = .ok (l', [1, 10, -10, 2, 20, -20]) := by
  obtain ⟨l', h⟩ := collect_flow (Flow.flatMap (.inspect (demoFlow (List Int) [1, 2]) fun x e => e ++ [x])
      fun x => .inspect (demoFlow (List Int) [10 * x]) fun y e => e ++ [y]) (fun x e => e ++ [-x])
  exact ⟨l', by rw [h]; rfl⟩

end Gds.Stream
