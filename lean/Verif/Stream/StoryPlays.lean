import Verif.Stream.StoryOps
import Verif.Stream.Containers

/-! Every pipeline plays its story. -/

namespace Gds.Stream

variable {E T R U : Type}

theorem Flow.par_zero {T : Type} (p : Flow E T) : p.stm.par = 0 := by
  induction p <;> simp only [Flow.stm] <;> first | rfl | assumption | (rename_i h; exact h.1)

/-! ### Sources -/

theorem delivers_lives {s : Stm E T} {l : s.L} {st xs} (h : Delivers s l True st xs) : Lives s st l (Life.once xs) := by
  refine Lives.coind s (fun st l' L => l' = l ∧ ∃ xs, Delivers s l True st xs ∧ L = Life.once xs) ?_ ⟨rfl, xs, h, rfl⟩
  rintro st l' _ ⟨rfl, xs, h, rfl⟩
  cases h with
  | done h hz => exact ⟨_, _, h, rfl, [], .done (hz trivial) hz, rfl⟩
  | next h r => exact ⟨_, _, h, rfl, _, r, rfl⟩

/-- A source that can be asked again (slices, trees, skip lists) lives `once`. -/
theorem Source.behaving {s : Stm E T} {xs : List T} (h : Source s xs True) : Behaving s (Life.once xs) := by
  refine ⟨h.1, fun l => ?_⟩
  obtain ⟨st, g1, h1, h2, h3⟩ := h.2 l
  exact ⟨g1, st, l, h1, delivers_lives h2, h3⟩

/-- An iterator with one segment that starts over after its end lives `again`. -/
theorem new_again {G S : Type} {start : Int → Res G} {seg : Int → Iter.Next G S} {pull : Iter.Next S T} {i i1 : G} {st st' : S}
    {vs : List T} (h0 : start 0 = .ok i) (h : seg 0 i = .ok (some st, i1)) (hi : seg 0 i1 = .ok (none, i1))
    (hs : Iter.Yields pull st vs st') (hend : pull st' = .ok (none, st)) :
    Behaving (new (E := E) start seg pull 0) (Life.again vs) := by
  refine ⟨rfl, fun l => ⟨(0, .ok i1), st, l, fun e => by simp [new, h0, h], ?_, fun l e => ⟨(0, .ok i1), by simp [new, hi]⟩⟩⟩
  refine Lives.coind (new (E := E) start seg pull 0) (fun (x : S) _ L => ∃ ws, Iter.Yields pull x ws st' ∧
    L = ⟨⟨ws.map (fun x => (id, x)), some id⟩, fun _ => ⟨vs.map (fun x => (id, x)), some id⟩⟩) ?_ ⟨vs, hs, rfl⟩
  rintro x l _ ⟨ws, hw, rfl⟩
  cases hw with
  | nil => exact ⟨st, l, fun e => by simp [new, hend], vs, hs, rfl⟩
  | cons h1 r => exact ⟨_, l, fun e => by simp [new, h1], _, r, rfl⟩

/-- A linked list lives `again`. -/
theorem ofList_again {z : T} {ops : List (LinkedList.Op T)} {s : LinkedList.St T} {a : LinkedList.Abs T}
    (h : LinkedList.After z ops s a) {l : Nat} (hl : a.isList l = true) (hin : a.inited l = true) :
    Behaving (ofList (E := E) s l 0) (Life.again ((a.seq l).map a.value)) := by
  obtain ⟨n, h1, h2⟩ := LinkedList.iter_values h hl hin
  have lift : ∀ x vs y, Iter.Yields (LinkedList.iter s l) x vs y → Iter.Yields (LinkedList.segNext s l) (.whole x) vs (.whole y) := by
    intro x vs y hy
    induction hy with
    | nil s => exact .nil _
    | cons hx _ ih => exact .cons (by simp only [LinkedList.segNext, hx, Res.bind_ok]; rfl) ih
  exact new_again (i1 := (1, LinkedList.front s l)) rfl (by simp [LinkedList.splitNext])
    (by simp [LinkedList.splitNext]) (lift _ _ _ h1) (by simp [LinkedList.segNext, h2])

/-! ### Operators -/

theorem Plays.ok {s : Stm E T} {p l t f} (h : Plays s p l t) (hf : t.start = some f) :
    ∃ g1 st l1, (∀ e, s.seg (s.activate p) l e = .ok (some st, g1, l1, f e)) ∧ Lives s st l1 t.life ∧
      ∀ l e, ∃ g2, s.seg g1 l e = .ok (none, g2, l, e) := by
  unfold Plays at h; rw [hf] at h; exact h

theorem Plays.panics {s : Stm E T} {p l t} (h : Plays s p l t) (hf : t.start = none) :
    ∀ e, s.seg (s.activate p) l e = .panic .indexOutOfRange := by
  unfold Plays at h; rw [hf] at h; exact h

theorem plays_of {s : Stm E T} {p l} {t : Story E T} (h0 : t.start = none → ∀ e, s.seg (s.activate p) l e = .panic .indexOutOfRange)
    (h1 : ∀ f, t.start = some f → ∃ g1 st l1, (∀ e, s.seg (s.activate p) l e = .ok (some st, g1, l1, f e)) ∧ Lives s st l1 t.life ∧
      ∀ l e, ∃ g2, s.seg g1 l e = .ok (none, g2, l, e)) : Plays s p l t := by
  unfold Plays
  split
  · next h => exact h0 h
  · next h => exact h1 _ h

theorem map_plays {s : Stm E T} (f : T → R) {p l t} (h : Plays s p l t) : Plays (map s f) p l (t.map f) := by
  refine plays_of (fun h0 => h.panics h0) fun f h0 => ?_
  obtain ⟨g1, st, l1, h1, h2, h3⟩ := h.ok h0
  exact ⟨g1, st, l1, h1, map_lives _ h2, h3⟩

theorem inspect_plays {s : Stm E T} (f : T → E → E) {p l t} (h : Plays s p l t) : Plays (inspect s f) p l (t.inspect f) := by
  refine plays_of (fun h0 => h.panics h0) fun f h0 => ?_
  obtain ⟨g1, st, l1, h1, h2, h3⟩ := h.ok h0
  exact ⟨g1, st, l1, h1, inspect_lives _ h2, h3⟩

theorem filter_plays {s : Stm E T} (q : T → Bool) {p l t} (h : Plays s p l t) : Plays (filter s q) p l (t.filter q) := by
  refine plays_of (fun h0 => h.panics h0) fun f h0 => ?_
  obtain ⟨g1, st, l1, h1, h2, h3⟩ := h.ok h0
  exact ⟨g1, st, l1, h1, filter_lives _ h2, h3⟩

theorem skipWhile_plays {s : Stm E T} (q : T → Bool) {p l t} (h : Plays s p l t) :
    Plays (skipWhile s q) p l (t.filter fun t => !q t) := by
  refine plays_of (fun h0 => h.panics h0) fun f h0 => ?_
  obtain ⟨g1, st, l1, h1, h2, h3⟩ := h.ok h0
  exact ⟨g1, st, l1, h1, skipWhile_lives _ h2, h3⟩

theorem take_plays {s : Stm E T} (n c : Int) {p l t} (h : Plays s p l t) : Plays (take s n) p (c, l) (t.take (n - c).toNat) := by
  refine plays_of (fun h0 e => ?_) fun f h0 => ?_
  · simp [take, h.panics h0]
  · obtain ⟨g1, st, l1, h1, h2, h3⟩ := h.ok h0
    refine ⟨g1, st, (c, l1), fun e => by simp [take, h1], take_lives n c h2, fun l e => ?_⟩
    obtain ⟨g2, e2⟩ := h3 l.2 e
    exact ⟨g2, by simp [take, e2] <;> rfl⟩

theorem skip_plays {s : Stm E T} (n c : Int) {p l t} (h : Plays s p l t) : Plays (skip s n) p (c, l) (t.drop (n - 1 - c).toNat) := by
  refine plays_of (fun h0 e => ?_) fun f h0 => ?_
  · simp [skip, h.panics h0]
  · obtain ⟨g1, st, l1, h1, h2, h3⟩ := h.ok h0
    refine ⟨g1, st, (c, l1), fun e => by simp [skip, h1], skip_lives n c h2, fun l e => ?_⟩
    obtain ⟨g2, e2⟩ := h3 l.2 e
    exact ⟨g2, by simp [skip, e2] <;> rfl⟩

theorem enumerate_plays {s : Stm E T} {p l t} (h : Plays s p l t) : Plays (enumerate s) p ((0 : Int), l) t.number := by
  refine plays_of (fun h0 e => ?_) fun f h0 => ?_
  · simp [enumerate, h.panics h0]
  · obtain ⟨g1, st, l1, h1, h2, h3⟩ := h.ok h0
    refine ⟨g1, st, ((0 : Int), l1), fun e => by simp [enumerate, h1], enumerate_lives 0 h2, fun l e => ?_⟩
    obtain ⟨g2, e2⟩ := h3 l.2 e
    exact ⟨g2, by simp [enumerate, e2] <;> rfl⟩

theorem zip_plays (z : T × R) {s : Stm E T} {s2 : Stm E R} {p l t l2 u} (h : Plays s p l t) (h2 : Plays s2 p l2 u) :
    Plays (zip z s s2) p (l, l2) (Story.zip z t u) := by
  cases ht : t.start with
  | none =>
    refine plays_of (fun _ e => by simp [zip, h.panics ht]) fun f h0 => ?_
    simp [Story.zip, ht] at h0
  | some f =>
    obtain ⟨g1, st, l1, k1, k2, k3⟩ := h.ok ht
    cases hu : u.start with
    | none =>
      refine plays_of (fun _ e => by simp [zip, k1, h2.panics hu]) fun f h0 => ?_
      simp [Story.zip, ht, hu] at h0
    | some g =>
      obtain ⟨g1', st', l1', k1', k2', k3'⟩ := h2.ok hu
      refine plays_of (fun h0 => ?_) fun f' h0 => ?_
      · simp [Story.zip, ht, hu] at h0
      · simp [Story.zip, ht, hu] at h0
        subst h0
        refine ⟨(g1, g1'), (st, st'), (l1, l1'), fun e => by simp [zip, k1, k1'], zip_lives z k2 k2', fun l e => ?_⟩
        obtain ⟨g2, e2⟩ := k3 l.1 e
        obtain ⟨g2', e2'⟩ := k3' l.2 e
        exact ⟨(g2, g2'), by simp [zip, e2, e2'] <;> rfl⟩

theorem flatMap_plays {s : Stm E T} (f : T → Stm E U) (k : T → Story E U) (hk : ∀ t, Plays (f t) 0 (f t).init (k t)) {p l t}
    (h : Plays s p l t) : Plays (flatMap s f) p l (t.bind k) := by
  cases ht : t.start with
  | none =>
    refine plays_of (fun _ e => by simp [flatMap, h.panics ht]) fun f h0 => ?_
    unfold Story.bind at h0
    split at h0 <;> simp [ht] at h0
  | some a =>
    obtain ⟨g1, st, l1, k1, k2, k3⟩ := h.ok ht
    have k3' : ∀ l e, ∃ g2, (flatMap s f).seg g1 l e = .ok (none, g2, l, e) := fun l e => by
      obtain ⟨g2, e2⟩ := k3 l e
      exact ⟨g2, by simp [flatMap, e2]⟩
    have hs := k2.step
    unfold LivesStep at hs
    unfold Story.bind
    split
    · next ha =>
      rw [ha] at hs
      refine plays_of (fun _ e => by simp [flatMap, k1, hs]) fun f h0 => by simp at h0
    · next b O ha =>
      rw [ha] at hs
      obtain ⟨st', l', h1, h2⟩ := hs
      refine plays_of (fun h0 => by simp [ht] at h0) fun f' h0 => ?_
      simp [ht] at h0
      subst h0
      refine ⟨g1, (st', none), l', fun e => by simp [flatMap, k1, h1], ?_, k3'⟩
      refine Lives.coind (flatMap s f) (fun (st : s.S × Inner f) _ M => st.2 = none ∧ M = Life.nothing) ?_ ⟨rfl, rfl⟩
      rintro ⟨so, inner⟩ (l : s.L) M ⟨h, rfl⟩
      simp only at h
      subst h
      exact ⟨(so, none), l, fun e => by simp [flatMap]; rw [flatMapPull], rfl, rfl⟩
    · next b x O ha =>
      rw [ha] at hs
      obtain ⟨st', l', h1, h2⟩ := hs
      cases hx : (k x).start with
      | none =>
        refine plays_of (fun _ e => by simp [flatMap, k1, h1, flatOpen, (hk x).panics hx]) fun f h0 => by simp [ht, hx] at h0
      | some s' =>
        obtain ⟨gx, stx, lx, x1, x2, -⟩ := (hk x).ok hx
        refine plays_of (fun h0 => by simp [ht, hx] at h0) fun f' h0 => ?_
        simp [ht, hx] at h0
        subst h0
        exact ⟨g1, _, l', fun e => by simp [flatMap, k1, h1, flatOpen, x1], flatMap_lives f k hk h2 x2, k3'⟩

/-! ### Chain -/

theorem chainSegs_panics {n : Nat} {ss : Fin n → Stm E T} {t : Fin n → Story E T} {l : ∀ i, (ss i).L}
    (h : ∀ i, Plays (ss i) (ss i).par (l i) (t i)) (is : List (Fin n)) (hn : is.Nodup) (hb : ∃ i ∈ is, (t i).start = none)
    (lc : ∀ i, (ss i).L) (hc : ∀ i ∈ is, lc i = l i) (e : E) :
    chainSegs ss (is.map (fun i => ⟨i, (ss i).activate (ss i).par⟩)) lc e = .panic .indexOutOfRange := by
  induction is generalizing lc e with
  | nil => simp at hb
  | cons i is ih =>
    rw [List.nodup_cons] at hn
    simp only [List.map_cons, chainSegs, hc i (by simp)]
    cases hi : (t i).start with
    | none => simp [(h i).panics hi]
    | some f =>
      obtain ⟨g1, st, l1, k1, -, -⟩ := (h i).ok hi
      simp only [k1, Res.bind_ok]
      obtain ⟨j, hj, hj'⟩ := hb
      have hji : j ∈ is := by
        rcases List.mem_cons.1 hj with rfl | h
        · rw [hi] at hj'; simp at hj'
        · exact h
      rw [ih hn.2 ⟨j, hji, hj'⟩ (Function.update lc i l1) (fun m hm => by
        have hmi : m ≠ i := fun hmi => hn.1 (hmi ▸ hm)
        rw [Function.update_of_ne hmi]; exact hc m (by simp [hm]))]
      rfl

theorem startAll_none {ts : List (Story E T)} : Story.startAll ts = none ↔ ∃ t ∈ ts, t.start = none := by
  induction ts with
  | nil => simp [Story.startAll]
  | cons t ts ih =>
    cases h : t.start with
    | none => simp [Story.startAll, h]
    | some f => simp [Story.startAll, h, ih]

theorem startAll_some (is : List α) (t : α → Story E T) (f : α → E → E) (h : ∀ i, (t i).start = some (f i)) :
    Story.startAll (is.map t) = some (startAll (is.map fun i => ⟨f i, ⟨([] : List ((E → E) × T)), id⟩⟩)) := by
  induction is with
  | nil => rfl
  | cons i is ih => simp [Story.startAll, h, ih, startAll]

theorem chain_plays {n : Nat} {ss : Fin (n + 1) → Stm E T} {p : Int} (t : Fin (n + 1) → Story E T) (l : ∀ i, (ss i).L)
    (h : ∀ i, Plays (ss i) (ss i).par (l i) (t i)) :
    Plays (chain ss) p l (Story.chain (t 0) (List.ofFn fun i => t i.succ)) := by
  have e0 : t 0 :: List.ofFn (fun i => t i.succ) = (List.finRange (n + 1)).map t := by
    rw [← List.ofFn_eq_map, List.ofFn_succ]
  have hnd := List.nodup_finRange (n + 1)
  by_cases hb : ∃ i, (t i).start = none
  · obtain ⟨i, hi⟩ := hb
    refine plays_of (fun _ e => ?_) fun f h0 => ?_
    · simp only [chain, chainSegs_panics h _ hnd ⟨i, List.mem_finRange i, hi⟩ l (fun _ _ => rfl) e]
      rfl
    · have : Story.startAll (t 0 :: List.ofFn (fun i => t i.succ)) = none := by
        rw [e0]; exact startAll_none.2 ⟨t i, List.mem_map_of_mem (List.mem_finRange i), hi⟩
      simp [Story.chain, this] at h0
  · have hb' : ∀ i, ∃ f, (t i).start = some f := fun i => by
      cases hi : (t i).start with
      | none => exact absurd ⟨i, hi⟩ hb
      | some f => exact ⟨f, rfl⟩
    choose f hf using hb'
    have h' := fun i => (h i).ok (hf i)
    choose g1 st l1 k1 k2 k3 using h'
    have hseg := chainSegs_run (fun i => ⟨f i, ⟨([] : List ((E → E) × T)), id⟩⟩) l l1 g1 st k1 (List.finRange (n + 1)) hnd l (fun _ _ => rfl)
    have hst : (Story.chain (t 0) (List.ofFn fun i => t i.succ)).start =
        some (startAll ((List.finRange (n + 1)).map fun i => ⟨f i, ⟨([] : List ((E → E) × T)), id⟩⟩)) := by
      show Story.startAll _ = _
      rw [e0]; exact startAll_some _ t f hf
    refine plays_of (fun h0 => by rw [hst] at h0; simp at h0) fun f' h0 => ?_
    rw [hst] at h0
    simp only [Option.some.injEq] at h0
    subst h0
    refine ⟨(List.finRange (n + 1)).map (fun i => ⟨i, g1 i⟩), ⟨(List.finRange (n+1)).map (fun i => ⟨i, st i⟩), 0, 0⟩, l1, fun e => ?_, ?_,
      fun l e => ?_⟩
    · simp only [chain, hseg, Res.bind_ok]
      simp
    · have hfr : List.finRange (n + 1) = 0 :: (List.finRange n).map Fin.succ := List.finRange_succ
      have key := chain_lives (ss := ss) (i := 0) (st := st 0) (rest := ((List.finRange n).map Fin.succ).map (fun i => ⟨i, st i⟩))
        (L := (t 0).life) (Lf := fun i => (t i).life) (l := l1) (k2 0)
        (by rw [hfr] at hnd; simpa [List.map_map, Function.comp_def] using hnd)
        (fun x hx => by
          simp only [List.mem_map] at hx
          obtain ⟨i, -, rfl⟩ := hx
          exact k2 i)
      rw [hfr, List.map_cons]
      have e3 : (List.ofFn fun i => t i.succ).map Story.life =
          (((List.finRange n).map Fin.succ).map (fun i => (⟨i, st i⟩ : Σ i, (ss i).S))).map fun x => (t x.1).life := by
        rw [List.ofFn_eq_map]; simp [List.map_map, Function.comp_def]
      show Lives (chain ss) _ _ (Life.chain (t 0).life _)
      rw [e3]
      exact key
    · obtain ⟨gs, hg⟩ := chainSegs_none g1 k3 (List.finRange (n + 1)) l e
      exact ⟨gs, by simp only [chain, hg, Res.bind_ok]; simp⟩

/-! ### Pipelines -/

/-- The first activation of a pipeline plays its story. -/
theorem Flow.plays {T : Type} (p : Flow E T) : Plays p.stm 0 p.stm.init p.story := by
  induction p with
  | src s L h => exact h.2 _
  | map p f ih => exact map_plays f ih
  | filter p q ih => exact filter_plays q ih
  | inspect p g ih => exact inspect_plays g ih
  | zip z p q ih1 ih2 => exact zip_plays z ih1 ih2
  | chain ps ih => exact chain_plays (fun i => (ps i).story) _ (fun i => by rw [Flow.par_zero]; exact ih i)
  | flatMap p f ih1 ih2 => exact flatMap_plays _ (fun t => (f t).story) ih2 ih1
  | take p n ih => have := take_plays n 0 ih; rwa [show n - 0 = n by omega] at this
  | skip p n ih => have := skip_plays n 0 ih; rwa [show n - 1 - 0 = n - 1 by omega] at this
  | skipWhile p q ih => exact skipWhile_plays q ih
  | enumerate p ih => exact enumerate_plays ih

/-- Without counters every activation plays the same story. -/
theorem Flow.replays {T : Type} (p : Flow E T) (hp : p.NoCounter) : ∀ l, Plays p.stm 0 l p.story := by
  induction p with
  | src s L h => exact h.2
  | map p f ih => exact fun l => map_plays f (ih hp l)
  | filter p q ih => exact fun l => filter_plays q (ih hp l)
  | inspect p g ih => exact fun l => inspect_plays g (ih hp l)
  | zip z p q ih1 ih2 => exact fun l => zip_plays z (ih1 hp.1 l.1) (ih2 hp.2 l.2)
  | chain ps ih => exact fun l => chain_plays (fun i => (ps i).story) l (fun i => by rw [Flow.par_zero]; exact ih i (hp i) (l i))
  | flatMap p f ih1 ih2 => exact fun l => flatMap_plays _ (fun t => (f t).story) (fun t => (f t).plays) (ih1 hp l)
  | take p n ih => exact hp.elim
  | skip p n ih => exact hp.elim
  | skipWhile p q ih => exact fun l => skipWhile_plays q (ih hp l)
  | enumerate p ih => exact hp.elim

end Gds.Stream
