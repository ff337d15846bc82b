import Verif.Iter.PullProps

/-! Property C121: `CastToPull` when any number of goroutines call `next` and `stop`, and the life of the goroutine it starts. -/
namespace Gds.Iter

/-- Channel/goroutine state of one `CastToPull(push)` (iterator/iterator.go:37-56) shared by several callers. A caller is a number. -/
structure ManySt {T : Type _} (f : PushFn T) where
  /-- the goroutine: inside `push` at its next `yield`, or returned (lines 42-49) -/
  prod : f.P
  /-- `close(ch)` done, i.e. the goroutine has ended (line 50) -/
  closed : Bool
  /-- `stop()` has been called -/
  cancelled : Bool
  /-- the callers blocked in `<-ch` (line 53) -/
  waiting : List Nat
  /-- the results `next` has returned and to whom, in the order of the receives -/
  got : List (Nat × Option T)

/-- iterator/iterator.go:39-41. -/
def ManySt.init {T : Type _} (f : PushFn T) : ManySt f :=
  { prod := f.start, closed := false, cancelled := false, waiting := [], got := [] }

/-- Labels of the steps; `pull` and `stop` are the users' decisions, the others the program's. -/
inductive ManyLbl where
  | pull (c : Nat) | stop | send (c : Nat) | cancelSeen | close | recvClosed (c : Nat)
  deriving DecidableEq

/-- The steps that are the program's own: iterator/iterator.go:43-53 without the calls. -/
def ManyLbl.internal : ManyLbl → Bool
  | .pull _ | .stop => false
  | _ => true

/-- One atomic step of the program; which of the blocked callers receives is left open. -/
inductive ManyStep {T : Type _} (f : PushFn T) : ManyLbl → ManySt f → ManySt f → Prop where
  /-- caller `c` calls `next()` (line 52) -/
  | pull (s c) : c ∉ s.waiting → ManyStep f (.pull c) s { s with waiting := c :: s.waiting }
  /-- some goroutine calls `stop()`, i.e. cf (line 55); a second call has no effect -/
  | stop (s) : ManyStep f .stop s { s with cancelled := true }
  /-- line 46: `case ch <- v: return true` meets line 53 of caller `c` (unbuffered channel) -/
  | send (s c v k) : s.closed = false → c ∈ s.waiting → f.step s.prod = some (v, k) →
      ManyStep f (.send c) s { s with prod := k true, waiting := s.waiting.erase c, got := s.got ++ [(c, some v)] }
  /-- line 44: `case <-ctx.Done(): return false` -/
  | cancelSeen (s v k) : s.closed = false → s.cancelled = true → f.step s.prod = some (v, k) →
      ManyStep f .cancelSeen s { s with prod := k false }
  /-- line 50: push has returned, `close(ch)` -/
  | close (s) : s.closed = false → f.step s.prod = none → ManyStep f .close s { s with closed := true }
  /-- line 53 on a closed channel, caller `c` -/
  | recvClosed (s c) : s.closed = true → c ∈ s.waiting →
      ManyStep f (.recvClosed c) s { s with waiting := s.waiting.erase c, got := s.got ++ [(c, none)] }

/-- Runs from a state: `ManyRun f s ls t` does the steps `ls` in order. -/
inductive ManyRun {T : Type _} (f : PushFn T) : ManySt f → List ManyLbl → ManySt f → Prop where
  | nil (s) : ManyRun f s [] s
  | snoc {s ls t l u} : ManyRun f s ls t → ManyStep f l t u → ManyRun f s (ls ++ [l]) u

/-- Spec: the values received, in the order of the receives, whoever received them. -/
def values {T : Type _} (got : List (Nat × Option T)) : List T := got.filterMap Prod.snd

/-- Spec: the results one caller has had, in order. -/
def resultsOf {T : Type _} (c : Nat) (got : List (Nat × Option T)) : List (Option T) :=
  (got.filter (fun p => p.1 == c)).map Prod.snd

variable {T : Type _} {f : PushFn T}

theorem many_cancelled {s ls t} (h : ManyRun f s ls t) (hc : s.cancelled = false) (hl : ManyLbl.stop ∉ ls) :
    t.cancelled = false := by
  induction h with
  | nil => exact hc
  | snoc _ hs ih =>
    have hl' := fun hm => hl (List.mem_append_left _ hm)
    have := ih hl'
    cases hs <;> simp_all

/-- C121: without `stop`, whatever the schedule and however many goroutines pull, the values received, taken in the order of the
receives, are the first values `push` offers: none lost, none given twice, none invented. -/
theorem many_in_order {ls t} (h : ManyRun f (ManySt.init f) ls t) (hl : ManyLbl.stop ∉ ls) :
    ∃ n, values t.got = f.offered n f.start ∧ t.prod = f.after n f.start ∧ (values t.got).length = n := by
  generalize hs0 : ManySt.init f = s0 at h
  induction h with
  | nil => subst hs0; exact ⟨0, rfl, rfl, rfl⟩
  | snoc hr hs ih =>
    have hl' := fun hm => hl (List.mem_append_left _ hm)
    obtain ⟨n, h1, h2, h3⟩ := ih hl'
    have hcan := many_cancelled hr (by subst hs0; rfl) hl'
    cases hs with
    | pull => exact ⟨n, h1, h2, h3⟩
    | stop => simp at hl
    | send _ c v k hc hw he =>
      rw [h2] at he
      obtain ⟨h4, h5⟩ := offered_snoc f n f.start v k he
      refine ⟨n + 1, ?_, h5.symm, ?_⟩
      · simp [values] at h1 ⊢; rw [h4, h1]
      · simp [values] at h3 ⊢; exact h3
    | cancelSeen _ v k hc hcan' he => rw [hcan] at hcan'; cases hcan'
    | close => exact ⟨n, h1, h2, h3⟩
    | recvClosed => exact ⟨n, by simpa [values] using h1, h2, by simpa [values] using h3⟩

/-- C121: first only values, then only ends, over all callers together; an end is given only after `push` has returned and the
goroutine has ended. -/
theorem many_then_end {ls t} (h : ManyRun f (ManySt.init f) ls t) :
    ∃ m, t.got.map Prod.snd = (values t.got).map some ++ List.replicate m none ∧
      (m ≠ 0 → t.closed = true) ∧ (t.closed = true → f.step t.prod = none) := by
  generalize hs0 : ManySt.init f = s0 at h
  induction h with
  | nil => subst hs0; exact ⟨0, rfl, by simp, by simp [ManySt.init]⟩
  | snoc hr hs ih =>
    obtain ⟨m, h1, h2, h3⟩ := ih
    cases hs with
    | pull => exact ⟨m, h1, h2, h3⟩
    | stop => exact ⟨m, h1, h2, h3⟩
    | send _ c v k hc hw he =>
      have hm : m = 0 := by
        by_cases hm : m = 0
        · exact hm
        · exact absurd (h2 hm) (by simp [hc])
      subst hm
      refine ⟨0, ?_, by simp, by simp [hc]⟩
      simp only [values] at h1 ⊢
      simp [h1]
    | cancelSeen _ v k hc hcan he => exact ⟨m, h1, h2, by simp [hc]⟩
    | close _ hc he => exact ⟨m, h1, fun _ => rfl, fun _ => he⟩
    | recvClosed _ c hc hw =>
      refine ⟨m + 1, ?_, fun _ => hc, h3⟩
      simp only [values] at h1 ⊢
      simp [h1, List.replicate_succ']

/-- C121: what one caller receives is a subsequence of the offered values, in their order, and once a call of a caller has reported
the end all its later calls do. -/
theorem many_each {ls t} (h : ManyRun f (ManySt.init f) ls t) (hl : ManyLbl.stop ∉ ls) (c : Nat) :
    ∃ (vs : List T) (m n : Nat), resultsOf c t.got = vs.map some ++ List.replicate m none ∧
      vs.Sublist (f.offered n f.start) := by
  obtain ⟨n, h1, -, -⟩ := many_in_order h hl
  obtain ⟨m, h2, -, -⟩ := many_then_end h
  have key : ∀ (got : List (Nat × Option T)) (vs : List T) (m : Nat), got.map Prod.snd = vs.map some ++ List.replicate m none →
      ∃ (ws : List T) (j : Nat), resultsOf c got = ws.map some ++ List.replicate j none ∧ ws.Sublist vs := by
    intro got
    induction got with
    | nil => intro vs m hg; exact ⟨[], 0, rfl, List.nil_sublist _⟩
    | cons g got ih =>
      intro vs m hg
      cases vs with
      | nil =>
        cases m with
        | zero => simp at hg
        | succ m =>
          simp only [List.map_nil, List.nil_append, List.replicate_succ, List.map_cons, List.cons.injEq] at hg
          obtain ⟨ws, j, hr, hsub⟩ := ih [] m (by simpa using hg.2)
          have hws : ws = [] := List.sublist_nil.1 hsub
          subst hws
          by_cases hgc : g.1 == c
          · refine ⟨[], j + 1, ?_, List.nil_sublist _⟩
            simp only [resultsOf, List.filter_cons, hgc, if_true, List.map_cons, hg.1] at hr ⊢
            rw [hr]; simp [List.replicate_succ]
          · refine ⟨[], j, ?_, List.nil_sublist _⟩
            simp only [resultsOf, List.filter_cons, hgc] at hr ⊢
            simpa using hr
      | cons v vs =>
        simp only [List.map_cons, List.cons_append, List.cons.injEq] at hg
        obtain ⟨ws, j, hr, hsub⟩ := ih vs m hg.2
        by_cases hgc : g.1 == c
        · refine ⟨v :: ws, j, ?_, hsub.cons_cons v⟩
          simp only [resultsOf, List.filter_cons, hgc, if_true, List.map_cons, hg.1] at hr ⊢
          rw [hr]; simp
        · refine ⟨ws, j, ?_, hsub.cons v⟩
          simp only [resultsOf, List.filter_cons, hgc] at hr ⊢
          simpa using hr
  obtain ⟨ws, j, hr, hsub⟩ := key t.got _ m h2
  exact ⟨ws, j, n, hr, h1 ▸ hsub⟩

/-- C121 (the goroutine's life, exactly): in a reachable or unreachable state alike the program can do no step of its own iff nobody is
blocked in `next` and either the goroutine has ended or it stands at a `yield` with `stop` not called. -/
theorem many_quiet_iff (s : ManySt f) :
    (∀ l s', l.internal = true → ¬ ManyStep f l s s') ↔
      s.waiting = [] ∧ (s.closed = true ∨ (s.cancelled = false ∧ (f.step s.prod).isSome)) := by
  constructor
  · intro h
    have hw : s.waiting = [] := by
      cases hws : s.waiting with
      | nil => rfl
      | cons c w =>
        exfalso
        have hm : c ∈ s.waiting := by rw [hws]; simp
        cases hc : s.closed with
        | true => exact h _ _ rfl (.recvClosed s c hc hm)
        | false =>
          cases he : f.step s.prod with
          | none => exact h _ _ rfl (.close s hc he)
          | some q => exact h _ _ rfl (.send s c q.1 q.2 hc hm he)
    refine ⟨hw, ?_⟩
    cases hc : s.closed with
    | true => exact Or.inl rfl
    | false =>
      right
      cases he : f.step s.prod with
      | none => exact absurd (.close s hc he) (h _ _ rfl)
      | some q =>
        cases hcan : s.cancelled with
        | false => simp
        | true => exact absurd (.cancelSeen s q.1 q.2 hc hcan he) (h _ _ rfl)
  · rintro ⟨hw, h⟩ l s' hl hs
    cases hs with
    | pull => cases hl
    | stop => cases hl
    | send _ c v k hc hm he => rw [hw] at hm; cases hm
    | cancelSeen _ v k hc hcan he =>
      rcases h with h | ⟨h, -⟩
      · rw [hc] at h; cases h
      · rw [hcan] at h; cases h
    | close _ hc he =>
      rcases h with h | ⟨-, h⟩
      · rw [hc] at h; cases h
      · rw [he] at h; cases h
    | recvClosed _ c hc hm => rw [hw] at hm; cases hm

/-- C121 (the leak): once the goroutine stands at a `yield` with nobody pulling, it stays alive through every run in which nobody calls
`next` or `stop` again: the run is empty. -/
theorem many_leak (s : ManySt f) (hw : s.waiting = []) (hcan : s.cancelled = false) (he : (f.step s.prod).isSome)
    {ls t} (h : ManyRun f s ls t) (hl : ∀ l ∈ ls, l.internal = true) : ls = [] ∧ t = s := by
  induction h with
  | nil => exact ⟨rfl, rfl⟩
  | snoc hr hs ih =>
    obtain ⟨-, rfl⟩ := ih (fun l hm => hl l (List.mem_append_left _ hm))
    exact absurd hs ((many_quiet_iff _).2 ⟨hw, Or.inr ⟨hcan, he⟩⟩ _ _ (hl _ (by simp)))

/-- Spec: a push function that returns when its yield answers false, e.g. `CastToPush(it)` (iterator/iterator.go:26-35). -/
def PushFn.Honours (f : PushFn T) : Prop := ∀ p v k, f.step p = some (v, k) → f.step (k false) = none

/-- Work left once `stop` has been called. -/
def stopWork (s : ManySt f) : Nat :=
  2 * s.waiting.length + (if s.closed then 0 else if (f.step s.prod).isSome then 2 else 1)

theorem stopWork_step (hf : f.Honours) {l : ManyLbl} {s s' : ManySt f} (hl : l.internal = true) (h : ManyStep f l s s') :
    stopWork s' < stopWork s := by
  cases h with
  | pull => cases hl
  | stop => cases hl
  | send _ c v k hc hm he =>
    have h1 := List.length_erase_of_mem hm
    have h2 := List.length_pos_of_mem hm
    simp only [stopWork, hc, he, h1]
    simp; split <;> omega
  | cancelSeen _ v k hc hcan he => simp [stopWork, hc, he, hf _ _ _ he]
  | close _ hc he => simp [stopWork, hc, he]
  | recvClosed _ c hc hm =>
    have h1 := List.length_erase_of_mem hm
    have h2 := List.length_pos_of_mem hm
    simp only [stopWork, hc, h1]
    simp; omega

/-- C121 (stop ends the goroutine): if `push` honours the answer false — it need not be finite — then on every schedule after `stop`
at most two steps per blocked call and two more are done by the program, and when it can do no more the goroutine has ended and no call is blocked. -/
theorem many_stop_ends (hf : f.Honours) (s : ManySt f) (hcan : s.cancelled = true) {ls t} (h : ManyRun f s ls t)
    (hl : ∀ l ∈ ls, l.internal = true) :
    ls.length ≤ 2 * s.waiting.length + 2 ∧
    ((∀ l t', l.internal = true → ¬ ManyStep f l t t') → t.closed = true ∧ t.waiting = []) := by
  have key : t.cancelled = true ∧ ls.length + stopWork t ≤ stopWork s := by
    induction h with
    | nil => exact ⟨hcan, by simp⟩
    | snoc hr hs ih =>
      obtain ⟨h1, h2⟩ := ih (fun l hm => hl l (List.mem_append_left _ hm))
      have h3 := stopWork_step hf (hl _ (by simp)) hs
      refine ⟨?_, by simp only [List.length_append, List.length_singleton]; omega⟩
      cases hs <;> first | exact h1 | rfl
  have hb : stopWork s ≤ 2 * s.waiting.length + 2 := by
    unfold stopWork; split
    · omega
    · split <;> omega
  refine ⟨by omega, fun hq => ?_⟩
  obtain ⟨hw, hq⟩ := (many_quiet_iff t).1 hq
  rcases hq with hq | ⟨hq, -⟩
  · exact ⟨hq, hw⟩
  · rw [key.1] at hq; cases hq

/-- The full claim one would expect of `stop` (and which Go's own `iter.Pull` keeps): a call of `next` begun after `stop` reports the end. -/
def StopEnds {T : Type} (f : PushFn T) : Prop :=
  ∀ (ls ms : List ManyLbl) (s t : ManySt f), ManyRun f (ManySt.init f) ls s → s.cancelled = true → s.waiting = [] →
    ManyRun f s ms t → values t.got = values s.got

theorem run_trans {s ls t ms u} (h : ManyRun f s ls t) (h' : ManyRun f t ms u) : ManyRun f s (ls ++ ms) u := by
  induction h' with
  | nil => simpa using h
  | snoc _ hs ih => rw [← List.append_assoc]; exact .snoc ih hs

/-- C121: any number of values can be received after `stop`: while the callers keep up, `select` may always choose the send. -/
theorem many_after_stop {T : Type} (xs : List T) : ∃ ls t, ManyRun (PushFn.ofList xs) (ManySt.init _) (.stop :: ls) t ∧
    ManyLbl.stop ∉ ls ∧ t.cancelled = true ∧ t.waiting = [] ∧ values t.got = xs := by
  have key : ∀ (ys : List T) (s : ManySt (PushFn.ofList xs)), s.prod = ys → s.closed = false → s.cancelled = true → s.waiting = [] →
      ∃ ls t, ManyRun (PushFn.ofList xs) s ls t ∧ ManyLbl.stop ∉ ls ∧ t.cancelled = true ∧ t.waiting = [] ∧ values t.got = values s.got ++ ys := by
    intro ys
    induction ys with
    | nil => intro s _ _ hcan hw; exact ⟨[], s, .nil s, by simp, hcan, hw, by simp⟩
    | cons y ys ih =>
      intro s hp hc hcan hw
      have h1 : ManyStep (PushFn.ofList xs) (.pull 0) s { s with waiting := 0 :: s.waiting } := .pull s 0 (by rw [hw]; simp)
      have h2 := ManyStep.send (f := PushFn.ofList xs) { s with waiting := 0 :: s.waiting } 0 y (fun b => if b then ys else []) hc (by simp)
        (by show (PushFn.ofList xs).step s.prod = _; rw [hp]; simp [PushFn.ofList])
      obtain ⟨ls, t, hr, hl, ht1, ht2, ht3⟩ := ih (s := { s with prod := (if true then ys else []), waiting := (0 :: s.waiting).erase 0, got := s.got ++ [(0, some y)] })
        rfl hc hcan (by simp [hw])
      refine ⟨[.pull 0, .send 0] ++ ls, t, ?_, by simp [hl], ht1, ht2, ?_⟩
      · exact run_trans (.snoc (.snoc (.nil s) h1) h2) hr
      · rw [ht3]; simp [values]
  obtain ⟨ls, t, hr, hl, h1, h2, h3⟩ := key xs { ManySt.init (PushFn.ofList xs) with cancelled := true } rfl rfl rfl rfl
  refine ⟨ls, t, ?_, hl, h1, h2, by simpa [ManySt.init, values] using h3⟩
  have := run_trans (.snoc (.nil _) (.stop (ManySt.init (PushFn.ofList xs)))) hr
  simpa using this

/-- The full claim fails, for every nonempty sequence. -/
theorem stopEnds_refuted {T : Type} (x : T) (xs : List T) : ¬ StopEnds (PushFn.ofList (x :: xs)) := by
  intro h
  have h1 : ManyStep (PushFn.ofList (x :: xs)) .stop (ManySt.init _) { ManySt.init (PushFn.ofList (x :: xs)) with cancelled := true } := .stop _
  have h2 : ManyStep (PushFn.ofList (x :: xs)) (.pull 0) { ManySt.init (PushFn.ofList (x :: xs)) with cancelled := true }
    { ManySt.init (PushFn.ofList (x :: xs)) with cancelled := true, waiting := [0] } := .pull _ 0 (by simp [ManySt.init])
  have h3 := ManyStep.send (f := PushFn.ofList (x :: xs)) { ManySt.init (PushFn.ofList (x :: xs)) with cancelled := true, waiting := [0] } 0 x
    (fun b => if b then xs else []) rfl (by simp) (by simp [PushFn.ofList, ManySt.init])
  have := h [.stop] _ _ _ (.snoc (.nil _) h1) rfl rfl (.snoc (.snoc (.nil _) h2) h3)
  simp [values, ManySt.init] at this

/-- What holds of the full claim: calls begun after the goroutine has ended report the end, all of them, and the goroutine stays ended. -/
theorem stopEnds_partial {s ls t} (hs : s.closed = true) (h : ManyRun f s ls t) :
    t.closed = true ∧ values t.got = values s.got ∧
    (∀ l s', l.internal = true → ManyStep f l t s' → ∃ c, l = .recvClosed c ∧ c ∈ t.waiting) ∧
    ∀ c ∈ t.waiting, ∃ t', ManyStep f (.recvClosed c) t t' ∧ t'.got = t.got ++ [(c, none)] := by
  have key : t.closed = true ∧ values t.got = values s.got := by
    induction h with
    | nil => exact ⟨hs, rfl⟩
    | snoc hr hst ih =>
      obtain ⟨h1, h2⟩ := ih
      cases hst with
      | pull => exact ⟨h1, h2⟩
      | stop => exact ⟨h1, h2⟩
      | send _ c v k hc => rw [h1] at hc; cases hc
      | cancelSeen _ v k hc => rw [h1] at hc; cases hc
      | close _ hc => rw [h1] at hc; cases hc
      | recvClosed _ c hc hm => exact ⟨h1, by rw [← h2]; simp [values]⟩
  refine ⟨key.1, key.2, ?_, fun c hc => ⟨_, .recvClosed t c key.1 hc, rfl⟩⟩
  intro l s' hl hst
  cases hst with
  | pull => cases hl
  | stop => cases hl
  | send _ c v k hc => rw [key.1] at hc; cases hc
  | cancelSeen _ v k hc => rw [key.1] at hc; cases hc
  | close _ hc => rw [key.1] at hc; cases hc
  | recvClosed _ c hc hm => exact ⟨c, rfl, hm⟩

/-- `CastToPush` over a list honours the answer false, so `many_stop_ends` applies to it; and a push that never ends does too. -/
theorem ofList_honours {T : Type} (xs : List T) : (PushFn.ofList xs).Honours := by
  intro p v k h
  cases p with
  | nil => simp [PushFn.ofList] at h
  | cons x r => simp only [PushFn.ofList, Option.some.injEq, Prod.mk.injEq] at h; obtain ⟨-, rfl⟩ := h; rfl

/-- An endless push function, for the examples: 0, 1, 2, … until its yield answers false. -/
def nats : PushFn Nat where
  P := Option Nat
  start := some 0
  step := fun p => p.map fun n => (n, fun b => if b then some (n + 1) else none)

example : nats.Honours := by
  intro p v k h
  cases p with
  | none => simp [nats] at h
  | some n => simp only [nats, Option.map_some, Option.some.injEq, Prod.mk.injEq] at h; obtain ⟨-, rfl⟩ := h; rfl

/-- Non-vacuity: two callers share `0, 1, 2, …`; then nobody pulls and the goroutine is stuck alive. -/
example : ∃ ls t, ManyRun nats (ManySt.init nats) ls t ∧ ManyLbl.stop ∉ ls ∧ t.got = [(7, some 0), (3, some 1)] ∧
    t.waiting = [] ∧ t.cancelled = false ∧ (nats.step t.prod).isSome := by
  refine ⟨_, _, .snoc (.snoc (.snoc (.snoc (.nil _) (.pull _ 3 (by simp [ManySt.init]))) (.pull _ 7 (by simp [ManySt.init])))
    (.send _ 7 0 (fun b => if b then some 1 else none) rfl (by simp) rfl)) (.send _ 3 1 (fun b => if b then some 2 else none) rfl (by simp) rfl), by simp, by simp [ManySt.init], by simp [ManySt.init], rfl, rfl⟩

end Gds.Iter
