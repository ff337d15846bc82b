import Verif.DelayQueue.Props

/-! The delay queue when the caller's own functions panic (collections/delayqueue/delay_queue.go:53-71) and the caller of Push
recovers: `elem.Expiration()` is called at line 58, with `dq.mutex` locked and no deferred unlock; `dq.comp` is called at line 63,
when the element has been stored and the mutex released. -/

namespace Gds.DelayQueue

variable {T : Type}

/-- One step of the model of `Verif.DelayQueue.Model`, or a panic in one of the two calls. `badE x`: a call of
`x.Expiration()` may panic; `badC d x`: a call of `comp(d, x)` may panic.  The goroutine whose caller recovers can make further
calls. -/
inductive RStep (comp : Compare T) (expir : T → Int) (badE : T → Prop) (badC : T → T → Prop) : Sys T → Sys T → Prop where
  | keep {s s'} : Step comp expir s s' → RStep comp expir badE badC s s'
  /-- delay_queue.go:56-58: the argument of `dq.pq.Push` is evaluated first; nothing unlocks the mutex -/
  | expiration (s t x) : s.pc t = .pushBody x → badE x → RStep comp expir badE badC s (s.goto t .idle)
  /-- delay_queue.go:63: the rest of Push, the wake-up, is left out -/
  | compare (s t x d) : s.pc t = .pushTest x d → badC d x → RStep comp expir badE badC s (s.goto t .idle)

/-- Reachable from a new queue, with panics. -/
inductive RReach (comp : Compare T) (expir : T → Int) (badE : T → Prop) (badC : T → T → Prop) : Sys T → Prop where
  | init (z : T × Int) (size : Int) (pq clock skewed done) : PQ.new z [size] = .ok pq → RReach comp expir badE badC (Sys.init pq clock skewed done)
  | step {s s'} : RReach comp expir badE badC s → RStep comp expir badE badC s s' → RReach comp expir badE badC s'

/-- Any number of steps, with panics. -/
inductive RSteps (comp : Compare T) (expir : T → Int) (badE : T → Prop) (badC : T → T → Prop) : Sys T → Sys T → Prop where
  | refl (s) : RSteps comp expir badE badC s s
  | step {s s' s''} : RStep comp expir badE badC s s' → RSteps comp expir badE badC s' s'' → RSteps comp expir badE badC s s''

variable {comp : Compare T} {expir : T → Int} {badE : T → Prop} {badC : T → T → Prop} {s s' : Sys T}

theorem Reach.raised (h : Reach comp expir s) : RReach comp expir badE badC s := by
  induction h with
  | init z size pq clock skewed done e => exact .init z size pq clock skewed done e
  | step _ st ih => exact .step ih (.keep st)

theorem RReach.steps (h : RReach comp expir badE badC s) (h' : RSteps comp expir badE badC s s') : RReach comp expir badE badC s' := by
  induction h' with
  | refl => exact h
  | step st _ ih => exact ih (h.step st)

theorem Steps.raised (h : Steps comp expir s s') : RSteps comp expir badE badC s s' := by
  induction h with
  | refl => exact .refl _
  | step st _ ih => exact .step (.keep st) ih

theorem RSteps.trans {s'' : Sys T} (h : RSteps comp expir badE badC s s') (h' : RSteps comp expir badE badC s' s'') :
    RSteps comp expir badE badC s s'' := by
  induction h with
  | refl => exact h'
  | step st _ ih => exact .step st (ih h')

/-- What holds of every state of the system without panics about the elements holds with panics. -/
theorem RReach.inv (h : RReach comp expir badE badC s) : Inv expir s := by
  induction h with
  | init z size pq clock skewed done e => exact (Reach.init (comp := comp) z size pq clock skewed done e).inv
  | step _ st ih =>
    cases st with
    | keep st => exact ih.step st
    | expiration t x e _ => exact ih.goto t _ (by rw [e]; rfl)
    | compare t x d e _ => exact ih.goto t _ (by rw [e]; rfl)

/-! ### What panics do not break -/

/-- Nothing is lost or duplicated: what the calls of Push that got as far as storing their element have stored is what is
stored now and what has been removed. -/
theorem raised_conservation_partial (h : RReach comp expir badE badC s) : s.pushed.Perm (s.stored ++ s.takes.map (·.elem)) := h.inv.bal

/-- What goroutine `t` has removed is what its calls returned, what they dropped on a cancelled context, and what it is about to
return. -/
theorem raised_removed_partial (h : RReach comp expir badE badC s) (t : Nat) :
    (s.takesOf t).Perm (ofT t s.delivered ++ ofT t s.lost ++ held (s.pc t)) := h.inv.thr t

/-- Every removal: the element was stored, it was due by the clock that was read, and no element stored then expires earlier. -/
theorem raised_never_early_partial (h : RReach comp expir badE badC s) {k : Take T} (hk : k ∈ s.takes) :
    k.elem ∈ k.stored ∧ expir k.elem ≤ k.now ∧ ∀ y ∈ k.stored, expir k.elem ≤ expir y := by
  obtain ⟨a, -, c, d⟩ := h.inv.take k hk
  exact ⟨c, a, d⟩

/-! ### The mutex -/

/-- The mutex is locked and no goroutine is in a section guarded by it, so nobody is going to unlock it. -/
def Jammed (s : Sys T) : Prop := s.locked = true ∧ ∀ t, (s.pc t).crit = false

/-- The goroutine waits at one of the `dq.mutex.Lock()` of Push, Pop, PopWithCtx and Poll. -/
def Pc.atLock : Pc T → Bool
  | .pushLock _ | .popLock _ | .pollLock => true
  | _ => false

theorem jammed_step (h : Jammed s) (st : Step comp expir s s') : Jammed s' ∧ s'.pushed = s.pushed ∧ s'.stored = s.stored ∧
    s'.takes = s.takes ∧ s'.polls = s.polls ∧ ∀ t, (s.pc t).atLock = true → s'.pc t = s.pc t := by
  obtain ⟨hl, hc⟩ := h
  have crit : ∀ {t : Nat} {p : Pc T}, s.pc t = p → p.crit = true → False := by
    intro t p e hp; have := hc t; rw [e, hp] at this; cases this
  have go : ∀ {t : Nat} {p q : Pc T} {s1 : Sys T}, s.pc t = q → p.crit = false → q.atLock = false → s1.pc = s.pc →
      (∀ u, ((s1.goto t p).pc u).crit = false) ∧ ∀ u, (s.pc u).atLock = true → (s1.goto t p).pc u = s.pc u := by
    intro t p q s1 e hp hq h1
    refine ⟨fun u => ?_, fun u hu => ?_⟩
    · show (if u = t then p else s1.pc u).crit = false
      by_cases h : u = t
      · rw [if_pos h]; exact hp
      · rw [if_neg h, h1]; exact hc u
    · show (if u = t then p else s1.pc u) = _
      by_cases h : u = t
      · subst h; rw [e, hq] at hu; cases hu
      · rw [if_neg h, h1]
  cases st with
  | startPush t x e => have g := go (p := .pushLock x) e rfl rfl (rfl : s.pc = s.pc); exact ⟨⟨hl, g.1⟩, rfl, rfl, rfl, rfl, g.2⟩
  | pushLock t x e h => rw [hl] at h; cases h
  | pushBody t x q d e => exact (crit e rfl).elim
  | pushUnlock t x d e => exact (crit e rfl).elim
  | pushSame t x d e => have g := go (p := .pushCas) e rfl rfl (rfl : s.pc = s.pc); exact ⟨⟨hl, g.1⟩, rfl, rfl, rfl, rfl, g.2⟩
  | pushOther t x d e => have g := go (p := .idle) e rfl rfl (rfl : s.pc = s.pc); exact ⟨⟨hl, g.1⟩, rfl, rfl, rfl, rfl, g.2⟩
  | casOk t e => have g := go (s1 := { s with sleeping := false }) (p := .pushSend) e rfl rfl rfl; exact ⟨⟨hl, g.1⟩, rfl, rfl, rfl, rfl, g.2⟩
  | casFail t e => have g := go (p := .idle) e rfl rfl (rfl : s.pc = s.pc); exact ⟨⟨hl, g.1⟩, rfl, rfl, rfl, rfl, g.2⟩
  | rendezvous t u c e e' =>
    refine ⟨⟨hl, fun v => ?_⟩, rfl, rfl, rfl, rfl, fun v hv => ?_⟩
    · show (if v = u then _ else if v = t then _ else s.pc v).crit = false
      by_cases h : v = u
      · rw [if_pos h]; rfl
      · rw [if_neg h]
        by_cases h : v = t
        · rw [if_pos h]; rfl
        · rw [if_neg h]; exact hc v
    · show (if v = u then _ else if v = t then _ else s.pc v) = _
      have h1 : v ≠ u := by
        rintro rfl
        cases hp : s.pc v <;> rw [hp] at e' hv <;> simp [Pc.receiver, Pc.atLock] at e' hv
      have h2 : v ≠ t := by rintro rfl; rw [e] at hv; cases hv
      rw [if_neg h1, if_neg h2]
  | startPop t c e => have g := go (p := .popLock c) e rfl rfl (rfl : s.pc = s.pc); exact ⟨⟨hl, g.1⟩, rfl, rfl, rfl, rfl, g.2⟩
  | popLock t c e h => rw [hl] at h; cases h
  | popEmpty t c e => exact (crit e rfl).elim
  | popUndue t c d e => exact (crit e rfl).elim
  | popDue t c d r q e => exact (crit e rfl).elim
  | popUnlockDue t c x e => exact (crit e rfl).elim
  | popUnlockEmpty t c e => exact (crit e rfl).elim
  | popUnlockUndue t c d e => exact (crit e rfl).elim
  | popStore t c o e => have g := go (s1 := { s with sleeping := true }) (p := .popWait c o) e rfl rfl rfl; exact ⟨⟨hl, g.1⟩, rfl, rfl, rfl, rfl, g.2⟩
  | popTimer t c d e => have g := go (p := .popSwap c) e rfl rfl (rfl : s.pc = s.pc); exact ⟨⟨hl, g.1⟩, rfl, rfl, rfl, rfl, g.2⟩
  | popTimerEarly t c d e => have g := go (p := .popSwap c) e rfl rfl (rfl : s.pc = s.pc); exact ⟨⟨hl, g.1⟩, rfl, rfl, rfl, rfl, g.2⟩
  | popCancel t k o e => have g := go (p := .popExit (some k)) e rfl rfl (rfl : s.pc = s.pc); exact ⟨⟨hl, g.1⟩, rfl, rfl, rfl, rfl, g.2⟩
  | swapSleeping t c e => have g := go (s1 := { s with sleeping := false }) (p := .popLock c) e rfl rfl rfl; exact ⟨⟨hl, g.1⟩, rfl, rfl, rfl, rfl, g.2⟩
  | swapAwake t c e => have g := go (p := .popRecv c) e rfl rfl (rfl : s.pc = s.pc); exact ⟨⟨hl, g.1⟩, rfl, rfl, rfl, rfl, g.2⟩
  | gotPop t x e => have g := go (s1 := { s with delivered := s.delivered ++ [(t, x)] }) (p := .idle) e rfl rfl rfl; exact ⟨⟨hl, g.1⟩, rfl, rfl, rfl, rfl, g.2⟩
  | gotCtx t k x e => have g := go (s1 := { s with delivered := s.delivered ++ [(t, x)] }) (p := .idle) e rfl rfl rfl; exact ⟨⟨hl, g.1⟩, rfl, rfl, rfl, rfl, g.2⟩
  | gotCancelled t k x e => have g := go (s1 := { s with lost := s.lost ++ [(t, x)] }) (p := .popExit (some k)) e rfl rfl rfl; exact ⟨⟨hl, g.1⟩, rfl, rfl, rfl, rfl, g.2⟩
  | popExit t c e => have g := go (s1 := { s with sleeping := false }) (p := .idle) e rfl rfl rfl; exact ⟨⟨hl, g.1⟩, rfl, rfl, rfl, rfl, g.2⟩
  | startPoll t e => have g := go (p := .pollLock) e rfl rfl (rfl : s.pc = s.pc); exact ⟨⟨hl, g.1⟩, rfl, rfl, rfl, rfl, g.2⟩
  | pollLock t e h => rw [hl] at h; cases h
  | pollEmpty t e => exact (crit e rfl).elim
  | pollUndue t d e => exact (crit e rfl).elim
  | pollDue t d e => exact (crit e rfl).elim
  | pollUnlock t v ok e => exact (crit e rfl).elim
  | tick d => exact ⟨⟨hl, hc⟩, rfl, rfl, rfl, rfl, fun _ _ => rfl⟩
  | setClock n _ => exact ⟨⟨hl, hc⟩, rfl, rfl, rfl, rfl, fun _ _ => rfl⟩
  | cancel d => exact ⟨⟨hl, hc⟩, rfl, rfl, rfl, rfl, fun _ _ => rfl⟩

theorem jammed_rstep (h : Jammed s) (st : RStep comp expir badE badC s s') : Jammed s' ∧ s'.pushed = s.pushed ∧ s'.stored = s.stored ∧
    s'.takes = s.takes ∧ s'.polls = s.polls ∧ ∀ t, (s.pc t).atLock = true → s'.pc t = s.pc t := by
  cases st with
  | keep st => exact jammed_step h st
  | expiration t x e _ => have := h.2 t; rw [e] at this; cases this
  | compare t x d e _ =>
    refine ⟨⟨h.1, fun u => ?_⟩, rfl, rfl, rfl, rfl, fun u hu => ?_⟩
    · show (if u = t then _ else s.pc u).crit = false
      by_cases hu : u = t
      · rw [if_pos hu]; rfl
      · rw [if_neg hu]; exact h.2 u
    · show (if u = t then _ else s.pc u) = _
      by_cases hh : u = t
      · subst hh; rw [e] at hu; cases hu
      · rw [if_neg hh]

/-- A jammed queue is jammed for ever: whatever the goroutines do, nothing is stored, removed or polled any more, and every call
that waits for the mutex waits for ever. -/
theorem jammed_for_ever (h : Jammed s) (st : RSteps comp expir badE badC s s') : Jammed s' ∧ s'.pushed = s.pushed ∧ s'.stored = s.stored ∧
    s'.takes = s.takes ∧ s'.polls = s.polls ∧ ∀ t, (s.pc t).atLock = true → s'.pc t = s.pc t := by
  induction st with
  | refl => exact ⟨h, rfl, rfl, rfl, rfl, fun _ _ => rfl⟩
  | step st _ ih =>
    obtain ⟨h1, h2, h3, h4, h5, h6⟩ := jammed_rstep h st
    obtain ⟨g1, g2, g3, g4, g5, g6⟩ := ih h1
    exact ⟨g1, g2.trans h2, g3.trans h3, g4.trans h4, g5.trans h5, fun t ht => by
      have := h6 t ht; rw [g6 t (by rw [this]; exact ht), this]⟩

/-- In every reachable state either the mutex works as it should, or it is jammed. -/
theorem RReach.mutex (h : RReach comp expir badE badC s) : LInv s ∨ Jammed s := by
  induction h with
  | init z size pq clock skewed done e => exact .inl (Reach.init (comp := comp) (expir := expir) z size pq clock skewed done e).linv
  | step _ st ih =>
    rcases ih with ih | ih
    · cases st with
      | keep st => exact .inl (ih.step st)
      | expiration t x e _ =>
        have ht : Pc.crit (Pc.pushBody x) = true := rfl
        refine .inr ⟨ih.b t (by rw [e]; exact ht), fun u => ?_⟩
        show (if u = t then _ else _ : Pc T).crit = false
        by_cases hu : u = t
        · rw [if_pos hu]; rfl
        · rw [if_neg hu]
          by_contra hc
          exact hu (ih.c u t (by simpa using hc) (by rw [e]; exact ht))
      | compare t x d e _ => exact .inl (ih.same e (p := .idle) rfl (fun _ => rfl) rfl)
    · exact .inr (jammed_rstep ih st).1

/-- At most one goroutine is in a section guarded by the mutex, whatever panics. -/
theorem raised_exclusion_partial (h : RReach comp expir badE badC s) {t t' : Nat} (ht : (s.pc t).crit = true) (ht' : (s.pc t').crit = true) :
    t = t' := by
  rcases h.mutex with g | g
  · exact g.c t t' ht ht'
  · have := g.2 t; rw [ht] at this; cases this

theorem RReach.linv (hE : ∀ x, ¬ badE x) (h : RReach comp expir badE badC s) : LInv s := by
  induction h with
  | init z size pq clock skewed done e => exact (Reach.init (comp := comp) (expir := expir) z size pq clock skewed done e).linv
  | step _ st ih =>
    cases st with
    | keep st => exact ih.step st
    | expiration t x _ hb => exact (hE x hb).elim
    | compare t x d e _ => exact ih.same e (p := .idle) rfl (fun _ => rfl) rfl

/-- If `Expiration` never panics, the comparator may: the mutex is released after at most two steps of its holder, and nobody
else moves for that. -/
theorem raised_released_partial (hE : ∀ x, ¬ badE x) (h : RReach comp expir badE badC s) : ∃ s', Steps comp expir s s' ∧ s'.locked = false ∧
    ∀ t, (s.pc t).crit = false → s'.pc t = s.pc t := released_of (h.linv hE) h.inv

/-- Whenever `Expiration` panics the queue is jammed, in every reachable state. -/
theorem expiration_jams_refuted (h : RReach comp expir badE badC s) {t : Nat} {x : T} (e : s.pc t = .pushBody x) (hb : badE x) :
    RStep comp expir badE badC s (s.goto t .idle) ∧ Jammed (s.goto t .idle) := by
  refine ⟨.expiration s t x e hb, ?_⟩
  have ht : Pc.crit (Pc.pushBody x) = true := rfl
  rcases h.mutex with ih | ih
  · refine ⟨ih.b t (by rw [e]; exact ht), fun u => ?_⟩
    show (if u = t then _ else _ : Pc T).crit = false
    by_cases hu : u = t
    · rw [if_pos hu]; rfl
    · rw [if_neg hu]
      by_contra hc
      exact hu (ih.c u t (by simpa using hc) (by rw [e]; exact ht))
  · have := ih.2 t; rw [e] at this; cases this

/-- The first call of Push on a new queue panics in `Expiration`: every call is over, and the queue is jammed. -/
theorem jam_refuted (x : T) (hb : badE x) : ∃ s : Sys T, RReach comp expir badE badC s ∧ (∀ t, s.pc t = .idle) ∧ Jammed s ∧ s.stored = [] := by
  obtain ⟨s, -, h, -, -, h1, h2, -, h4, -⟩ := fresh (comp := comp) (expir := expir) x 0 (fun _ => false)
  have self : ∀ (s : Sys T) (p : Pc T), (s.goto 0 p).pc 0 = p := fun s p => by simp [Sys.goto]
  have r := (((h.raised (badE := badE) (badC := badC)).step (.keep (.startPush s 0 x (h1 0)))).step (.keep (.pushLock _ 0 x (self _ _) h2)))
  have j := expiration_jams_refuted r (self _ _) hb
  refine ⟨_, r.step j.1, fun t => ?_, j.2, h4⟩
  by_cases ht : t = 0
  · subst ht; exact self _ _
  · simp [Sys.goto, ht, h1]

/-- In a jammed queue a goroutine that begins a call of Push, Pop, PopWithCtx or Poll never gets past its first line. -/
theorem calls_hang_refuted (h : Jammed s) (st : RSteps comp expir badE badC s s') (t : Nat) :
    (∀ x, s.pc t = .pushLock x → s'.pc t = .pushLock x) ∧ (∀ c, s.pc t = .popLock c → s'.pc t = .popLock c) ∧
    (s.pc t = .pollLock → s'.pc t = .pollLock) := by
  have g := (jammed_for_ever h st).2.2.2.2.2 t
  refine ⟨fun x e => ?_, fun c e => ?_, fun e => ?_⟩ <;> rw [g (by rw [e]; rfl), e]

/-! ### A panic of the comparator -/

theorem asleep_stays_raised (h : Asleep s) (st : RStep comp expir badE badC s s') :
    (Asleep s' ∧ s'.stored = s.stored ∧ (s.skewed = false → s.clock ≤ s'.clock)) ∨ ∃ t, t ≠ 0 ∧ s.pc t = .idle ∧ s'.pc t ≠ .idle := by
  have no : ∀ {t : Nat} {p : Pc T}, s.pc t = p → p ≠ .idle → p ≠ .popWait none none → False := by
    intro t p e h1 h2
    by_cases ht : t = 0
    · subst ht; rw [h.1] at e; exact h2 e.symm
    · rw [h.2 t ht] at e; exact h1 e.symm
  cases st with
  | keep st => exact asleep_stays h st
  | expiration t x e _ => exact (no e (by simp) (by simp)).elim
  | compare t x d e _ => exact (no e (by simp) (by simp)).elim

/-- A Push on an empty queue, up to the comparison at delay_queue.go:63. -/
theorem push_to_test (hr : Reach comp expir s) (t : Nat) (x : T) (h0 : s.pc t = .idle) (hl : s.locked = false) (he : s.stored = []) :
    ∃ s', Steps comp expir s s' ∧ s'.pc = (fun u => if u = t then .pushTest x x else s.pc u) ∧ s'.locked = false ∧ s'.sleeping = s.sleeping ∧
      s'.stored = [x] ∧ s'.pushed = s.pushed ++ [x] ∧ s'.clock = s.clock := by
  obtain ⟨q, e1, hI, hs, hperm⟩ := PQ.push_spec ecmp_lawful s.pq (x, expir x) hr.inv.pq
  have hel : q.elems = [(x, expir x)] := by
    have : s.pq.elems = [] := by simpa [Sys.stored] using he
    rw [this] at hperm; exact List.perm_singleton.1 hperm
  have hpk : PQ.peek q = .ok (some (x, expir x)) := by
    have h1 : 0 < q.size := by omega
    have h2 := peek_pos hI h1
    have h3 := (peek_some hI h2).2.2.1
    rw [hel] at h3
    rw [h2, List.mem_singleton.1 h3]
  have self : ∀ (s : Sys T) (p : Pc T), (s.goto t p).pc t = p := fun s p => by simp [Sys.goto]
  refine ⟨_, .step (.startPush s t x h0) (.step (.pushLock _ t x (self _ _) hl) (.step (.pushBody _ t x q (x, expir x) (self _ _) e1 hpk)
    (.step (.pushUnlock _ t x x (self _ _)) (.refl _)))), ?_, rfl, rfl, ?_, rfl, rfl⟩
  · funext u
    by_cases hu : u = t <;> simp [Sys.goto, hu]
  · show q.elems.map (·.1) = [x]
    rw [hel]; rfl

/-- A consumer sleeps in Pop on an empty queue with its flag set; then Push stores an element that is due, and panics in the
comparator: the element stays, the consumer sleeps on, by `asleep_stays_raised` until somebody makes another call.  The same
Push without the panic wakes the consumer. -/
theorem compare_refuted (x : T) (hb : badC x x) (hx : comp x x = 0) (n : Int) (hn : expir x ≤ n) : ∃ s0 s s1 : Sys T,
    RReach comp expir badE badC s0 ∧ Asleep s0 ∧ s0.sleeping = true ∧ s0.stored = [] ∧ s0.skewed = false ∧
    RSteps comp expir badE badC s0 s ∧ Asleep s ∧ s.locked = false ∧ s.stored = [x] ∧ s.pushed = [x] ∧ expir x ≤ s.clock ∧
    Steps comp expir s0 s1 ∧ s1.stored = [x] ∧ s1.pc 0 = .popLock none ∧ ∀ t, t ≠ 0 → s1.pc t = .idle := by
  obtain ⟨s, -, h, -, hk, h1, h2, h3, h4, h5, h6, h7, h8, h9⟩ := fresh (comp := comp) (expir := expir) x n (fun _ => false)
  have self : ∀ (s : Sys T) (t : Nat) (p : Pc T), (s.goto t p).pc t = p := fun s t p => by simp [Sys.goto]
  have hpk : PQ.peek s.pq = .ok none := by
    obtain ⟨r, hr⟩ := peek_total h.inv.pq
    cases r with
    | none => exact hr
    | some d =>
      have := (peek_some h.inv.pq hr).2.2.1
      have : d.1 ∈ s.stored := List.mem_map_of_mem this
      rw [h4] at this; simp at this
  have r1 := ((((h.step (.startPop s 0 none (h1 0))).step (.popLock _ 0 none (self _ _ _) h2)).step (.popEmpty _ 0 none (self _ _ _) hpk)).step
    (.popUnlockEmpty _ 0 none (self _ _ _))).step (.popStore _ 0 none none (self _ _ _))
  obtain ⟨s0, hs0⟩ : ∃ s0 : Sys T, s0 = { { s with locked := true } with locked := false, sleeping := true }.goto 0 (.popWait none none) := ⟨_, rfl⟩
  have r0 : Reach comp expir s0 := by
    convert r1 using 1
    rw [hs0]
    simp only [Sys.goto, Sys.mk.injEq, true_and, and_true]
    funext u
    by_cases hu : u = 0 <;> simp [hu]
  have p0 : s0.pc 0 = .popWait none none := by rw [hs0]; exact self _ _ _
  have pt : ∀ t, t ≠ 0 → s0.pc t = .idle := fun t ht => by rw [hs0]; simp [Sys.goto, ht, h1]
  have sl : s0.sleeping = true := by rw [hs0]; rfl
  obtain ⟨s1, p, q1, q2, q3, q4, q5, q6⟩ := push_to_test r0 1 x (pt 1 (by decide)) (by rw [hs0]; rfl) (by rw [hs0]; exact h4)
  have t1 : s1.pc 1 = .pushTest x x := by rw [q1]; simp
  have t0 : s1.pc 0 = .popWait none none := by rw [q1]; simp [p0]
  have tt : ∀ t, t ≠ 0 → t ≠ 1 → s1.pc t = .idle := fun t h0 h1 => by rw [q1]; simp [h1, pt t h0]
  refine ⟨s0, s1.goto 1 .idle, ((({ s1.goto 1 .pushCas with sleeping := false }.goto 1 .pushSend).goto 1 .idle).goto 0 (.popLock none)), r0.raised,
    ⟨p0, pt⟩, sl, by rw [hs0]; exact h4, by rw [hs0]; exact hk, p.raised.trans (.step (.compare _ 1 x x t1 hb) (.refl _)),
    ⟨by simp [Sys.goto, t0], ?_⟩, q2, q4, ?_, ?_, ?_, q4, self _ _ _, ?_⟩
  · intro t ht
    by_cases h : t = 1
    · subst h; exact self _ _ _
    · simp [Sys.goto, h, tt t ht h]
  · show s1.pushed = [x]
    rw [q5, hs0]; show s.pushed ++ [x] = [x]; rw [h7]; rfl
  · show expir x ≤ s1.clock
    rw [q6, hs0]; show expir x ≤ s.clock; omega
  · exact p.trans (.step (.pushSame _ 1 x x t1 hx) (.step (.casOk _ 1 (self _ _ _) (q3.trans sl))
      (.step (.rendezvous _ 1 0 none (self _ _ _) (by simp [Sys.goto, Pc.receiver, t0])) (.refl _))))
  · intro t ht
    by_cases h : t = 1 <;> simp [Sys.goto, ht, h]
    exact tt t ht h

/-! ### Non-vacuity -/

/-- Numbers that are their own expiration; the one of 7 panics. -/
example : ∃ s : Sys Int, RReach (fun a b => a - b) id (fun x => x = 7) (fun _ _ => False) s ∧ (∀ t, s.pc t = .idle) ∧ Jammed s ∧ s.stored = [] :=
  jam_refuted 7 rfl

/-- The comparator panics on 7; `Expiration` never does, so `raised_released_partial` applies. -/
example : (∀ x : Int, ¬ (fun _ => False) x) ∧ ∃ s0 s : Sys Int, RSteps (fun a b => a - b) id (fun _ => False) (fun a _ => a = 7) s0 s ∧ Asleep s ∧
    s.stored = [7] := by
  obtain ⟨s0, s, s1, -, -, -, -, -, a, b, -, c, -⟩ := compare_refuted (comp := fun a b => a - b) (expir := id) (badE := fun _ => False)
    (badC := fun a _ => a = 7) (7 : Int) rfl (by decide) 9 (by decide)
  exact ⟨fun _ h => h, s0, s, a, b, c⟩

end Gds.DelayQueue
