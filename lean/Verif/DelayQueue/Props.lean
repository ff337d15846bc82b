import Verif.DelayQueue.Lemmas

/-! Properties C22 – C26 of the delay queue. -/

namespace Gds.DelayQueue

variable {T : Type}

/-- Any number of steps. -/
inductive Steps (comp : Compare T) (expir : T → Int) : Sys T → Sys T → Prop where
  | refl (s) : Steps comp expir s s
  | step {s s' s''} : Step comp expir s s' → Steps comp expir s' s'' → Steps comp expir s s''

variable {comp : Compare T} {expir : T → Int} {s s' : Sys T}

theorem Steps.trans {s'' : Sys T} (h : Steps comp expir s s') (h' : Steps comp expir s' s'') : Steps comp expir s s'' := by
  induction h with
  | refl => exact h'
  | step st _ ih => exact .step st (ih h')

theorem Steps.one (h : Step comp expir s s') : Steps comp expir s s' := .step h (.refl _)

/-- Whether the clock can be set is fixed. -/
theorem Step.skewed (h : Step comp expir s s') : s'.skewed = s.skewed := by cases h <;> rfl

theorem Steps.skewed (h : Steps comp expir s s') : s'.skewed = s.skewed := by
  induction h with
  | refl => rfl
  | step st _ ih => exact ih.trans st.skewed

theorem Reach.steps (h : Reach comp expir s) (h' : Steps comp expir s s') : Reach comp expir s' := by
  induction h' with
  | refl => exact h
  | step st _ ih => exact ih (h.step st)

/-! ### C22: never early, always the earliest -/

/-- An element a call returned was removed by that goroutine. -/
theorem delivered_taken (h : Reach comp expir s) {t : Nat} {x : T} (hx : (t, x) ∈ s.delivered) :
    ∃ k ∈ s.takes, k.tid = t ∧ k.elem = x := by
  have h1 : x ∈ ofT t s.delivered := by
    unfold ofT
    exact List.mem_map.2 ⟨(t, x), List.mem_filter.2 ⟨hx, by simp⟩, rfl⟩
  have h2 : x ∈ s.takesOf t := (h.inv.thr t).mem_iff.2 (by simp [h1])
  obtain ⟨k, hk, rfl⟩ := List.mem_map.1 h2
  exact ⟨k, (List.mem_filter.1 hk).1, by simpa using (List.mem_filter.1 hk).2, rfl⟩

/-- C22: on every schedule, an element returned by Pop or PopWithCtx was removed by that call when the clock it read had
reached its expiration, and no element stored at that moment expires earlier. -/
theorem never_early (h : Reach comp expir s) {t : Nat} {x : T} (hx : (t, x) ∈ s.delivered) :
    ∃ k ∈ s.takes, k.tid = t ∧ k.elem = x ∧ k.elem ∈ k.stored ∧ expir x ≤ k.now ∧ (s.skewed = false → k.now ≤ s.clock) ∧
      ∀ y ∈ k.stored, expir x ≤ expir y := by
  obtain ⟨k, hk, h1, rfl⟩ := delivered_taken h hx
  obtain ⟨a, b, c, d⟩ := h.inv.take k hk
  exact ⟨k, hk, h1, rfl, c, a, b, d⟩

/-- C22, in terms of the present: nothing that has been returned expires in the future, if nobody sets the clock. -/
theorem delivered_due (h : Reach comp expir s) (hk : s.skewed = false) {t : Nat} {x : T} (hx : (t, x) ∈ s.delivered) : expir x ≤ s.clock := by
  obtain ⟨k, _, _, _, _, a, b, _⟩ := never_early h hx
  have := b hk
  omega

/-- C22 for Poll: an element it returns is stored, due at the clock read (a time after 1970, an expiration that is an `int64`), and the earliest stored. -/
theorem poll_never_early (h : Reach comp expir s) {p : PollRec T} (hp : p ∈ s.polls) (hn : 0 ≤ p.now ∧ p.now < 2 ^ 63) {x : T} (hx : p.val = some x)
    (he : -2 ^ 63 ≤ expir x ∧ expir x < 2 ^ 63) :
    p.ok = true ∧ x ∈ p.stored ∧ expir x ≤ p.now ∧ ∀ y ∈ p.stored, expir x ≤ expir y := by
  rcases h.inv.poll p hp with ⟨_, h2, _⟩ | ⟨z, h1, h2, ⟨_, h3, _⟩ | ⟨h3, h4, h5⟩⟩
  · rw [hx] at h2; cases h2
  · rw [hx] at h3; cases h3
  · rw [hx] at h4; cases h4
    rw [sub64_pos he.1 he.2 hn.1 hn.2] at h3
    exact ⟨h5, h1, by omega, h2⟩

/-! ### C23: conservation -/

/-- C23 (partial): what has been pushed is what is stored and what Pop calls have removed, each exactly once, on every
schedule. -/
theorem conservation_partial (h : Reach comp expir s) : s.pushed.Perm (s.stored ++ s.takes.map (·.elem)) := h.inv.bal

/-- C23 (partial), the other half: what a goroutine has removed is what its calls have returned, what its cancelled
PopWithCtx calls have dropped, and what its present call holds. -/
theorem removed_partial (h : Reach comp expir s) (t : Nat) :
    (s.takesOf t).Perm (ofT t s.delivered ++ ofT t s.lost ++ held (s.pc t)) := h.inv.thr t

/-- C23: Len, read while nobody is inside a locked section, is the number of elements stored: pushed and not yet removed. -/
theorem len_counts (h : Reach comp expir s) : s.len = (s.stored.length : Int) ∧ s.len = (s.pushed.length : Int) - s.takes.length := by
  have h1 : s.len = (s.stored.length : Int) := by simp [Sys.len, Sys.stored, PQ.Queue.elems]
  have h2 := h.inv.bal.length_eq
  simp only [List.length_append, List.length_map] at h2
  exact ⟨h1, by omega⟩

/-- No call of PopWithCtx is under way. -/
def NoCtx (s : Sys T) : Prop := ∀ t k, (s.pc t).consumer ≠ some (some k)

/-- Reachable without PopWithCtx. -/
inductive ReachNoCtx (comp : Compare T) (expir : T → Int) : Sys T → Prop where
  | init (z : T × Int) (size : Int) (pq clock skewed done) : PQ.new z [size] = .ok pq → ReachNoCtx comp expir (Sys.init pq clock skewed done)
  | step {s s' : Sys T} : ReachNoCtx comp expir s → Step comp expir s s' → NoCtx s' → ReachNoCtx comp expir s'

theorem ReachNoCtx.reach (h : ReachNoCtx comp expir s) : Reach comp expir s := by
  induction h with
  | init z size pq clock skewed done e => exact .init z size pq clock skewed done e
  | step _ st _ ih => exact .step ih st

theorem ReachNoCtx.lost (h : ReachNoCtx comp expir s) : s.lost = [] ∧ NoCtx s := by
  induction h with
  | init z size pq clock skewed done e => exact ⟨rfl, fun t k => by simp [Sys.init, Pc.consumer]⟩
  | step _ st hn ih =>
    refine ⟨?_, hn⟩
    cases st with
    | gotCancelled t k x e _ => exact absurd (by rw [e]; rfl) (ih.2 t k)
    | _ => exact ih.1

/-- C23 for Push/Pop/Poll histories: what a goroutine has removed it has returned, or its present call holds it.  With
`conservation_partial`: nothing is lost and nothing is duplicated. -/
theorem conservation_noctx (h : ReachNoCtx comp expir s) :
    s.pushed.Perm (s.stored ++ s.takes.map (·.elem)) ∧ ∀ t, (s.takesOf t).Perm (ofT t s.delivered ++ held (s.pc t)) := by
  refine ⟨h.reach.inv.bal, fun t => ?_⟩
  have := h.reach.inv.thr t
  rw [h.lost.1] at this
  simpa [ofT] using this

/-! ### Concrete runs -/

/-- One `Push` that finds no sleeper: the path of goroutine `t` through delay_queue.go:54-70. -/
theorem push_run (hr : Reach comp expir s) (t : Nat) (x : T) (hx : comp x x = 0) (h0 : s.pc t = .idle) (hl : s.locked = false)
    (hsl : s.sleeping = false) (he : s.stored = []) :
    ∃ s', Steps comp expir s s' ∧ s'.pc = s.pc ∧ s'.locked = false ∧ s'.sleeping = false ∧ s'.stored = [x] ∧ s'.clock = s.clock ∧
      s'.done = s.done ∧ s'.pushed = s.pushed ++ [x] ∧ s'.lost = s.lost ∧ s'.delivered = s.delivered := by
  obtain ⟨q, e1, hI, hs, hperm⟩ := PQ.push_spec ecmp_lawful s.pq (x, expir x) hr.inv.pq
  have hel : q.elems = [(x, expir x)] := by
    have : s.pq.elems = [] := by simpa [Sys.stored] using he
    rw [this] at hperm; exact List.perm_singleton.1 hperm
  have hpk : PQ.peek q = .ok (some (x, expir x)) := by
    have h1 : 0 < q.size := by omega
    have h2 := peek_pos hI h1
    have h3 := (peek_some hI h2).2.2.1
    rw [hel] at h3
    rw [h2, List.mem_singleton.1 h3]
  have self : ∀ (s : Sys T) (p : Pc T), (s.goto t p).pc t = p := fun s p => by simp [Sys.goto]
  refine ⟨_, .step (.startPush s t x h0) (.step (.pushLock _ t x (self _ _) hl) (.step (.pushBody _ t x q (x, expir x) (self _ _) e1 hpk)
    (.step (.pushUnlock _ t x x (self _ _)) (.step (.pushSame _ t x x (self _ _) hx) (.step (.casFail _ t (self _ _) hsl) (.refl _)))))), ?_⟩
  refine ⟨?_, rfl, hsl, ?_, rfl, rfl, rfl, rfl, rfl⟩
  · funext u
    simp only [Sys.goto]
    by_cases hu : u = t
    · rw [if_pos hu, hu, h0]
    · simp only [if_neg hu]
  · show q.elems.map (·.1) = [x]
    rw [hel]; rfl

/-- A new queue whose clock reads `n`. -/
theorem fresh (z : T) (n : Int) (d : Nat → Bool) : ∃ s : Sys T, ReachSolo comp expir s ∧ Reach comp expir s ∧ ReachNoCtx comp expir s ∧ s.skewed = false ∧
    (∀ t, s.pc t = .idle) ∧ s.locked = false ∧ s.sleeping = false ∧ s.stored = [] ∧ s.clock = n ∧ s.done = d ∧ s.pushed = [] ∧ s.lost = [] ∧
    s.delivered = [] := by
  obtain ⟨q, e, h1, h2, h3⟩ := PQ.new_sized_partial (z, (0 : Int)) 0 []
  exact ⟨Sys.init q n false d, .init _ _ q n false d e, .init _ _ q n false d e, .init _ _ q n false d e, rfl, fun _ => rfl, rfl, rfl, by simp [Sys.stored, Sys.init, h1], rfl, rfl, rfl, rfl, rfl⟩

/-- A queue holding one element, nobody in a call. -/
theorem one_stored (x : T) (hx : comp x x = 0) (n : Int) (d : Nat → Bool) : ∃ s : Sys T, Reach comp expir s ∧ s.skewed = false ∧
    (∀ t, s.pc t = .idle) ∧ s.locked = false ∧ s.sleeping = false ∧ s.stored = [x] ∧ s.clock = n ∧ s.done = d ∧ s.pushed = [x] ∧ s.lost = [] ∧
    s.delivered = [] := by
  obtain ⟨s, -, h, -, hk, h1, h2, h3, h4, h5, h6, h7, h8, h9⟩ := fresh (comp := comp) (expir := expir) x n d
  obtain ⟨s', p, q1, q2, q3, q4, q5, q6, q7, q8, q9⟩ := push_run h 1 x hx (h1 1) h2 h3 h4
  exact ⟨s', h.steps p, by rw [p.skewed, hk], fun t => by rw [q1, h1], q2, q3, q4, by rw [q5, h5], by rw [q6, h6], by rw [q7, h7]; rfl, by rw [q8, h8], by rw [q9, h9]⟩

/-- What `Peek` finds when one element is stored. -/
theorem peek_one (h : Reach comp expir s) {x : T} (hs : s.stored = [x]) : PQ.peek s.pq = .ok (some (x, expir x)) := by
  have hpos : 0 < s.pq.size := by
    by_contra hc
    have : s.pq.elems = [] := PQ.elems_nil _ (by omega)
    rw [Sys.stored, this] at hs; simp at hs
  have h2 := peek_pos h.inv.pq hpos
  have h3 := (peek_some h.inv.pq h2).2.2.1
  have h4 : (s.pq.cell 0).1 ∈ s.stored := List.mem_map_of_mem h3
  rw [hs] at h4
  have h5 := List.mem_singleton.1 h4
  have h6 := h.inv.exp _ h3
  rw [h2, show s.pq.cell 0 = (x, expir x) from Prod.ext h5 (by rw [h6, h5])]

/-- A due element is taken by goroutine 0, in a call with context `c`. -/
theorem take_run (h : Reach comp expir s) {x : T} (c : Option Nat) (h0 : s.pc 0 = .idle) (hl : s.locked = false) (hs : s.stored = [x])
    (hd : expir x ≤ s.clock) : ∃ s', Steps comp expir s s' ∧ s'.pc 0 = .popGot c x ∧ s'.locked = false ∧ s'.stored = [] ∧ s'.done = s.done ∧
      s'.pushed = s.pushed ∧ s'.lost = s.lost ∧ s'.delivered = s.delivered ∧ s'.clock = s.clock ∧ (∀ u, u ≠ 0 → s'.pc u = s.pc u) := by
  have hpk := peek_one h hs
  have hpos := (peek_some h.inv.pq hpk).1
  obtain ⟨q, e1, -, hsz, hperm⟩ := PQ.pop_spec ecmp_lawful s.pq h.inv.pq hpos
  have hq : q.elems = [] := by
    have h1 : s.pq.elems.length = 1 := by
      have : (s.stored).length = 1 := by rw [hs]; rfl
      simpa [Sys.stored] using this
    have := hperm.length_eq
    rw [h1] at this
    exact List.length_eq_zero_iff.1 (by simpa using this.symm)
  have self : ∀ (s : Sys T) (p : Pc T), (s.goto 0 p).pc 0 = p := fun s p => by simp [Sys.goto]
  refine ⟨_, .step (.startPop s 0 c h0) (.step (.popLock _ 0 c (self _ _) hl) (.step (.popDue _ 0 c (x, expir x) _ q (self _ _) hpk
    (by show ¬ expir x > s.clock; omega) e1) (.step (.popUnlockDue _ 0 c x (self _ _)) (.refl _)))), self _ _, rfl, ?_, rfl, rfl, rfl, rfl, rfl, ?_⟩
  · show q.elems.map (·.1) = []
    rw [hq]; rfl
  · intro u hu
    simp only [Sys.goto, if_neg hu]

/-- C23, the claim that fails: an element is pushed, and then it is neither stored, nor returned by any call, nor held by
a call: nobody is in a call.  PopWithCtx removed it and returned (zero, false) because its context had been cancelled. -/
theorem no_loss_refuted (x : T) (hx : comp x x = 0) : ∃ s : Sys T, Reach comp expir s ∧ s.skewed = false ∧ (∀ t, s.pc t = .idle) ∧ s.pushed = [x] ∧
    s.stored = [] ∧ s.delivered = [] ∧ s.lost = [(0, x)] := by
  obtain ⟨s, h, hk, h1, h2, h3, h4, h5, h6, h7, h8, h9⟩ := one_stored (comp := comp) (expir := expir) x hx (expir x) (fun _ => true)
  obtain ⟨s', p, q1, q2, q3, q4, q5, q6, q7, q8, q9⟩ := take_run h (some 7) (h1 0) h2 h4 (by omega)
  have st1 := Step.gotCancelled (comp := comp) (expir := expir) s' 0 7 x q1 (by rw [q4, h6])
  refine ⟨_, ((h.steps p).step st1).step (.popExit _ 0 (some 7) (by simp [Sys.goto])), p.skewed.trans hk, ?_, ?_, q3, ?_, ?_⟩
  · intro t
    by_cases ht : t = 0
    · simp [Sys.goto, ht]
    · simp only [Sys.goto, if_neg ht]; rw [q9 t ht, h1]
  · show s'.pushed = [x]; rw [q5, h7]
  · show s'.delivered = []; rw [q7, h9]
  · show s'.lost ++ _ = _; rw [q6, h8]; rfl

/-- Non-vacuity of C22/C23: a run in which an element is pushed and returned. -/
theorem delivered_run (x : T) (hx : comp x x = 0) : ∃ s : Sys T, Reach comp expir s ∧ s.delivered = [(0, x)] ∧ s.pushed = [x] ∧ s.stored = [] := by
  obtain ⟨s, h, hk, h1, h2, h3, h4, h5, h6, h7, h8, h9⟩ := one_stored (comp := comp) (expir := expir) x hx (expir x) (fun _ => true)
  obtain ⟨s', p, q1, q2, q3, q4, q5, q6, q7, q8, q9⟩ := take_run h none (h1 0) h2 h4 (by omega)
  refine ⟨_, (h.steps p).step (.gotPop s' 0 x q1), ?_, ?_, q3⟩
  · show s'.delivered ++ _ = _; rw [q7, h9]; rfl
  · show s'.pushed = [x]; rw [q5, h7]

/-! ### C24: waking up -/

/-- Goroutine 0 is blocked in `Pop` with no timer and nobody else is in a call. -/
def Asleep (s : Sys T) : Prop := s.pc 0 = .popWait none none ∧ ∀ t, t ≠ 0 → s.pc t = .idle

/-- A sleeper stays asleep and the contents stay the same, until another goroutine makes a call. -/
theorem asleep_stays (h : Asleep s) (st : Step comp expir s s') : (Asleep s' ∧ s'.stored = s.stored ∧ (s.skewed = false → s.clock ≤ s'.clock)) ∨
    ∃ t, t ≠ 0 ∧ s.pc t = .idle ∧ s'.pc t ≠ .idle := by
  obtain ⟨ha, hb⟩ := h
  have key : ∀ {t : Nat} {p : Pc T}, s.pc t = p → p ≠ .idle → p ≠ .popWait none none → False := by
    intro t p e h1 h2
    by_cases ht : t = 0
    · subst ht; rw [ha] at e; exact h2 e.symm
    · rw [hb t ht] at e; exact h1 e.symm
  have start : ∀ {t : Nat} {p : Pc T}, s.pc t = .idle → p ≠ .idle → ∃ t', t' ≠ 0 ∧ s.pc t' = .idle ∧ (s.goto t p).pc t' ≠ .idle := by
    intro t p e hp
    refine ⟨t, ?_, e, by simpa [Sys.goto] using hp⟩
    rintro rfl; rw [ha] at e; cases e
  cases st with
  | startPush t x e => exact .inr (start e (by simp))
  | startPop t x e => exact .inr (start e (by simp))
  | startPoll t e => exact .inr (start e (by simp))
  | tick d => exact .inl ⟨⟨ha, hb⟩, rfl, fun _ => by show s.clock ≤ s.clock + d; omega⟩
  | setClock n hs => exact .inl ⟨⟨ha, hb⟩, rfl, fun hf => by rw [hf] at hs; simp at hs⟩
  | popTimerEarly t c e h1 h2 => exact (key h1 (by simp) (by simp)).elim
  | cancel k => exact .inl ⟨⟨ha, hb⟩, rfl, fun _ => Int.le_refl _⟩
  | popTimer t c e h1 h2 => exact (key h1 (by simp) (by simp)).elim
  | popCancel t k o h1 h2 => exact (key h1 (by simp) (by simp)).elim
  | _ => exact (key (by assumption) (by simp) (by simp)).elim

/-- C24, the claim that fails: a consumer blocked in Pop on what it saw as an empty queue, although the queue holds an
element that is due; by `asleep_stays` it stays there whatever the clock does, until somebody makes another call.  Push ran
between Pop's release of the mutex and the store of the sleeping flag. -/
theorem wakeup_refuted (x : T) (hx : comp x x = 0) (n : Int) (hn : expir x ≤ n) :
    ∃ s : Sys T, Reach comp expir s ∧ s.skewed = false ∧ Asleep s ∧ s.stored = [x] ∧ expir x ≤ s.clock ∧ s.pushed = [x] := by
  obtain ⟨s, -, h, -, hk, h1, h2, h3, h4, h5, h6, h7, h8, h9⟩ := fresh (comp := comp) (expir := expir) x n (fun _ => false)
  have self : ∀ (s : Sys T) (p : Pc T), (s.goto 0 p).pc 0 = p := fun s p => by simp [Sys.goto]
  have hpk : PQ.peek s.pq = .ok none := by
    obtain ⟨r, hr⟩ := peek_total h.inv.pq
    cases r with
    | none => exact hr
    | some d =>
      have := (peek_some h.inv.pq hr).2.2.1
      have : d.1 ∈ s.stored := List.mem_map_of_mem this
      rw [h4] at this; simp at this
  have r1 := (((h.step (.startPop s 0 none (h1 0))).step (.popLock _ 0 none (self _ _) h2)).step (.popEmpty _ 0 none (self _ _) hpk)).step
    (.popUnlockEmpty _ 0 none (self _ _))
  obtain ⟨s', p, q1, q2, q3, q4, q5, q6, q7, q8, q9⟩ := push_run r1 1 x hx (by simp [Sys.goto, h1]) rfl h3 h4
  have hp0 : s'.pc 0 = .popStore none none := by rw [q1]; simp [Sys.goto]
  refine ⟨_, (r1.steps p).step (.popStore s' 0 none none hp0), p.skewed.trans hk, ⟨self _ _, ?_⟩, q4, ?_, ?_⟩
  · intro t ht
    show (if t = 0 then _ else s'.pc t) = _
    rw [if_neg ht, q1]
    simp [Sys.goto, ht, h1]
  · show expir x ≤ s'.clock
    rw [q5]; show expir x ≤ s.clock; omega
  · show s'.pushed = [x]
    rw [q7]; show s.pushed ++ [x] = [x]; rw [h7]; rfl

/-- C24 (partial): with a single consumer calling Pop, once its sleeping flag is set, a Push that finds its own element at
the head wakes it: the two calls can always perform the exchange. -/
theorem wakeup_partial (h : ReachSolo comp expir s) {o : Option Int} (h0 : s.pc 0 = .popWait none o) (hs : s.sleeping = true) {t : Nat}
    (ht : s.pc t = .pushCas) : ∃ s', Steps comp expir s s' ∧ s'.pc 0 = .popLock none ∧ s'.pc t = .idle := by
  have hne : t ≠ 0 := by rintro rfl; rw [h0] at ht; cases ht
  refine ⟨_, .step (.casOk s t ht hs) (.step (.rendezvous _ t 0 none (by simp [Sys.goto]) ?_) (.refl _)), by simp [Sys.goto], by simp [Sys.goto, hne]⟩
  show (if 0 = t then _ else s.pc 0).receiver = _
  rw [if_neg (fun h => hne h.symm), h0]; rfl

/-- C24 (partial): with a single consumer, a consumer that waits for a head that was not due gets back to the queue as soon
as the clock has reached that expiration, whether or not a Push claimed its flag in between. -/
theorem timer_partial (h : ReachSolo comp expir s) {e : Int} (h0 : s.pc 0 = .popWait none (some e)) (he : e ≤ s.clock) :
    ∃ s', Steps comp expir s s' ∧ s'.pc 0 = .popLock none := by
  have s1 := Step.popTimer (comp := comp) (expir := expir) s 0 none e h0 he
  have self : ∀ (s : Sys T) (p : Pc T), (s.goto 0 p).pc 0 = p := fun s p => by simp [Sys.goto]
  by_cases hs : s.sleeping = true
  · exact ⟨_, .step s1 (.step (.swapSleeping _ 0 none (self _ _) hs) (.refl _)), self _ _⟩
  · have hs' : s.sleeping = false := by simpa using hs
    obtain ⟨t, ht⟩ := h.sinv.c (.inl ⟨by rw [h0]; rfl, hs'⟩)
    have ht' : s.pc t = .pushSend := by cases e : s.pc t <;> rw [e] at ht <;> simp [Pc.isSend] at ht
    have hne : t ≠ 0 := by rintro rfl; rw [h0] at ht'; cases ht'
    refine ⟨_, .step s1 (.step (.swapAwake _ 0 none (self _ _) hs') (.step (.rendezvous _ t 0 none ?_ ?_) (.refl _))), self _ _⟩
    · show (if t = 0 then _ else if t = 0 then _ else s.pc t) = _
      rw [if_neg hne, if_neg hne]; exact ht'
    · rw [self]; rfl

/-- C24 (partial): with a single consumer, a consumer that waits for a Push that claimed its flag is served. -/
theorem recv_partial (h : ReachSolo comp expir s) (h0 : s.pc 0 = .popRecv none) : ∃ s', Step comp expir s s' ∧ s'.pc 0 = .popLock none := by
  obtain ⟨t, ht⟩ := h.sinv.c (.inr (by rw [h0]; rfl))
  have ht' : s.pc t = .pushSend := by cases e : s.pc t <;> rw [e] at ht <;> simp [Pc.isSend] at ht
  exact ⟨_, .rendezvous s t 0 none ht' (by rw [h0]; rfl), by simp [Sys.goto]⟩

/-! ### The mutex -/

/-- The goroutine holds `dq.mutex`. -/
def Pc.crit : Pc T → Bool
  | .pushBody _ | .pushUnlock _ _ | .popBody _ | .popUnlock _ _ | .pollBody | .pollUnlock _ _ => true
  | _ => false

structure LInv (s : Sys T) : Prop where
  a : s.locked = true → ∃ t, (s.pc t).crit = true
  b : ∀ t, (s.pc t).crit = true → s.locked = true
  c : ∀ t t', (s.pc t).crit = true → (s.pc t').crit = true → t = t'

theorem LInv.same {s s' : Sys T} (h : LInv s) {t : Nat} {p q : Pc T} (e : s.pc t = q) (hp : p.crit = q.crit)
    (hpc : ∀ u, s'.pc u = if u = t then p else s.pc u) (hl : s'.locked = s.locked) : LInv s' := by
  have hc : ∀ u, (s'.pc u).crit = (s.pc u).crit := by
    intro u; rw [hpc u]
    by_cases hu : u = t
    · rw [if_pos hu, hu, e, hp]
    · rw [if_neg hu]
  refine ⟨?_, ?_, ?_⟩
  · rw [hl]; intro hh; obtain ⟨t, ht⟩ := h.a hh; exact ⟨t, by rw [hc]; exact ht⟩
  · intro t; rw [hc, hl]; exact h.b t
  · intro t t'; rw [hc, hc]; exact h.c t t'

theorem LInv.enter {s s' : Sys T} (h : LInv s) {t : Nat} {p : Pc T} (hp : p.crit = true) (hf : s.locked = false)
    (hpc : ∀ u, s'.pc u = if u = t then p else s.pc u) (hl : s'.locked = true) : LInv s' := by
  have hno : ∀ u, (s.pc u).crit = false := by
    intro u; by_contra hc; have := h.b u (by simpa using hc); rw [hf] at this; cases this
  refine ⟨fun _ => ⟨t, by rw [hpc, if_pos rfl]; exact hp⟩, fun _ _ => hl, ?_⟩
  intro u u' hu hu'
  rw [hpc] at hu hu'
  have := hno u; have := hno u'
  grind

theorem LInv.leave {s s' : Sys T} (h : LInv s) {t : Nat} {p q : Pc T} (e : s.pc t = q) (hq : q.crit = true) (hp : p.crit = false)
    (hpc : ∀ u, s'.pc u = if u = t then p else s.pc u) (hl : s'.locked = false) : LInv s' := by
  have hno : ∀ u, (s'.pc u).crit = false := by
    intro u; rw [hpc]
    by_cases hu : u = t
    · rw [if_pos hu]; exact hp
    · rw [if_neg hu]; by_contra hc; exact hu (h.c u t (by simpa using hc) (by rw [e]; exact hq))
  refine ⟨by rw [hl]; simp, ?_, ?_⟩
  · intro u hu; rw [hno u] at hu; cases hu
  · intro u u' hu; rw [hno u] at hu; cases hu

theorem LInv.step (h : LInv s) (st : Step comp expir s s') : LInv s' := by
  cases st with
  | rendezvous t u c e e' =>
    have h1 := h.same (s' := s.goto t .idle) e (p := .idle) rfl (fun _ => rfl) rfl
    have hne : u ≠ t := by rintro rfl; rw [e] at e'; simp [Pc.receiver] at e'
    refine h1.same (t := u) (q := s.pc u) (p := .popLock c) (by simp [Sys.goto, hne]) ?_ (fun _ => rfl) rfl
    cases hc : s.pc u <;> rw [hc] at e' <;> simp [Pc.receiver] at e' <;> rfl
  | pushLock t x e hl => exact h.enter rfl hl (fun _ => rfl) rfl
  | popLock t c e hl => exact h.enter rfl hl (fun _ => rfl) rfl
  | pollLock t e hl => exact h.enter rfl hl (fun _ => rfl) rfl
  | pushUnlock t x d e => exact h.leave e rfl rfl (fun _ => rfl) rfl
  | popUnlockDue t c x e => exact h.leave e rfl rfl (fun _ => rfl) rfl
  | popUnlockEmpty t c e => exact h.leave e rfl rfl (fun _ => rfl) rfl
  | popUnlockUndue t c d e => exact h.leave e rfl rfl (fun _ => rfl) rfl
  | pollUnlock t v ok e => exact h.leave e rfl rfl (fun _ => rfl) rfl
  | tick d => exact ⟨h.a, h.b, h.c⟩
  | setClock n _ => exact ⟨h.a, h.b, h.c⟩
  | cancel d => exact ⟨h.a, h.b, h.c⟩
  | _ => refine h.same (q := ?_) ?_ ?_ (fun _ => rfl) rfl; rotate_left; assumption; rfl

theorem Reach.linv (h : Reach comp expir s) : LInv s := by
  induction h with
  | init z size pq clock skewed done e => exact ⟨by simp [Sys.init], by simp [Sys.init, Pc.crit], by simp [Sys.init, Pc.crit]⟩
  | step _ st ih => exact ih.step st

/-- The mutex protects the queue: at most one goroutine is in a section guarded by it. -/
theorem mutual_exclusion (h : Reach comp expir s) {t t' : Nat} (ht : (s.pc t).crit = true) (ht' : (s.pc t').crit = true) : t = t' :=
  h.linv.c t t' ht ht'

/-! ### C25: Push returns -/

/-- `lock_released` for any state with the two invariants. -/
theorem released_of (hL : LInv s) (hI0 : Inv expir s) : ∃ s', Steps comp expir s s' ∧ s'.locked = false ∧
    ∀ t, (s.pc t).crit = false → s'.pc t = s.pc t := by
  have self : ∀ (s : Sys T) (t : Nat) (p : Pc T), (s.goto t p).pc t = p := fun s t p => by simp [Sys.goto]
  by_cases hl : s.locked = true
  · obtain ⟨t, ht⟩ := hL.a hl
    have oth : ∀ u, (s.pc u).crit = false → u ≠ t := by rintro u hu rfl; rw [ht] at hu; cases hu
    cases e : s.pc t with
    | pushBody x =>
      obtain ⟨q, e1, hI, hs, hperm⟩ := PQ.push_spec ecmp_lawful s.pq (x, expir x) hI0.pq
      have hpk := peek_pos hI (by omega)
      refine ⟨_, .step (.pushBody s t x q _ e e1 hpk) (.step (.pushUnlock _ t x _ (self _ _ _)) (.refl _)), rfl, ?_⟩
      intro u hu; simp [Sys.goto, oth u hu]
    | pushUnlock x d => exact ⟨_, .one (.pushUnlock s t x d e), rfl, fun u hu => by simp [Sys.goto, oth u hu]⟩
    | popBody c =>
      obtain ⟨r, hr⟩ := peek_total hI0.pq
      cases r with
      | none =>
        exact ⟨_, .step (.popEmpty s t c e hr) (.step (.popUnlockEmpty _ t c (self _ _ _)) (.refl _)), rfl, fun u hu => by simp [Sys.goto, oth u hu]⟩
      | some d =>
        by_cases hd : d.2 > s.clock
        · exact ⟨_, .step (.popUndue s t c d e hr hd) (.step (.popUnlockUndue _ t c d.2 (self _ _ _)) (.refl _)), rfl,
            fun u hu => by simp [Sys.goto, oth u hu]⟩
        · obtain ⟨q, e1, -, -, -⟩ := PQ.pop_spec ecmp_lawful s.pq hI0.pq (peek_some hI0.pq hr).1
          exact ⟨_, .step (.popDue s t c d _ q e hr hd e1) (.step (.popUnlockDue _ t c d.1 (self _ _ _)) (.refl _)), rfl,
            fun u hu => by simp [Sys.goto, oth u hu]⟩
    | popUnlock c r =>
      cases r with
      | empty => exact ⟨_, .one (.popUnlockEmpty s t c e), rfl, fun u hu => by simp [Sys.goto, oth u hu]⟩
      | undue d => exact ⟨_, .one (.popUnlockUndue s t c d e), rfl, fun u hu => by simp [Sys.goto, oth u hu]⟩
      | due x => exact ⟨_, .one (.popUnlockDue s t c x e), rfl, fun u hu => by simp [Sys.goto, oth u hu]⟩
    | pollBody =>
      obtain ⟨r, hr⟩ := peek_total hI0.pq
      cases r with
      | none => exact ⟨_, .step (.pollEmpty s t e hr) (.step (.pollUnlock _ t _ _ (self _ _ _)) (.refl _)), rfl, fun u hu => by simp [Sys.goto, oth u hu]⟩
      | some d =>
        by_cases hd : sub64 d.2 s.clock > 0
        · exact ⟨_, .step (.pollUndue s t d e hr hd) (.step (.pollUnlock _ t _ _ (self _ _ _)) (.refl _)), rfl, fun u hu => by simp [Sys.goto, oth u hu]⟩
        · exact ⟨_, .step (.pollDue s t d e hr hd) (.step (.pollUnlock _ t _ _ (self _ _ _)) (.refl _)), rfl, fun u hu => by simp [Sys.goto, oth u hu]⟩
    | pollUnlock v ok => exact ⟨_, .one (.pollUnlock s t v ok e), rfl, fun u hu => by simp [Sys.goto, oth u hu]⟩
    | _ => rw [e] at ht; cases ht
  · exact ⟨s, .refl _, by simpa using hl, fun _ _ => rfl⟩

/-- A step that some goroutine in the queue's critical section can take, and that changes nobody else: the mutex is
released after at most two steps of its holder. -/
theorem lock_released (h : Reach comp expir s) : ∃ s', Steps comp expir s s' ∧ s'.locked = false ∧
    ∀ t, (s.pc t).crit = false → s'.pc t = s.pc t := released_of h.linv h.inv

/-- C25 (partial): on every schedule, a call of Push can go on until it returns or until it has claimed a consumer's
sleeping flag and waits to hand over the wake-up: it can block nowhere else. -/
theorem push_progress_partial (h : Reach comp expir s) {t : Nat} (ht : (∃ x, s.pc t = .pushLock x) ∨ (∃ x, s.pc t = .pushBody x) ∨
    (∃ x d, s.pc t = .pushUnlock x d) ∨ (∃ x d, s.pc t = .pushTest x d) ∨ s.pc t = .pushCas) :
    ∃ s', Steps comp expir s s' ∧ (s'.pc t = .idle ∨ s'.pc t = .pushSend) := by
  have self : ∀ (s : Sys T) (p : Pc T), (s.goto t p).pc t = p := fun s p => by simp [Sys.goto]
  have c5 : ∀ {s : Sys T}, s.pc t = .pushCas → ∃ s', Steps comp expir s s' ∧ (s'.pc t = .idle ∨ s'.pc t = .pushSend) := by
    intro s e
    by_cases hs : s.sleeping = true
    · exact ⟨_, .one (.casOk s t e hs), .inr (self _ _)⟩
    · exact ⟨_, .one (.casFail s t e (by simpa using hs)), .inl (self _ _)⟩
  have c4 : ∀ {s : Sys T} {x d}, s.pc t = .pushTest x d → ∃ s', Steps comp expir s s' ∧ (s'.pc t = .idle ∨ s'.pc t = .pushSend) := by
    intro s x d e
    by_cases hc : comp d x = 0
    · obtain ⟨s', p, q⟩ := c5 (s := s.goto t .pushCas) (self _ _)
      exact ⟨s', .step (.pushSame s t x d e hc) p, q⟩
    · exact ⟨_, .one (.pushOther s t x d e hc), .inl (self _ _)⟩
  have c3 : ∀ {s : Sys T} {x d}, s.pc t = .pushUnlock x d → ∃ s', Steps comp expir s s' ∧ (s'.pc t = .idle ∨ s'.pc t = .pushSend) := by
    intro s x d e
    obtain ⟨s', p, q⟩ := c4 (s := { s with locked := false }.goto t (.pushTest x d)) (self _ _)
    exact ⟨s', .step (.pushUnlock s t x d e) p, q⟩
  have c2 : ∀ {s : Sys T} {x}, Reach comp expir s → s.pc t = .pushBody x → ∃ s', Steps comp expir s s' ∧ (s'.pc t = .idle ∨ s'.pc t = .pushSend) := by
    intro s x h e
    obtain ⟨q, e1, hI, hs, hperm⟩ := PQ.push_spec ecmp_lawful s.pq (x, expir x) h.inv.pq
    have st := Step.pushBody (comp := comp) (expir := expir) s t x q _ e e1 (peek_pos hI (by omega))
    obtain ⟨s', p, q⟩ := c3 (self _ _)
    exact ⟨s', .step st p, q⟩
  rcases ht with ⟨x, e⟩ | ⟨x, e⟩ | ⟨x, d, e⟩ | ⟨x, d, e⟩ | e
  · obtain ⟨s1, p1, hl, hf⟩ := lock_released h
    have e1 : s1.pc t = .pushLock x := by rw [hf t (by rw [e]; rfl), e]
    have st := Step.pushLock (comp := comp) (expir := expir) s1 t x e1 hl
    obtain ⟨s', p, q⟩ := c2 ((h.steps p1).step st) (self _ _)
    exact ⟨s', p1.trans (.step st p), q⟩
  · exact c2 h e
  · exact c3 e
  · exact c4 e
  · exact c5 e

/-- C25 (partial): with a single consumer calling Pop, a Push that waits to hand over the wake-up always finds the consumer
waiting for it, so it can return. -/
theorem push_returns_partial (h : ReachSolo comp expir s) {t : Nat} (ht : s.pc t = .pushSend) :
    ∃ s', Steps comp expir s s' ∧ s'.pc t = .idle := by
  obtain ⟨hs, hw⟩ := h.sinv.b t (by rw [ht]; rfl)
  have hne : t ≠ 0 := by rintro rfl; rw [ht] at hw; simp [Pc.isWait, Pc.isRecv] at hw
  have fin : ∀ {s : Sys T} {c}, s.pc t = .pushSend → (s.pc 0).receiver = some c → ∃ s', Steps comp expir s s' ∧ s'.pc t = .idle := by
    intro s c e hc
    exact ⟨_, .one (.rendezvous s t 0 c e hc), by simp [Sys.goto, hne]⟩
  cases e : s.pc 0 with
  | popWait c o => exact fin ht (by rw [e]; rfl)
  | popRecv c => exact fin ht (by rw [e]; rfl)
  | popSwap c =>
    have st := Step.swapAwake (comp := comp) (expir := expir) s 0 c e hs
    obtain ⟨s', p, q⟩ := fin (s := s.goto 0 (.popRecv c)) (c := c) (by simp [Sys.goto, hne, ht]) (by simp [Sys.goto, Pc.receiver])
    exact ⟨s', .step st p, q⟩
  | _ => rw [e] at hw; simp [Pc.isWait, Pc.isRecv] at hw

/-- Goroutine `t` waits to hand over a wake-up and nobody else is in a call. -/
def Abandoned (s : Sys T) (t : Nat) : Prop := s.pc t = .pushSend ∧ ∀ u, u ≠ t → s.pc u = .idle

/-- An abandoned Push stays blocked until another goroutine makes a call. -/
theorem abandoned_stays {t : Nat} (h : Abandoned s t) (st : Step comp expir s s') : Abandoned s' t ∨
    ∃ u, u ≠ t ∧ s.pc u = .idle ∧ s'.pc u ≠ .idle := by
  obtain ⟨ha, hb⟩ := h
  have key : ∀ {u : Nat} {p : Pc T}, s.pc u = p → p ≠ .idle → p ≠ .pushSend → False := by
    intro u p e h1 h2
    by_cases hu : u = t
    · subst hu; rw [ha] at e; exact h2 e.symm
    · rw [hb u hu] at e; exact h1 e.symm
  have start : ∀ {u : Nat} {p : Pc T}, s.pc u = .idle → p ≠ .idle → ∃ t', t' ≠ t ∧ s.pc t' = .idle ∧ (s.goto u p).pc t' ≠ .idle := by
    intro u p e hp
    refine ⟨u, ?_, e, by simpa [Sys.goto] using hp⟩
    rintro rfl; rw [ha] at e; cases e
  cases st with
  | startPush t x e => exact .inr (start e (by simp))
  | startPop t x e => exact .inr (start e (by simp))
  | startPoll t e => exact .inr (start e (by simp))
  | tick d => exact .inl ⟨ha, hb⟩
  | setClock n _ => exact .inl ⟨ha, hb⟩
  | cancel k => exact .inl ⟨ha, hb⟩
  | rendezvous u v c e e' =>
    refine (key (u := v) (p := s.pc v) rfl ?_ ?_).elim <;> intro hc <;> rw [hc] at e' <;> simp [Pc.receiver] at e'
  | _ => exact (key (by assumption) (by simp) (by simp)).elim

/-- C25, the claim that fails: a Push that has claimed the sleeping flag of a consumer whose context is then cancelled
waits on the wake-up channel with nobody left to receive. -/
theorem push_returns_refuted (x : T) (hx : comp x x = 0) (n : Int) :
    ∃ s : Sys T, Reach comp expir s ∧ s.skewed = false ∧ Abandoned s 1 := by
  obtain ⟨s, -, h, -, hk, h1, h2, h3, h4, h5, h6, h7, h8, h9⟩ := fresh (comp := comp) (expir := expir) x n (fun _ => true)
  have self : ∀ (s : Sys T) (t : Nat) (p : Pc T), (s.goto t p).pc t = p := fun s t p => by simp [Sys.goto]
  have hpk : PQ.peek s.pq = .ok none := by
    obtain ⟨r, hr⟩ := peek_total h.inv.pq
    cases r with
    | none => exact hr
    | some d =>
      have := (peek_some h.inv.pq hr).2.2.1
      have : d.1 ∈ s.stored := List.mem_map_of_mem this
      rw [h4] at this; simp at this
  have r1 := ((((h.step (.startPop s 0 (some 7) (h1 0))).step (.popLock _ 0 _ (self _ _ _) h2)).step (.popEmpty _ 0 _ (self _ _ _) hpk)).step
    (.popUnlockEmpty _ 0 _ (self _ _ _))).step (.popStore _ 0 _ _ (self _ _ _))
  obtain ⟨q, e1, hI, hs, hperm⟩ := PQ.push_spec ecmp_lawful s.pq (x, expir x) h.inv.pq
  have hel : q.elems = [(x, expir x)] := by
    have : s.pq.elems = [] := by simpa [Sys.stored] using h4
    rw [this] at hperm; exact List.perm_singleton.1 hperm
  have hpk : PQ.peek q = .ok (some (x, expir x)) := by
    have h1 : 0 < q.size := by omega
    have h2 := peek_pos hI h1
    have h3 := (peek_some hI h2).2.2.1
    rw [hel] at h3
    rw [h2, List.mem_singleton.1 h3]
  have r2 := (((((r1.step (.startPush _ 1 x (by simp [Sys.goto, h1]))).step (.pushLock _ 1 x (self _ _ _) rfl)).step
    (.pushBody _ 1 x q (x, expir x) (self _ _ _) e1 hpk)).step (.pushUnlock _ 1 x x (self _ _ _))).step (.pushSame _ 1 x x (self _ _ _) hx)).step
    (.casOk _ 1 (self _ _ _) rfl)
  have r3 := (r2.step (.popCancel _ 0 7 none (by simp [Sys.goto]) (by simp [Sys.goto, h6]))).step (.popExit _ 0 (some 7) (self _ _ _))
  refine ⟨_, r3, hk, by simp [Sys.goto], ?_⟩
  intro u hu
  by_cases h0 : u = 0
  · simp [Sys.goto, h0]
  · simp [Sys.goto, h0, hu, h1]

/-! ### C26: Poll -/

/-- C26 (partial): on every schedule a Poll returns (zero, false) exactly when the queue is empty, and the earliest element
with true exactly when it is due; the clock is after 1970 and the expirations are at most 2^63 ms before it.  Missing: for an undue head the second result
should be false. -/
theorem poll_partial (h : Reach comp expir s) {p : PollRec T} (hp : p ∈ s.polls) (hn : 0 ≤ p.now ∧ p.now < 2 ^ 63)
    (he : ∀ y ∈ p.stored, p.now - 2 ^ 63 ≤ expir y ∧ expir y < 2 ^ 63) :
    (p.ok = false ↔ p.stored = []) ∧
    (∀ x, p.val = some x → x ∈ p.stored ∧ expir x ≤ p.now ∧ ∀ y ∈ p.stored, expir x ≤ expir y) ∧
    (p.val = none ↔ ∀ y ∈ p.stored, p.now < expir y) := by
  rcases h.inv.poll p hp with ⟨h1, h2, h3⟩ | ⟨z, h1, h2, hz⟩
  · exact ⟨by simp [h1, h3], by simp [h2], by simp [h1, h2]⟩
  · have := he z h1
    rw [sub64_pos (by omega) this.2 hn.1 hn.2] at hz
    have hne : p.stored ≠ [] := by intro hc; rw [hc] at h1; simp at h1
    rcases hz with ⟨h3, h4, h5⟩ | ⟨h3, h4, h5⟩
    · refine ⟨by simp [h5, hne], by simp [h4], ?_⟩
      simp only [h4, true_iff]; intro y hy; have := h2 y hy; omega
    · refine ⟨by simp [h5, hne], ?_, ?_⟩
      · intro x hx; rw [h4] at hx; cases hx; exact ⟨h1, by omega, h2⟩
      · simp only [h4, reduceCtorEq, false_iff]; intro hc; have := hc z h1; omega

/-- C26, exactly: for every clock after 1970 and all `int64` expirations, Poll answers with no element iff the queue is empty, or the earliest element is
not due, or it expired more than 2^63 ms before the clock (the subtraction wraps around). Otherwise it answers with an earliest element. -/
theorem poll_exact_partial (h : Reach comp expir s) {p : PollRec T} (hp : p ∈ s.polls) (hn : 0 ≤ p.now ∧ p.now < 2 ^ 63)
    (he : ∀ y ∈ p.stored, -2 ^ 63 ≤ expir y ∧ expir y < 2 ^ 63) :
    (p.val = none ↔ (∀ y ∈ p.stored, p.now < expir y) ∨ ∃ y ∈ p.stored, expir y < p.now - 2 ^ 63) ∧
    (∀ x, p.val = some x → x ∈ p.stored ∧ expir x ≤ p.now ∧ ∀ y ∈ p.stored, expir x ≤ expir y) := by
  rcases h.inv.poll p hp with ⟨h1, h2, h3⟩ | ⟨z, h1, h2, hz⟩
  · exact ⟨by simp [h1, h2], by simp [h2]⟩
  · have := he z h1
    rw [sub64_pos this.1 this.2 hn.1 hn.2] at hz
    rcases hz with ⟨h3 | h3, h4, h5⟩ | ⟨h3, h4, h5⟩
    · refine ⟨?_, by simp [h4]⟩
      simp only [h4, true_iff]; left; intro y hy; have := h2 y hy; omega
    · refine ⟨?_, by simp [h4]⟩
      simp only [h4, true_iff]; exact .inr ⟨z, h1, h3⟩
    · refine ⟨?_, ?_⟩
      · simp only [h4, reduceCtorEq, false_iff]
        rintro (hc | ⟨y, hy, hc⟩)
        · have := hc z h1; omega
        · have := h2 y hy; omega
      · intro x hx; rw [h4] at hx; cases hx; exact ⟨h1, by omega, h2⟩

/-- C26, the claim that fails: Poll answers (zero, true) although the only element stored is not due. -/
theorem poll_refuted (x : T) (hx : comp x x = 0) : ∃ (s : Sys T) (p : PollRec T), Reach comp expir s ∧ s.skewed = false ∧ p ∈ s.polls ∧ p.stored = [x] ∧
    p.now < expir x ∧ p.val = none ∧ p.ok = true := by
  obtain ⟨s, h, hk, h1, h2, h3, h4, h5, h6, h7, h8, h9⟩ := one_stored (comp := comp) (expir := expir) x hx (expir x - 1) (fun _ => true)
  have hpk := peek_one h h4
  have self : ∀ (s : Sys T) (t : Nat) (p : Pc T), (s.goto t p).pc t = p := fun s t p => by simp [Sys.goto]
  refine ⟨_, ⟨s.clock, s.stored, none, true⟩, ((h.step (.startPoll s 0 (h1 0))).step (.pollLock _ 0 (self _ _ _) h2)).step
    (.pollUndue _ 0 (x, expir x) (self _ _ _) hpk ?_), hk, ?_, h4, ?_, rfl, rfl⟩
  · have : expir x - s.clock = 1 := by omega
    show (BitVec.ofInt 64 (expir x - s.clock)).toInt > 0
    rw [this]; decide
  · exact List.mem_append_right _ (List.mem_singleton.2 rfl)
  · show s.clock < expir x; omega

/-- C26, another claim that fails: an element that has been due for a very long time (its expiration is the least `int64`, say) is stored alone; Poll answers
(zero, true) without it, while Pop, called in the same state, returns it. -/
theorem poll_wraps_refuted (x : T) (hx : comp x x = 0) (n : Int) (hn : 0 ≤ n ∧ n < 2 ^ 63) (he : -2 ^ 63 ≤ expir x ∧ expir x < n - 2 ^ 63) :
    ∃ (s : Sys T) (p : PollRec T) (s1 : Sys T), Reach comp expir s ∧ s.skewed = false ∧ (∀ t, s.pc t = .idle) ∧ s.clock = n ∧ s.stored = [x] ∧ p ∈ s.polls ∧
      p.now = n ∧ p.stored = [x] ∧ p.val = none ∧ p.ok = true ∧ Steps comp expir s s1 ∧ s1.delivered = [(0, x)] := by
  obtain ⟨s, h, hk, h1, h2, h3, h4, h5, h6, h7, h8, h9⟩ := one_stored (comp := comp) (expir := expir) x hx n (fun _ => true)
  have hpk := peek_one h h4
  have self : ∀ (s : Sys T) (t : Nat) (p : Pc T), (s.goto t p).pc t = p := fun s t p => by simp [Sys.goto]
  have hw : sub64 (expir x) s.clock > 0 := by rw [sub64_pos he.1 (by omega) (by omega) (by omega)]; omega
  have hr := (((h.step (.startPoll s 0 (h1 0))).step (.pollLock _ 0 (self _ _ _) h2)).step
    (.pollUndue _ 0 (x, expir x) (self _ _ _) hpk hw)).step (.pollUnlock _ 0 none true (self _ _ _))
  generalize hs2 : (Sys.goto _ 0 Pc.idle : Sys T) = s2 at hr
  have g1 : ∀ t, s2.pc t = .idle := by
    intro t
    subst hs2
    by_cases ht : t = 0
    · simp [Sys.goto, ht]
    · simp [Sys.goto, ht, h1]
  have g2 : s2.stored = [x] := by subst hs2; exact h4
  have g3 : s2.clock = n := by subst hs2; exact h5
  have g4 : s2.delivered = [] := by subst hs2; exact h9
  obtain ⟨s3, p, q1, q2, q3, q4, q5, q6, q7, q8, q9⟩ := take_run hr none (g1 0) (by subst hs2; rfl) g2 (by omega)
  refine ⟨s2, ⟨s.clock, s.stored, none, true⟩, _, hr, by subst hs2; exact hk, g1, g3, g2, ?_, h5, h4, rfl, rfl,
    p.trans (.one (.gotPop s3 0 x q1)), ?_⟩
  · subst hs2; exact List.mem_append_right _ (List.mem_singleton.2 rfl)
  · show s3.delivered ++ _ = _; rw [q7, g4]; rfl

/-- Such an element: the expiration is the least `int64`, the clock reads 1 ms after 1970. -/
example : ∃ (s : Sys Int) (p : PollRec Int), Reach (fun _ _ => 0) id s ∧ p ∈ s.polls ∧ p.now = 1 ∧ p.stored = [-2 ^ 63] ∧ p.val = none := by
  obtain ⟨s, p, -, h1, -, -, -, -, h2, h3, h4, h5, -⟩ := poll_wraps_refuted (comp := fun _ _ => 0) (expir := id) (-2 ^ 63 : Int) rfl 1 (by decide) (by decide)
  exact ⟨s, p, h1, h2, h3, h4, h5⟩

/-- The goroutine is inside Poll. -/
def Pc.polling : Pc T → Bool
  | .pollLock | .pollBody | .pollUnlock _ _ => true
  | _ => false

/-- C26 (partial): a step of a goroutine inside Poll never changes the contents of the queue. -/
theorem poll_readonly_partial {t : Nat} (st : Step comp expir s s') (ht : (s.pc t).polling = true) (hc : s'.pc t ≠ s.pc t) :
    s'.stored = s.stored ∧ s'.takes = s.takes ∧ s'.pushed = s.pushed := by
  cases st with
  | pushBody u x q d e e1 hk =>
    exfalso; apply hc; show (if t = u then _ else s.pc t) = s.pc t
    rw [if_neg]; rintro rfl; rw [e] at ht; cases ht
  | popDue u c d r q e hk hd hp =>
    exfalso; apply hc; show (if t = u then _ else s.pc t) = s.pc t
    rw [if_neg]; rintro rfl; rw [e] at ht; cases ht
  | _ => exact ⟨rfl, rfl, rfl⟩

/-! ### Non-vacuity -/

/-- The single-consumer theorems: a reachable state in which the consumer sleeps with its flag set and a Push has reached
the flag. -/
example (x : T) (hx : comp x x = 0) : ∃ s : Sys T, ReachSolo comp expir s ∧ s.pc 0 = .popWait none none ∧ s.sleeping = true ∧ s.pc 1 = .pushCas := by
  obtain ⟨s, h', h, -, hk, h1, h2, h3, h4, h5, h6, h7, h8, h9⟩ := fresh (comp := comp) (expir := expir) x 5 (fun _ => true)
  have self : ∀ (s : Sys T) (t : Nat) (p : Pc T), (s.goto t p).pc t = p := fun s t p => by simp [Sys.goto]
  have hpk : PQ.peek s.pq = .ok none := by
    obtain ⟨r, hr⟩ := peek_total h.inv.pq
    cases r with
    | none => exact hr
    | some d =>
      have := (peek_some h.inv.pq hr).2.2.1
      have : d.1 ∈ s.stored := List.mem_map_of_mem this
      rw [h4] at this; simp at this
  have one : ∀ (s : Sys T) (p : Pc T), p.consumer = none ∨ p.consumer = some none → Solo s → Solo (s.goto 0 p) := by
    intro s p hp hs t c ht
    simp only [Sys.goto] at ht
    by_cases h0 : t = 0
    · rw [if_pos h0] at ht
      rcases hp with hp | hp <;> rw [hp] at ht <;> simp at ht
      exact ⟨h0, ht.symm⟩
    · rw [if_neg h0] at ht; exact hs t c ht
  have two : ∀ (s : Sys T) (p : Pc T), p.consumer = none → Solo s → Solo (s.goto 1 p) := by
    intro s p hp hs t c ht
    simp only [Sys.goto] at ht
    by_cases h0 : t = 1
    · rw [if_pos h0, hp] at ht; cases ht
    · rw [if_neg h0] at ht; exact hs t c ht
  have r1 := h'.step (.startPop s 0 none (h1 0)) (one _ _ (.inr rfl) h'.solo)
  have r2 := r1.step (.popLock _ 0 _ (self _ _ _) h2) (one _ _ (.inr rfl) r1.solo)
  have r3 := r2.step (.popEmpty _ 0 _ (self _ _ _) hpk) (one _ _ (.inr rfl) r2.solo)
  have r4 := r3.step (.popUnlockEmpty _ 0 _ (self _ _ _)) (one _ _ (.inr rfl) r3.solo)
  have r5 := r4.step (.popStore _ 0 _ _ (self _ _ _)) (one _ _ (.inr rfl) r4.solo)
  obtain ⟨q, e1, hI, hs, hperm⟩ := PQ.push_spec ecmp_lawful s.pq (x, expir x) h.inv.pq
  have hel : q.elems = [(x, expir x)] := by
    have : s.pq.elems = [] := by simpa [Sys.stored] using h4
    rw [this] at hperm; exact List.perm_singleton.1 hperm
  have hpk : PQ.peek q = .ok (some (x, expir x)) := by
    have h1 : 0 < q.size := by omega
    have h2 := peek_pos hI h1
    have h3 := (peek_some hI h2).2.2.1
    rw [hel] at h3
    rw [h2, List.mem_singleton.1 h3]
  have r6 := r5.step (.startPush _ 1 x (by simp [Sys.goto, h1])) (two _ _ rfl r5.solo)
  have r7 := r6.step (.pushLock _ 1 x (self _ _ _) rfl) (two _ _ rfl r6.solo)
  have r8 := r7.step (.pushBody _ 1 x q (x, expir x) (self _ _ _) e1 hpk) (two _ _ rfl r7.solo)
  have r9 := r8.step (.pushUnlock _ 1 x x (self _ _ _)) (two _ _ rfl r8.solo)
  have r10 := r9.step (.pushSame _ 1 x x (self _ _ _) hx) (two _ _ rfl r9.solo)
  exact ⟨_, r10, by simp [Sys.goto], rfl, self _ _ _⟩

/-- `expir` and `comp` exist: numbers that are their own expiration. -/
example : ∃ s : Sys Int, Reach (fun a b => a - b) id s ∧ s.delivered = [(0, 41)] ∧ s.pushed = [41] ∧ s.stored = [] :=
  delivered_run 41 (by decide)

end Gds.DelayQueue
