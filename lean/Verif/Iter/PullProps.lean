import Verif.Iter.Model

/-! Property C05: `CastToPull` on every schedule. -/
namespace Gds.Iter

/-- Spec: the first `n` values a push function offers when every yield answers true. -/
def PushFn.offered {T : Type _} (f : PushFn T) : Nat → f.P → List T
  | 0, _ => []
  | n + 1, p => match f.step p with
    | none => []
    | some (v, k) => v :: PushFn.offered f n (k true)

/-- Spec: the values (not the end marks) a consumer has received, in order. -/
def received {T : Type _} (got : List (Option T)) : List T := got.filterMap id

/-- Continuing the true-run for n yields. -/
def PushFn.after {T : Type _} (f : PushFn T) : Nat → f.P → f.P
  | 0, p => p
  | n + 1, p => match f.step p with
    | none => p
    | some (_, k) => PushFn.after f n (k true)

theorem offered_snoc {T : Type _} (f : PushFn T) (n : Nat) (p : f.P) (v : T) (k : Bool → f.P)
    (h : f.step (f.after n p) = some (v, k)) :
    f.offered (n + 1) p = f.offered n p ++ [v] ∧ f.after (n + 1) p = k true := by
  induction n generalizing p with
  | zero => simp [PushFn.after] at h; simp [PushFn.offered, PushFn.after, h]
  | succ n ih =>
    cases hs : f.step p with
    | none => simp [PushFn.after, hs] at h
    | some q =>
      obtain ⟨w, k'⟩ := q
      simp only [PushFn.after, hs] at h
      obtain ⟨h1, h2⟩ := ih _ h
      constructor
      · rw [PushFn.offered]; simp only [hs, h1]
        simp [PushFn.offered, hs]
      · rw [PushFn.after]; simp only [hs]; exact h2

theorem not_stop_cancelled {T : Type _} (f : PushFn T) {ls s} (h : PullReach f ls s)
    (hl : PullLbl.stop ∉ ls) : s.cancelled = false := by
  induction h with
  | init => rfl
  | @step ls s l s' _ hs ih =>
    have hl' : PullLbl.stop ∉ ls := fun hm => hl (by simp [hm])
    have := ih hl'
    cases hs <;> simp_all

/-- C05: without `stop`, what `next()` has returned is the offered sequence in order: nothing lost,
    duplicated, reordered or invented. -/
theorem castToPull_in_order {T : Type _} (f : PushFn T) {ls s} (h : PullReach f ls s)
    (hl : PullLbl.stop ∉ ls) :
    ∃ n, received s.got = f.offered n f.start ∧ s.prod = f.after n f.start ∧
      (received s.got).length = n := by
  induction h with
  | init => exact ⟨0, rfl, rfl, rfl⟩
  | @step ls s l s' hr hs ih =>
    have hl' : PullLbl.stop ∉ ls := fun hm => hl (by simp [hm])
    obtain ⟨n, h1, h2, h3⟩ := ih hl'
    cases hs with
    | pull => exact ⟨n, h1, h2, h3⟩
    | stop => simp at hl
    | send _ v k hc hw he =>
      rw [h2] at he
      obtain ⟨h4, h5⟩ := offered_snoc f n f.start v k he
      refine ⟨n + 1, ?_, h5.symm, ?_⟩
      · simp [received] at h1 ⊢; rw [h4, h1]
      · simp [received] at h3 ⊢; exact h3
    | cancelSeen _ v k hc hcan he =>
      have := not_stop_cancelled f hr hl'
      rw [this] at hcan; cases hcan
    | close => exact ⟨n, h1, h2, h3⟩
    | recvClosed => exact ⟨n, by simpa [received] using h1, h2, by simpa [received] using h3⟩

/-- C05: the results of `next()` are values followed by (zero,false) only: once a pull has answered
    false, every later pull answers false; and false is answered only after the channel is closed. -/
theorem castToPull_values_then_end {T : Type _} (f : PushFn T) {ls s} (h : PullReach f ls s) :
    ∃ (vs : List T) (m : Nat), s.got = vs.map some ++ List.replicate m none ∧ (m ≠ 0 → s.closed = true) := by
  induction h with
  | init => exact ⟨[], 0, rfl, by simp⟩
  | @step ls s l s' hr hs ih =>
    obtain ⟨vs, m, h1, h2⟩ := ih
    cases hs with
    | pull => exact ⟨vs, m, h1, h2⟩
    | stop => exact ⟨vs, m, h1, h2⟩
    | send _ v k hc hw he =>
      have hm : m = 0 := by
        by_cases hm : m = 0
        · exact hm
        · exact absurd (h2 hm) (by simp [hc])
      subst hm
      exact ⟨vs ++ [v], 0, by simp [h1], by simp⟩
    | cancelSeen _ v k hc hcan he => exact ⟨vs, m, h1, h2⟩
    | close => exact ⟨vs, m, h1, fun _ => rfl⟩
    | recvClosed _ hc hw => exact ⟨vs, m + 1, by simp [h1, List.replicate_succ'], fun _ => hc⟩

/-- Steps that are not the consumer's own decision. -/
def PullLbl.internal : PullLbl → Bool
  | .pull | .stop => false
  | _ => true

/-- C05 (no deadlock): whenever a pull is blocked, some internal step is possible. -/
theorem castToPull_progress {T : Type _} (f : PushFn T) (s : PullSt f) (hw : s.waiting = true) :
    ∃ l s', l.internal = true ∧ PullStep f l s s' := by
  cases hc : s.closed with
  | true => exact ⟨_, _, rfl, .recvClosed s hc hw⟩
  | false =>
    cases he : f.step s.prod with
    | none => exact ⟨_, _, rfl, .close s hc he⟩
    | some q => exact ⟨_, _, rfl, .send s q.1 q.2 hc hw he⟩

section Lists
variable {T : Type}

/-- Work left: yields not yet answered, the close, and a pending pull. -/
def workLeft {f : PushFn T} (rem : f.P → Nat) (s : PullSt f) : Nat :=
  2 * rem s.prod + (if s.closed then 0 else 1) + (if s.waiting then 1 else 0)

/-- C05 (termination): over a finite list every internal step decreases `workLeft`, so — with
    `castToPull_progress` — every pull is answered after finitely many steps on every schedule. -/
theorem castToPull_terminates (xs : List T) (l : PullLbl) (hl : l.internal = true)
    (s s' : PullSt (PushFn.ofList xs)) (h : PullStep (PushFn.ofList xs) l s s') :
    workLeft (f := PushFn.ofList xs) (List.length (α := T)) s' <
      workLeft (f := PushFn.ofList xs) (List.length (α := T)) s := by
  have hshort : ∀ (p : List T) v k, (PushFn.ofList xs).step p = some (v, k) → ∀ b, (k b : List T).length < p.length := by
    intro p v k he b
    cases p with
    | nil => simp [PushFn.ofList] at he
    | cons x r =>
      simp [PushFn.ofList] at he; obtain ⟨rfl, rfl⟩ := he
      cases b <;> simp
  cases h with
  | pull => simp [PullLbl.internal] at hl
  | stop => simp [PullLbl.internal] at hl
  | send _ v k hc hw he => have := hshort _ _ _ he true; simp [workLeft, hc, hw]; omega
  | cancelSeen _ v k hc hcan he => have := hshort _ _ _ he false; simp [workLeft]; omega
  | close _ hc he => simp [workLeft, hc]
  | recvClosed _ hc hw => simp [workLeft, hc, hw]

theorem ofList_suffix (xs : List T) {ls s} (h : PullReach (PushFn.ofList xs) ls s) :
    ∃ rest : List T, xs = received s.got ++ rest ∧ ((s.prod : List T) = rest ∨ (s.prod : List T) = []) ∧
      (s.cancelled = false → (s.prod : List T) = rest) := by
  induction h with
  | init => exact ⟨xs, by simp [received, PullSt.init], Or.inl rfl, fun _ => rfl⟩
  | @step ls s l s' hr hs ih =>
    obtain ⟨rest, h1, h2, h3⟩ := ih
    cases hs with
    | pull => exact ⟨rest, h1, h2, h3⟩
    | stop => exact ⟨rest, h1, h2, by simp⟩
    | send _ v k hc hw he =>
      rcases h2 with h2 | h2
      · cases hrest : rest with
        | nil => rw [h2, hrest] at he; simp [PushFn.ofList] at he
        | cons x r =>
          rw [h2, hrest] at he
          simp [PushFn.ofList] at he
          obtain ⟨rfl, rfl⟩ := he
          refine ⟨r, ?_, Or.inl rfl, fun _ => rfl⟩
          subst hrest
          simpa [received] using h1
      · rw [h2] at he; simp [PushFn.ofList] at he
    | cancelSeen _ v k hc hcan he =>
      refine ⟨rest, h1, Or.inr ?_, by simp [hcan]⟩
      rcases hp : (s.prod : List T) with _ | ⟨x, r⟩
      · rw [hp] at he; simp [PushFn.ofList] at he
      · rw [hp] at he; simp [PushFn.ofList] at he
        obtain ⟨rfl, rfl⟩ := he; rfl
    | close => exact ⟨rest, h1, h2, h3⟩
    | recvClosed => exact ⟨rest, by simpa [received] using h1, h2, h3⟩

/-- C05: on every schedule, with or without `stop`, the values received from a list-shaped push
    function that honours false are a prefix of the list, in order. -/
theorem castToPull_prefix (xs : List T) {ls s} (h : PullReach (PushFn.ofList xs) ls s) :
    received s.got <+: xs := by
  obtain ⟨rest, h1, _⟩ := ofList_suffix xs h
  exact ⟨rest, h1.symm⟩

theorem closed_prod {f : PushFn T} {ls s} (h : PullReach f ls s) (hc : s.closed = true) :
    f.step s.prod = none := by
  induction h with
  | init => simp [PullSt.init] at hc
  | @step ls s l s' hr hs ih => cases hs <;> simp_all

/-- C05: if `stop` was never called and some pull answered (zero,false), then every element had
    been delivered before. -/
theorem castToPull_complete (xs : List T) {ls s} (h : PullReach (PushFn.ofList xs) ls s)
    (hl : PullLbl.stop ∉ ls) (hend : none ∈ s.got) : received s.got = xs := by
  obtain ⟨rest, h1, _, h3⟩ := ofList_suffix xs h
  obtain ⟨vs, m, h4, h5⟩ := castToPull_values_then_end _ h
  have hm : m ≠ 0 := by
    rintro rfl
    rw [h4] at hend; simp at hend
  have hp := h3 (not_stop_cancelled _ h hl)
  have hn := closed_prod h (h5 hm)
  have : rest = [] := by
    rw [hp] at hn
    cases rest with
    | nil => rfl
    | cons x r => simp [PushFn.ofList] at hn
  rw [this] at h1; simpa using h1.symm

/-- C05: after `stop`, the goroutine never stays blocked: until the channel is closed it can always
    make a step on its own, even if nobody pulls. -/
theorem castToPull_stop_releases {f : PushFn T} (s : PullSt f) (hcan : s.cancelled = true)
    (hc : s.closed = false) : ∃ l s', (l = .cancelSeen ∨ l = .close) ∧ PullStep f l s s' := by
  cases he : f.step s.prod with
  | none => exact ⟨_, _, Or.inr rfl, .close s hc he⟩
  | some q => exact ⟨_, _, Or.inl rfl, .cancelSeen s q.1 q.2 hc hcan he⟩

/-- C05: a push function that ignores the answer of yield (as `Iter.All` does) may skip elements
    after `stop`; what the consumer receives is still in order (a subsequence). -/
theorem castToPull_deaf_sublist (xs : List T) {ls s} (h : PullReach (PushFn.ofListDeaf xs) ls s) :
    (received s.got).Sublist xs := by
  suffices ∃ pre rest : List T, xs = pre ++ rest ∧ (s.prod : List T) = rest ∧
      (received s.got).Sublist pre by
    obtain ⟨pre, rest, h1, _, h2⟩ := this
    have hp : pre <+: xs := ⟨rest, h1.symm⟩
    exact h2.trans hp.sublist
  have hstep : ∀ (p : List T) v k, (PushFn.ofListDeaf xs).step p = some (v, k) →
      ∀ b, p = v :: (k b : List T) := by
    intro p v k he b
    cases p with
    | nil => simp [PushFn.ofListDeaf] at he
    | cons x r => simp [PushFn.ofListDeaf] at he; obtain ⟨rfl, rfl⟩ := he; rfl
  induction h with
  | init => exact ⟨[], xs, rfl, rfl, by simp [received, PullSt.init]⟩
  | @step ls s l s' hr hs ih =>
    obtain ⟨pre, rest, h1, hp, h2⟩ := ih
    cases hs with
    | pull => exact ⟨pre, rest, h1, hp, h2⟩
    | stop => exact ⟨pre, rest, h1, hp, h2⟩
    | send _ v k hc hw he =>
      refine ⟨pre ++ [v], (k true : List T), ?_, rfl, ?_⟩
      · have := hstep _ _ _ he true
        rw [hp] at this
        rw [this] at h1; exact h1.trans (List.append_cons _ _ _)
      · simpa [received] using h2.append (List.Sublist.refl [v])
    | cancelSeen _ v k hc hcan he =>
      refine ⟨pre ++ [v], (k false : List T), ?_, rfl, h2.trans (List.sublist_append_left _ _)⟩
      have := hstep _ _ _ he false
      rw [hp] at this
      rw [this] at h1; exact h1.trans (List.append_cons _ _ _)
    | close => exact ⟨pre, rest, h1, hp, h2⟩
    | recvClosed => exact ⟨pre, rest, h1, hp, by simpa [received] using h2⟩

end Lists

/-- Non-vacuity: the run pull, send, pull, send, close, pull, recvClosed over [1,2] is reachable and
    ends with results 1, 2, (zero,false). -/
example : ∃ s, PullReach (PushFn.ofList [1, 2])
    [.pull, .send, .pull, .send, .close, .pull, .recvClosed] s ∧ s.got = [some 1, some 2, none] := by
  refine ⟨_, .step (.step (.step (.step (.step (.step (.step .init (.pull _ rfl)) (.send _ 1 _ rfl rfl rfl))
    (.pull _ rfl)) (.send _ 2 _ rfl rfl rfl)) (.close _ rfl rfl)) (.pull _ rfl)) (.recvClosed _ rfl rfl), rfl⟩

end Gds.Iter
