import Verif.Stream.ParTryEffectsMatch

/-! Property C133: runs. -/
namespace Gds.Stream
variable {E T R : Type}

/-- Predicates that count their calls. -/
def yes (_ : Nat) (e : Nat) : Bool × Nat := (true, e + 1)
def no (_ : Nat) (e : Nat) : Bool × Nat := (false, e + 1)

/-- The slice 1, 2, 3, 4 with AllMatch, parallelism 2 and a predicate that always holds: there is a run to the end, and on every
    schedule the predicate has been called six times for the four elements. -/
theorem parAllMatch_once_refuted :
    (∃ n c res, TryRun (ofSlice digits ⟨false, 0, 0, 4, 4⟩ 2) Ops.source 2 0 1 (allF yes) () 0 n c ∧ c.main = .ret res true) ∧
    ∀ n c res, TryRun (ofSlice digits ⟨false, 0, 0, 4, 4⟩ 2) Ops.source 2 0 1 (allF yes) () 0 n c → c.main = .ret res true → c.e = 6 := by
  constructor
  · obtain ⟨n, c, h1, ⟨v, b, h2⟩, -⟩ := parTry_ends (s := ofSlice (E := Nat) digits ⟨false, 0, 0, 4, 4⟩ 2) Ops.source 0 1 (allF yes) four_splits rfl trivial (fun _ _ _ _ => rfl) () 0 .init
    have := (parAllMatch_calls Ops.source 0 1 yes four_splits rfl (by simp) trivial (fun _ _ _ => rfl) () 0 h1 h2).1.2 ⟨rfl, fun _ _ _ _ => rfl⟩
    subst this
    exact ⟨n, c, v, h1, h2⟩
  · intro n c res h hv
    obtain ⟨tr, h1, h2⟩ := (parAllMatch_calls Ops.source 0 1 yes four_splits rfl (by simp) trivial (fun _ _ _ => rfl) () 0 h hv).2 rfl
    rw [h2, h1.commute]
    · rfl
    · intro g hg g' hg' e
      have : ∀ g ∈ ([[(· + 1), (· + 1)], [(· + 1), (· + 1)], [(· + 1), (· + 1)]] : List (List (Act Nat))).flatten, g = (· + 1) := by simp
      rw [this g hg, this g' hg']

/-- The slice 1, 2, 3, 4 with AllMatch, parallelism 2 and a predicate that never holds: AllMatch has returned false, and a
    goroutine still calls the predicate. -/
theorem parTry_calls_after_return : ∃ n c c' res, TryRun (ofSlice digits ⟨false, 0, 0, 4, 4⟩ 2) Ops.source 2 0 1 (allF no) () 0 n c ∧ c.main = .ret res false ∧
    TryStep 2 0 1 (allF no) c c' ∧ c'.e = c.e + 1 := by
  have r1 := (TryRun.init (s := ofSlice (E := Nat) digits ⟨false, 0, 0, 4, 4⟩ 2) (p := Ops.source) (k := 2) (z := 0) (ini := 1) (F := allF no) (l := ()) (e := 0)).step (.spawn _ _ _ _ _ _ rfl rfl)
  have r2 := r1.step (.spawn _ _ _ _ _ _ rfl rfl)
  have r3 := r2.step (.segEnd _ _ _ _ _ rfl rfl)
  have r4 := r3.step (.yield _ 0 _ _ _ _ _ _ rfl rfl)
  have r5 := r4.step (.yield _ 1 _ _ _ _ _ _ rfl rfl)
  have r6 := r5.step (.selDefault _ 0 _ _ _ rfl rfl)
  have r7 := r6.step (.selDefault _ 1 _ _ _ rfl rfl)
  have r8 := r7.step (.callStop _ 0 _ _ _ rfl rfl)
  have r9 := r8.step (.cancel _ 0 rfl)
  have r10 := r9.step (.recvDone _ _ _ _ rfl (by simp) rfl)
  exact ⟨_, _, _, _, r10, rfl, .callStop _ 1 _ _ _ rfl rfl, rfl⟩

/-- Filter and Map in front, with effects of their own. -/
example (n c res) (h : TryRun (ofSlice digits ⟨false, 0, 0, 4, 4⟩ 2) counting 2 0 20 (allF (fun v e => (v ≤ 40, e + 1))) () 0 n c) (hv : c.main = .ret res true) :
    c.e = 10 := by
  obtain ⟨tr, h1, h2⟩ := (parAllMatch_calls counting 0 20 (fun v e => (decide (v ≤ 40), e + 1)) four_splits rfl (by simp) ⟨⟨trivial, fun _ _ _ => rfl⟩, fun _ _ _ => rfl⟩ (fun _ _ _ => rfl) () 0 h hv).2 rfl
  rw [h2, h1.commute]
  · rfl
  · intro g hg g' hg' e
    have : ∀ g ∈ ([[(· + 1), (· + 1), (· + 1), (· + 1)], [(· + 1), (· + 1), (· + 1), (· + 1)], [(· + 1), (· + 1)]] : List (List (Act Nat))).flatten, g = (· + 1) := by simp
    rw [this g hg, this g' hg']

/-- AnyMatch for 3: the answer is true on every schedule. -/
example (n c res b) (h : TryRun (ofSlice digits ⟨false, 0, 0, 4, 4⟩ 2) Ops.source 2 0 1 (anyF (fun v e => (v == 3, e ++ [v]))) () [] n c) (hv : c.main = .ret res b) :
    (!b) = true :=
  (parAnyMatch_calls Ops.source 0 1 (fun v e => (v == 3, e ++ [v])) four_splits rfl (by simp) trivial (fun _ _ _ => rfl) () [] h hv).1.2
    (.inr ⟨[3, 4], by simp, 3, by simp [Ops.arrivals, Ops.calls], rfl⟩)

/-- All of AllMatch, First included: there is such a run. -/
example : ∃ e', MatchRun (ofSlice digits ⟨false, 0, 0, 4, 4⟩ 2) counting 2 0 (allF (fun v e => (decide (v ≤ 40), e + 1))) () () 0 true true e' := by
  obtain ⟨n, c, h1, ⟨v, b, h2⟩, -⟩ := parTry_ends (s := ofSlice (E := Nat) digits ⟨false, 0, 0, 4, 4⟩ 2) counting 0 20 (allF (fun v e => (decide (v ≤ 40), e + 1))) four_splits rfl
    ⟨⟨trivial, fun _ _ _ => rfl⟩, fun _ _ _ => rfl⟩ (fun _ _ _ _ => rfl) () 3 .init
  have hb := (parAllMatch_calls counting 0 20 (fun v e => (decide (v ≤ 40), e + 1)) four_splits rfl (by simp) ⟨⟨trivial, fun _ _ _ => rfl⟩, fun _ _ _ => rfl⟩
    (fun _ _ _ => rfl) () 3 h1 h2).1.2 ⟨rfl, by
      intro xs hxs v hv
      simp at hxs
      rcases hxs with rfl | rfl <;> simp [Ops.arrivals, Ops.calls, counting] at hv <;> subst hv <;> rfl⟩
  subst hb
  obtain ⟨l', h3⟩ := parFirst_calls (s := ofSlice (E := Nat) digits ⟨false, 0, 0, 4, 4⟩ 2) 0 counting rfl four_splits ⟨⟨trivial, fun _ _ _ => rfl⟩, fun _ _ _ => rfl⟩ ()
    (counting.counts (s := ofSlice (E := Nat) digits ⟨false, 0, 0, 4, 4⟩ 2) ()) 0
  exact ⟨c.e, l', 20, 3, h3, n, c, v, h1, h2, rfl⟩

end Gds.Stream
