import Verif.Stream.ParTryEffectsProps
import Verif.Stream.ParEffectsExact

/-! Property C133: the theorems. -/
namespace Gds.Stream
variable {E T R : Type}

section
variable {s : Stm E T} {p : Ops E T R} {e₀ : E} {F : R → R → E → (R × Bool) × E} {ini z : R} {segs : List (List T)} {k : Nat}

theorem tryRun_inv (hs : Splits s k segs) (hk : segs.length = k) (hp : p.Steady) (hF : ∀ a v e e', (F a v e).1 = (F a v e').1) {l : s.L} {e : E} {n c}
    (hc : TryRun s p k z ini F l e n c) : ∃ m, n + m ≤ aheadT p segs + k + 2 ∧ ∃ tr, TryInv p e F ini segs k tr c m := by
  induction hc with
  | init => exact ⟨_, by omega, [], .init hs l⟩
  | step _ hst ih =>
    obtain ⟨m, hm, tr, hi⟩ := ih
    obtain ⟨tr', m', hlt, hi'⟩ := hi.step hp hF hk hst
    exact ⟨m', by omega, _, hi'⟩

/-- Beginnings, at any moment. -/
theorem TInv2.called {tr : List (Nat × Act E)} {sent ns : List Nat} {ws : List (TG s p)} {ca : Bool} {e : E} (h : TInv2 F ini e₀ segs tr sent ns ws ca e) :
    Called tr (segs.map (fun xs => (p.upto e₀ F ini xs).1)) (part segs.length tr) := by
  refine ⟨?_, ?_, by simp [part]⟩
  · intro x hx
    have := h.tags x hx
    have := h.started
    simp; omega
  · intro i acts hi
    rw [List.getElem?_map, Option.map_eq_some_iff] at hi
    obtain ⟨xs, hx, rfl⟩ := hi
    by_cases hlt : i < ws.length
    · obtain ⟨xs', todo, n, h1, -, -, h4, -⟩ := h.each i ws[i] (by simp [hlt])
      rw [hx] at h1
      cases h1
      exact ⟨_, h4⟩
    · have hi := (List.getElem?_eq_some_iff.1 hx).1
      have : part i tr = [] := by
        simp only [part, List.map_eq_nil_iff, List.filter_eq_nil_iff]
        intro x hx
        have := h.tags x hx
        simp; omega
      show part i tr <+: _
      rw [this]
      exact List.nil_prefix

/-- When all segments have sent their result, they have made all their calls. -/
theorem TInv2.complete {tr : List (Nat × Act E)} {sent ns : List Nat} {ws : List (TG s p)} {ca : Bool} {e : E} (h : TInv2 F ini e₀ segs tr sent ns ws ca e)
    (hlen : sent.length = segs.length) : Interleaves tr (segs.map (fun xs => (p.upto e₀ F ini xs).1) ++ [part segs.length tr]) ∧ sent.Perm (List.range segs.length) := by
  have h1 := h.sent_le
  have h2 := h.started
  have hsub : sent ⊆ List.range segs.length := fun i hi => List.mem_range.2 (by have := h.sent_lt i hi; omega)
  have hperm := (h.nodup.subperm hsub).perm_of_length_le (by simp; omega)
  refine ⟨⟨?_, ?_⟩, hperm⟩
  · intro x hx
    have := h.tags x hx
    simp; omega
  · intro i acts hi
    rcases Nat.lt_trichotomy i segs.length with hlt | hlt | hlt
    · rw [List.getElem?_append_left (by simpa using hlt), List.getElem?_map, Option.map_eq_some_iff] at hi
      obtain ⟨xs, hx, rfl⟩ := hi
      obtain ⟨xs', todo, n, k1, -, -, k4, -, k6⟩ := h.each i ws[i] (by simp)
      rw [hx] at k1
      cases k1
      rw [k6 (hperm.mem_iff.2 (List.mem_range.2 hlt)), List.append_nil] at k4
      exact k4
    · subst hlt
      rw [List.getElem?_append_right (by simp)] at hi
      simp at hi
      exact hi
    · rw [List.getElem?_eq_none (by simp; omega)] at hi
      simp at hi

end

/-- Parallel TryFold over `k` segments, on every schedule. The number of steps is bounded, and nothing is left hanging: the last
    state is one in which TryFold has returned and every goroutine has ended. At any moment the calls made are beginnings of
    what the segments do one by one, and what the calling goroutine does with the results `rs` of some of them. If it has
    returned true, every segment has made all its calls, none has refused, and the calling goroutine has called the callback
    once more for each of them. If it has returned false, some callback has refused. -/
theorem parTry_calls {s : Stm E T} (p : Ops E T R) {k : Nat} (z ini : R) (F : R → R → E → (R × Bool) × E) {segs : List (List T)}
    (hs : Splits s k segs) (hk : segs.length = k) (hp : p.Steady) (hF : ∀ a v e e', (F a v e).1 = (F a v e').1) (l : s.L) (e : E) :
    ∃ N, ∀ n c, TryRun s p k z ini F l e n c → n ≤ N ∧
      (((∃ v b, c.main = .ret v b) ∧ ∀ w ∈ c.ws, w = .exit) ∨ ∃ c', TryStep k z ini F c c') ∧
      ∃ (tr : List (Nat × Act E)) (rs : List R), c.e = perform (tr.map (·.2)) e ∧ (rs.map some).Subperm (segs.map (fun xs => (p.upto e F ini xs).2)) ∧
        Called tr (segs.map (fun xs => (p.upto e F ini xs).1)) ((Ops.source : Ops E R R).upto e F ini rs).1 ∧
        (∀ res, c.main = .ret res true → Interleaves tr (segs.map (fun xs => (p.upto e F ini xs).1) ++ [((Ops.source : Ops E R R).upto e F ini rs).1]) ∧
          (rs.map some).Perm (segs.map (fun xs => (p.upto e F ini xs).2)) ∧ ((Ops.source : Ops E R R).upto e F ini rs).2 = some res) ∧
        (∀ res, c.main = .ret res false → (∃ xs ∈ segs, (p.upto e F ini xs).2 = none) ∨
          ∃ rs : List R, (rs.map some).Subperm (segs.map (fun xs => (p.upto e F ini xs).2)) ∧ ((Ops.source : Ops E R R).upto e F ini rs).2 = none) := by
  refine ⟨aheadT p segs + k + 2, fun n c hc => ?_⟩
  obtain ⟨m, hm, tr, hi⟩ := tryRun_inv hs hk hp hF hc
  refine ⟨by omega, hi.can hp hk, tr, ?_⟩
  obtain ⟨sent, ns, hpi, hch, hcase⟩ := hi
  have hcd := hpi.called
  cases hg : c.main with
  | seg g =>
    rw [hg] at hcase
    refine ⟨[], hpi.env, by simp, ?_, by simp, by simp⟩
    rw [hcase.2.1] at hcd
    exact hcd
  | recv acc n v =>
    rw [hg] at hcase
    obtain ⟨h1, h2, h3, rs, h4, h5, h6, h7⟩ := hcase
    exact ⟨rs, hpi.env, hpi.received n h4, by rw [h5]; exact hcd, by simp, by simp⟩
  | ret res ok =>
    rw [hg] at hcase
    cases ok with
    | true =>
      obtain ⟨h1, h2, ⟨rs, h3, h4⟩, -⟩ := hcase
      obtain ⟨ha, hperm⟩ := hpi.complete (by omega)
      refine ⟨rs, hpi.env, hpi.received sent.length (by rw [List.take_length]; exact h3), by rw [h4]; exact hcd, ?_, by simp⟩
      intro res' hr
      obtain ⟨rfl, -⟩ := by simpa using hr
      exact ⟨by rw [h4]; exact ha, by rw [h3, outs]; exact hperm.map _, by rw [h4]⟩
    | false =>
      obtain ⟨h1, ⟨n, rs, h2, h3, h4⟩, h5, -⟩ := hcase
      exact ⟨rs, hpi.env, hpi.received n h3, by rw [h4]; exact hcd, by simp, fun _ _ => h5⟩

/-- Every run can be continued until TryFold has returned and every goroutine has ended. -/
theorem parTry_ends {s : Stm E T} (p : Ops E T R) {k : Nat} (z ini : R) (F : R → R → E → (R × Bool) × E) {segs : List (List T)}
    (hs : Splits s k segs) (hk : segs.length = k) (hp : p.Steady) (hF : ∀ a v e e', (F a v e).1 = (F a v e').1) (l : s.L) (e : E) {n c}
    (hc : TryRun s p k z ini F l e n c) : ∃ n' c', TryRun s p k z ini F l e n' c' ∧ (∃ v b, c'.main = .ret v b) ∧ ∀ w ∈ c'.ws, w = .exit := by
  obtain ⟨N, h⟩ := parTry_calls p z ini F hs hk hp hF l e
  induction hd : N - n using Nat.strongRecOn generalizing n c with
  | ind d ih =>
    obtain ⟨-, h2, -⟩ := h n c hc
    rcases h2 with h2 | ⟨c', h2⟩
    · exact ⟨n, c, hc, h2⟩
    · have h3 := (h _ _ (hc.step h2)).1
      exact ih _ (by omega) (hc.step h2) rfl

/-! ### AllMatch and AnyMatch -/

namespace Ops

theorem upto_all (e₀ : E) (p : Ops E T R) (q : R → E → Bool × E) (ini : R) (xs : List T) (h : ∀ v ∈ p.arrivals e₀ xs, (q v e₀).1 = true) :
    p.upto e₀ (allF q) ini xs = ((p.whole e₀ (fun (_ : Unit) v e => ((), (q v e).2)) () xs).1, some ini) := by
  induction xs with
  | nil => rfl
  | cons x xs ih =>
    rw [upto_cons, whole_cons]
    have h' : ∀ v ∈ p.arrivals e₀ xs, (q v e₀).1 = true := by
      intro v hv
      apply h v
      unfold arrivals at hv ⊢
      rw [List.filterMap_cons]
      split
      · exact hv
      · exact List.mem_cons_of_mem _ hv
    rcases hx : p.calls e₀ x with ⟨as, _ | v⟩
    · simp only [uptoRest, rest, ih h']
    · have hv : (q v e₀).1 = true := h v (by simp [arrivals, List.filterMap_cons, hx])
      simp only [uptoRest, uptoCont, rest, allF, hv, if_true]
      rw [show p.upto e₀ _ ini xs = _ from ih h']

theorem upto_not_all (e₀ : E) (p : Ops E T R) (q : R → E → Bool × E) (ini : R) (xs : List T) {v : R} (hv : v ∈ p.arrivals e₀ xs) (h : (q v e₀).1 = false) :
    (p.upto e₀ (allF q) ini xs).2 = none := by
  induction xs with
  | nil => simp [arrivals] at hv
  | cons x xs ih =>
    rw [upto_cons]
    unfold arrivals at hv ih
    rw [List.filterMap_cons] at hv
    rcases hx : p.calls e₀ x with ⟨as, _ | u⟩ <;> rw [hx] at hv
    · exact ih hv
    · by_cases hq : (q u e₀).1 = true
      · simp only [uptoRest, uptoCont, allF, hq, if_true]
        rcases List.mem_cons.1 hv with rfl | hv
        · rw [hq] at h; cases h
        · exact ih hv
      · simp [uptoRest, uptoCont, allF, hq]

end Ops

/-- The parallel AllMatch, from the TryFold on: it returns true exactly if the predicate holds of everything that arrives and
    of the element First has found (`ini`), and then every predicate has been called once for each element that reaches it, and
    the predicate of AllMatch once more per segment, with the element First has found. -/
theorem parAllMatch_calls {s : Stm E T} (p : Ops E T R) {k : Nat} (z ini : R) (q : R → E → Bool × E) {segs : List (List T)}
    (hs : Splits s k segs) (hk : segs.length = k) (hk0 : k ≠ 0) (hp : p.Steady) (hq : ∀ v e e', (q v e).1 = (q v e').1) (l : s.L) (e : E) {n c}
    (hc : TryRun s p k z ini (allF q) l e n c) {res b} (hv : c.main = .ret res b) :
    (b = true ↔ (q ini e).1 = true ∧ ∀ xs ∈ segs, ∀ v ∈ p.arrivals e xs, (q v e).1 = true) ∧
    (b = true → ∃ tr, Interleaves tr (segs.map (fun xs => (p.whole e (fun (_ : Unit) v e => ((), (q v e).2)) () xs).1) ++ [List.replicate k (fun e => (q ini e).2)]) ∧
      c.e = perform (tr.map (·.2)) e) := by
  obtain ⟨N, h0⟩ := parTry_calls p z ini (allF q) hs hk hp (fun a v e e' => by simp only [allF]; rw [hq v e e']) l e
  obtain ⟨-, -, tr, rs, henv, -, -, htrue, hfalse⟩ := h0 n c hc
  -- results are the element First has found
  have hres : ∀ xs r, (p.upto e (allF q) ini xs).2 = some r → r = ini := by
    intro xs r h
    by_cases hall : ∀ v ∈ p.arrivals e xs, (q v e).1 = true
    · rw [p.upto_all e q ini xs hall] at h
      exact (Option.some.inj h).symm
    · push Not at hall
      obtain ⟨v, hv, hqv⟩ := hall
      rw [p.upto_not_all e q ini xs hv (by simpa using hqv)] at h
      cases h
  have harr : ∀ rs : List R, (Ops.source : Ops E R R).arrivals e rs = rs := by intro rs; simp [Ops.arrivals, Ops.calls]
  have hmain : ∀ m, ((Ops.source : Ops E R R).whole e (fun (_ : Unit) v e => ((), (q v e).2)) () (List.replicate m ini)).1 = List.replicate m (fun e => (q ini e).2) := by
    intro m
    induction m with
    | zero => rfl
    | succ m ih => rw [List.replicate_succ, List.replicate_succ, Ops.whole]; simp only [Ops.calls, List.nil_append]; rw [ih]
  cases b with
  | true =>
    obtain ⟨h1, h2, h3⟩ := htrue res hv
    have hlen : rs.length = k := by simpa [hk] using h2.length_eq
    have hsome : ∀ xs ∈ segs, (p.upto e (allF q) ini xs).2 = some ini := by
      intro xs hxs
      have : (p.upto e (allF q) ini xs).2 ∈ rs.map some := h2.mem_iff.2 (List.mem_map_of_mem hxs)
      obtain ⟨r, -, hr⟩ := List.mem_map.1 this
      rw [← hr, hres xs r hr.symm]
    have hrs : rs = List.replicate k ini := by
      rw [List.eq_replicate_iff]
      refine ⟨hlen, fun r hr => ?_⟩
      have : some r ∈ segs.map (fun xs => (p.upto e (allF q) ini xs).2) := h2.mem_iff.1 (List.mem_map_of_mem hr)
      obtain ⟨xs, hxs, h⟩ := List.mem_map.1 this
      exact hres xs r h
    have hall : ∀ xs ∈ segs, ∀ v ∈ p.arrivals e xs, (q v e).1 = true := by
      intro xs hxs v hv
      by_contra hn
      have := p.upto_not_all e q ini xs hv (by simpa using hn)
      rw [hsome xs hxs] at this
      cases this
    have hini : (q ini e).1 = true := by
      by_contra hn
      have := (Ops.source : Ops E R R).upto_not_all e q ini rs (v := ini) (by rw [harr, hrs]; simp [hk0]) (by simpa using hn)
      rw [h3] at this
      cases this
    refine ⟨⟨fun _ => ⟨hini, hall⟩, fun _ => rfl⟩, fun _ => ⟨tr, ?_, henv⟩⟩
    have hm := (Ops.source : Ops E R R).upto_all e q ini rs (by rw [harr, hrs]; intro v hv; rw [List.eq_of_mem_replicate hv]; exact hini)
    rw [hm, hrs, hmain k] at h1
    have : segs.map (fun xs => (p.upto e (allF q) ini xs).1) = segs.map (fun xs => (p.whole e (fun (_ : Unit) v e => ((), (q v e).2)) () xs).1) :=
      List.map_congr_left (fun xs hxs => by rw [p.upto_all e q ini xs (hall xs hxs)])
    rw [this] at h1
    exact h1
  | false =>
    refine ⟨⟨fun h => (by cases h), ?_⟩, fun h => (by cases h)⟩
    rintro ⟨hini, hall⟩
    exfalso
    rcases hfalse res hv with ⟨xs, hxs, h⟩ | ⟨rs', h1, h2⟩
    · rw [p.upto_all e q ini xs (hall xs hxs)] at h
      cases h
    · rw [(Ops.source : Ops E R R).upto_all e q ini rs'] at h2
      · cases h2
      · rw [harr]
        intro r hr
        have : some r ∈ segs.map (fun xs => (p.upto e (allF q) ini xs).2) := h1.subset (List.mem_map_of_mem hr)
        obtain ⟨xs, hxs, h⟩ := List.mem_map.1 this
        rw [hres xs r h]
        exact hini

/-- AnyMatch is AllMatch of the negated predicate, with the answer negated. -/
theorem anyF_eq (q : R → E → Bool × E) : anyF q = allF (fun v e => (!(q v e).1, (q v e).2)) := rfl

/-- The parallel AnyMatch (it returns the negation of the flag `b` of the TryFold): true exactly if the predicate holds of something that
    arrives or of the element First has found; if it returns false, the calls are as for AllMatch. -/
theorem parAnyMatch_calls {s : Stm E T} (p : Ops E T R) {k : Nat} (z ini : R) (q : R → E → Bool × E) {segs : List (List T)}
    (hs : Splits s k segs) (hk : segs.length = k) (hk0 : k ≠ 0) (hp : p.Steady) (hq : ∀ v e e', (q v e).1 = (q v e').1) (l : s.L) (e : E) {n c}
    (hc : TryRun s p k z ini (anyF q) l e n c) {res b} (hv : c.main = .ret res b) :
    ((!b) = true ↔ (q ini e).1 = true ∨ ∃ xs ∈ segs, ∃ v ∈ p.arrivals e xs, (q v e).1 = true) ∧
    ((!b) = false → ∃ tr, Interleaves tr (segs.map (fun xs => (p.whole e (fun (_ : Unit) v e => ((), (q v e).2)) () xs).1) ++ [List.replicate k (fun e => (q ini e).2)]) ∧
      c.e = perform (tr.map (·.2)) e) := by
  obtain ⟨h1, h2⟩ := parAllMatch_calls p z ini (fun v e => (!(q v e).1, (q v e).2)) hs hk hk0 hp (fun v e e' => by simp only; rw [hq v e e']) l e hc hv
  refine ⟨?_, fun hb => h2 (by simpa using hb)⟩
  cases b with
  | true =>
    obtain ⟨h3, h4⟩ := h1.1 rfl
    simp only [Bool.not_true, Bool.false_eq_true, false_iff, not_or, not_exists, not_and]
    exact ⟨by simpa using h3, fun xs hxs v hv => by simpa using h4 xs hxs v hv⟩
  | false =>
    simp only [Bool.not_false, true_iff]
    by_contra hn
    simp only [not_or, not_exists, not_and] at hn
    have := h1.2 ⟨by simpa using hn.1, fun xs hxs v hv => by simpa using hn.2 xs hxs v hv⟩
    cases this

/-! ### With First -/

namespace Ops

/-- The answers being fixed, so are the calls. -/
theorem calls_steady (e e' : E) : ∀ {R : Type} (p : Ops E T R), p.Steady → p.calls e = p.calls e'
  | _, source, _ => rfl
  | _, map p f, h => by
    funext x
    rw [calls_map, calls_map, calls_steady e e' p h.1, show mapH e f = mapH e' f from by funext v; simp only [mapH]; rw [h.2 v e e']]
  | _, filter p q, h => by
    funext x
    rw [calls_filter, calls_filter, calls_steady e e' p h.1, show filterH e q = filterH e' q from by funext v; simp only [filterH]; rw [h.2 v e e']]
  | _, skipWhile p q, h => by
    funext x
    rw [calls_skipWhile, calls_skipWhile, calls_steady e e' p h.1, show skipWhileH e q = skipWhileH e' q from by funext v; simp only [skipWhileH]; rw [h.2 v e e']]
  | _, inspect p g, h => by
    funext x
    rw [calls_inspect, calls_inspect, calls_steady e e' p h]

theorem arrivals_steady (e e' : E) (p : Ops E T R) (h : p.Steady) (xs : List T) : p.arrivals e xs = p.arrivals e' xs := by
  rw [arrivals, arrivals, calls_steady e e' p h]

theorem whole_steady {A : Type} (e e' : E) (p : Ops E T R) (h : p.Steady) (F : A → R → E → A × E) (hF : ∀ a v e e', (F a v e).1 = (F a v e').1) (a : A) (xs : List T) :
    p.whole e F a xs = p.whole e' F a xs := by
  induction xs generalizing a with
  | nil => rfl
  | cons x xs ih =>
    rw [whole_cons, whole_cons, calls_steady e e' p h]
    rcases p.calls e' x with ⟨as, _ | v⟩
    · simp only [rest, ih]
    · simp only [rest, ih, hF a v e e']

theorem toFirst_arrivals (e₀ : E) (p : Ops E T R) (xs : List T) : (p.toFirst e₀ xs).2 = (p.arrivals e₀ xs).head? := by
  induction xs with
  | nil => rfl
  | cons x xs ih =>
    rw [toFirst, arrivals, List.filterMap_cons]
    rcases p.calls e₀ x with ⟨as, _ | v⟩
    · exact ih
    · rfl

theorem next_toFirst (e₀ : E) (p : Ops E T R) (h : p.Steady) (xs : List T) (c : p.stages.Count) (e : E) :
    ∃ ys, p.stages.next xs c e = ((p.toFirst e₀ xs).2, ys, c, perform (p.toFirst e₀ xs).1 e) := by
  induction xs generalizing e with
  | nil => exact ⟨[], rfl⟩
  | cons x xs ih =>
    rw [Stages.next, open_stages, one_calls e₀ p h, toFirst]
    rcases p.calls e₀ x with ⟨as, _ | v⟩
    · obtain ⟨ys, hy⟩ := ih (perform as e)
      exact ⟨ys, by simp only [perform_append]; exact hy⟩
    · exact ⟨xs, rfl⟩

end Ops

/-- First on a stream of any parallelism: the callbacks run on the elements of the first segment until one arrives. -/
theorem parFirst_calls {s : Stm E T} (z : R) (p : Ops E T R) {k : Nat} (hk : s.par = k) {xs : List T} {segs : List (List T)} (h : Splits s k (xs :: segs))
    (hp : p.Steady) (l : (p.stages.build s).L) {c} (hc : p.stages.Counts s l c) (e : E) :
    ∃ l', first z (p.stages.build s) l e =
      .ok ((match (p.arrivals e xs).head? with | some v => (v, true) | none => (z, false)), l', perform (p.toFirst e xs).1 e) := by
  cases h with
  | @cons _ g' st _ _ h hs r =>
    obtain ⟨st', l', h1, h2, -⟩ := p.stages.pulled (p.stages.at_segAs hs hc) e
    obtain ⟨ys, hn⟩ := p.next_toFirst e hp xs c e
    rw [hn] at h1
    refine ⟨l', ?_⟩
    rw [first, p.stages.build_par, hk, p.stages.build_activate, p.stages.build_seg l (h _ _), ← p.toFirst_arrivals]
    simp only [Res.bind_ok, Option.map_some, h1]
    cases (p.toFirst e xs).2 <;> rfl

/-- No counters in these pipelines. -/
theorem Ops.counts {s : Stm E T} : ∀ {R : Type} (p : Ops E T R) (l : (p.stages.build s).L), p.stages.Counts s l p.stages.zero
  | _, .source, _ => trivial
  | _, .map p _, l => counts p l
  | _, .filter p _, l => counts p l
  | _, .skipWhile p _, l => counts p l
  | _, .inspect p _, l => counts p l

/-- The whole of the parallel AllMatch. First has found something exactly if something arrives from the first segment; if not, AllMatch returns
    false, whatever the other segments hold. Otherwise it returns true exactly if the predicate holds of everything that arrives, and then the calls
    made are those of First, and after them an interleaving in which every callback is called once for each element that reaches it and the predicate
    once more per segment, with the element First has found. -/
theorem parAllMatch_whole {s : Stm E T} (p : Ops E T R) {k : Nat} (z : R) (q : R → E → Bool × E) {xs : List T} {segs : List (List T)} (hpar : s.par = k)
    (hs : Splits s k (xs :: segs)) (hk : (xs :: segs).length = k) (hp : p.Steady) (hq : ∀ v e e', (q v e).1 = (q v e').1) (lf : (p.stages.build s).L) (l : s.L) (e : E)
    {found ok e'} (h : MatchRun s p k z (allF q) lf l e found ok e') :
    (found = true ↔ p.arrivals e xs ≠ []) ∧ (found = false → ok = false ∧ e' = perform (p.toFirst e xs).1 e) ∧
    (found = true → (ok = true ↔ ∀ ys ∈ xs :: segs, ∀ v ∈ p.arrivals e ys, (q v e).1 = true)) ∧
    (ok = true → ∃ v tr, (p.arrivals e xs).head? = some v ∧
      Interleaves tr ((xs :: segs).map (fun ys => (p.whole e (fun (_ : Unit) v e => ((), (q v e).2)) () ys).1) ++ [List.replicate k (fun e => (q v e).2)]) ∧
      e' = perform (tr.map (·.2)) (perform (p.toFirst e xs).1 e)) := by
  obtain ⟨l', h1⟩ := parFirst_calls z p hpar hs hp lf (p.counts lf) e
  obtain ⟨l1, v, e1, h2, h3⟩ := h
  rw [h1] at h2
  cases hv : (p.arrivals e xs).head? with
  | none =>
    rw [hv] at h2
    obtain ⟨⟨rfl, rfl⟩, rfl, rfl⟩ := by simpa using h2
    obtain ⟨rfl, rfl⟩ := by simpa using h3
    simp at hv
    simp [hv]
  | some w =>
    rw [hv] at h2
    obtain ⟨⟨rfl, rfl⟩, rfl, rfl⟩ := by simpa using h2
    simp only [if_true] at h3
    obtain ⟨n, c, res, hc, hm, rfl⟩ := h3
    obtain ⟨h4, h5⟩ := parAllMatch_calls p z w q hs hk (by rw [← hk]; simp) hp hq l _ hc hm
    have hw : w ∈ p.arrivals e xs := List.mem_of_mem_head? hv
    refine ⟨by simp [List.ne_nil_of_mem hw], by simp, fun _ => ?_, fun hok => ?_⟩
    · rw [h4]
      constructor
      · rintro ⟨-, h⟩ ys hys v hv
        rw [hq v e (perform (p.toFirst e xs).1 e)]
        exact h ys hys v (by rw [p.arrivals_steady _ e hp]; exact hv)
      · intro h
        refine ⟨by rw [hq w _ e]; exact h xs (by simp) w hw, fun ys hys v hv => ?_⟩
        rw [hq v _ e]
        exact h ys hys v (by rw [p.arrivals_steady e (perform (p.toFirst e xs).1 e) hp]; exact hv)
    · obtain ⟨tr, h6, h7⟩ := h5 hok
      refine ⟨w, tr, rfl, ?_, h7⟩
      have hwh : ∀ ys, p.whole (perform (p.toFirst e xs).1 e) (fun (_ : Unit) v e => ((), (q v e).2)) () ys = p.whole e (fun (_ : Unit) v e => ((), (q v e).2)) () ys :=
        fun ys => p.whole_steady _ e hp _ (fun _ _ _ _ => rfl) () ys
      simpa only [hwh] using h6

/-- The whole of the parallel AnyMatch; it returns the negation of `ok`, or false if First has found nothing. -/
theorem parAnyMatch_whole {s : Stm E T} (p : Ops E T R) {k : Nat} (z : R) (q : R → E → Bool × E) {xs : List T} {segs : List (List T)} (hpar : s.par = k)
    (hs : Splits s k (xs :: segs)) (hk : (xs :: segs).length = k) (hp : p.Steady) (hq : ∀ v e e', (q v e).1 = (q v e').1) (lf : (p.stages.build s).L) (l : s.L) (e : E)
    {found ok e'} (h : MatchRun s p k z (anyF q) lf l e found ok e') :
    (found = true ↔ p.arrivals e xs ≠ []) ∧
    (found = true → ((!ok) = true ↔ ∃ ys ∈ xs :: segs, ∃ v ∈ p.arrivals e ys, (q v e).1 = true)) ∧
    (ok = true → ∃ v tr, (p.arrivals e xs).head? = some v ∧
      Interleaves tr ((xs :: segs).map (fun ys => (p.whole e (fun (_ : Unit) v e => ((), (q v e).2)) () ys).1) ++ [List.replicate k (fun e => (q v e).2)]) ∧
      e' = perform (tr.map (·.2)) (perform (p.toFirst e xs).1 e)) := by
  obtain ⟨h1, -, h3, h4⟩ := parAllMatch_whole p z (fun v e => (!(q v e).1, (q v e).2)) hpar hs hk hp (fun v e e' => by simp only; rw [hq v e e']) lf l e h
  refine ⟨h1, fun hf => ?_, h4⟩
  have h3 := h3 hf
  cases ok with
  | true =>
    have := h3.1 rfl
    simp only [Bool.not_true, Bool.false_eq_true, false_iff, not_exists, not_and]
    exact fun ys hys v hv => by simpa using this ys hys v hv
  | false =>
    simp only [Bool.not_false, true_iff]
    by_contra hn
    simp only [not_exists, not_and] at hn
    have := h3.2 (fun ys hys v hv => by simpa using hn ys hys v hv)
    cases this

end Gds.Stream
