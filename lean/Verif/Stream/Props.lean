import Verif.Stream.Pipe
import Mathlib.Algebra.BigOperators.Group.List.Basic

/-! C32–C40: sequential streams.  Statements about pipelines of any shape (`Pipe`, Spec.lean), whose
contents `vals` are defined with the standard list functions only. -/

namespace Gds.Stream

variable {E T R U : Type}

/-- The pipeline contains no `Inspect`, so delivering elements has no side effect. -/
def Pipe.NoInspect {E : Type} : {T : Type} → Pipe E T → Prop
  | _, .src _ _ _ _ => True
  | _, .map p _ => p.NoInspect
  | _, .filter p _ => p.NoInspect
  | _, .inspect _ _ => False
  | _, .zip _ p q => p.NoInspect ∧ q.NoInspect
  | _, .chain ps => ∀ i, (ps i).NoInspect
  | _, .flatMap p f => p.NoInspect ∧ ∀ t, (f t).NoInspect
  | _, .take p _ => p.NoInspect
  | _, .skip p _ => p.NoInspect
  | _, .skipWhile p _ => p.NoInspect
  | _, .enumerate p => p.NoInspect

/-- No effect anywhere. -/
def Body.Silent (b : Body E T) : Prop := (∀ it ∈ b.items, it.1 = id) ∧ b.fin = id

theorem Body.silent_after {b : Body E T} (h : b.Silent) : (b.after id).Silent := by
  obtain ⟨_ | ⟨⟨g, x⟩, r⟩, fin⟩ := b
  · exact ⟨by simp [Body.after], by simp [Body.after]; exact h.2⟩
  · refine ⟨?_, h.2⟩
    intro it hit
    simp only [Body.after, List.mem_cons] at hit
    rcases hit with rfl | hit
    · have := h.1 (g, x) (by simp); simpa using this
    · exact h.1 it (by simp [hit])

theorem Body.silent_append {b c : Body E T} (h : b.Silent) (h' : c.Silent) : (b.append c).Silent := by
  have h2 := Body.silent_after h'
  unfold Body.append
  rw [h.2]
  refine ⟨?_, h2.2⟩
  intro it hit
  simp only [List.mem_append] at hit
  rcases hit with hit | hit
  · exact h.1 it hit
  · exact h2.1 it hit

theorem Body.silent_filter (q : T → Bool) {its : List ((E → E) × T)} (h : ∀ it ∈ its, it.1 = id) :
    (Body.filter q its id).Silent := by
  induction its with
  | nil => exact ⟨by simp [Body.filter], rfl⟩
  | cons it its ih =>
    obtain ⟨f, x⟩ := it
    have hf : f = id := h (f, x) (by simp)
    subst hf
    have ih' := ih (fun it hit => h it (by simp [hit]))
    unfold Body.filter
    split
    · refine ⟨?_, ih'.2⟩
      intro it hit
      simp only [Body.cons, List.mem_cons] at hit
      rcases hit with rfl | hit
      · rfl
      · exact ih'.1 it hit
    · exact Body.silent_after ih'

theorem Body.silent_take (n : Nat) {its : List ((E → E) × T)} (h : ∀ it ∈ its, it.1 = id) :
    (Body.take n its id).Silent := by
  induction its generalizing n with
  | nil => cases n <;> exact ⟨by simp [Body.take], rfl⟩
  | cons it its ih =>
    cases n with
    | zero => exact ⟨by simp [Body.take], rfl⟩
    | succ n =>
      have ih' := ih n (fun it hit => h it (by simp [hit]))
      refine ⟨?_, ih'.2⟩
      intro i hit
      simp only [Body.take, Body.cons, List.mem_cons] at hit
      rcases hit with rfl | hit
      · exact h _ (by simp)
      · exact ih'.1 i hit

theorem Body.silent_drop (n : Nat) {its : List ((E → E) × T)} (h : ∀ it ∈ its, it.1 = id) :
    (Body.drop n its id).Silent := by
  induction its generalizing n with
  | nil => cases n <;> exact ⟨by simp [Body.drop], rfl⟩
  | cons it its ih =>
    cases n with
    | zero => exact ⟨h, rfl⟩
    | succ n =>
      have ih' := ih n (fun it hit => h it (by simp [hit]))
      have : it.1 = id := h it (by simp)
      unfold Body.drop
      rw [show it.1 = id from this]
      exact Body.silent_after ih'

theorem Body.silent_zip (z : T × R) {its : List ((E → E) × T)} {its2 : List ((E → E) × R)}
    (h : ∀ it ∈ its, it.1 = id) (h2 : ∀ it ∈ its2, it.1 = id) : (Body.zip z its id its2 id).Silent := by
  induction its generalizing its2 with
  | nil =>
    cases its2 with
    | nil => exact ⟨by simp [Body.zip], by simp [Body.zip]⟩
    | cons it2 its2 =>
      obtain ⟨f, x⟩ := it2
      have : f = id := h2 (f, x) (by simp)
      subst this
      exact ⟨by simp [Body.zip], by simp [Body.zip]⟩
  | cons it its ih =>
    obtain ⟨f, x⟩ := it
    have : f = id := h (f, x) (by simp)
    subst this
    cases its2 with
    | nil =>
      refine ⟨?_, rfl⟩
      intro i hit
      simp only [Body.zip, Body.cons, List.mem_cons, List.mem_map] at hit
      rcases hit with rfl | ⟨j, hj, rfl⟩
      · rfl
      · exact h j (by simp [hj])
    | cons it2 its2 =>
      obtain ⟨g, y⟩ := it2
      have : g = id := h2 (g, y) (by simp)
      subst this
      have ih' := ih (its2 := its2) (fun it hit => h it (by simp [hit])) (fun it hit => h2 it (by simp [hit]))
      refine ⟨?_, ih'.2⟩
      intro i hit
      simp only [Body.zip, Body.cons, List.mem_cons] at hit
      rcases hit with rfl | hit
      · rfl
      · exact ih'.1 i hit

theorem Body.silent_number (k : Int) {its : List ((E → E) × T)} (h : ∀ it ∈ its, it.1 = id) :
    ∀ it ∈ Body.number k its, it.1 = id := by
  induction its generalizing k with
  | nil => simp [Body.number]
  | cons it its ih =>
    intro i hit
    simp only [Body.number, List.mem_cons] at hit
    rcases hit with rfl | hit
    · exact h _ (List.mem_cons_self)
    · exact ih (k + 1) (fun it hit => h it (by simp [hit])) i hit

/-- No effect anywhere. -/
def Trace.Silent (t : Trace E T) : Prop := t.start = id ∧ t.body.Silent

theorem Trace.silent_bindRest {k : T → Trace E U} (hk : ∀ t, (k t).Silent) {its : List ((E → E) × T)}
    (h : ∀ it ∈ its, it.1 = id) {cur : Body E U} (hc : cur.Silent) : (Trace.bindRest k its id cur).Silent := by
  induction its generalizing cur with
  | nil => exact Body.silent_append hc ⟨by simp, rfl⟩
  | cons it its ih =>
    have h1 : it.1 = id := h it (by simp)
    unfold Trace.bindRest
    rw [show it.1 = id from h1, (hk _).1]
    exact Body.silent_append hc (Body.silent_after (ih (fun it hit => h it (by simp [hit])) (hk _).2))

theorem Pipe.silent {T : Type} (p : Pipe E T) (hp : p.NoInspect) : p.trace.Silent := by
  induction p with
  | src s xs z h => exact ⟨rfl, by simp [Pipe.trace, Body.pure], rfl⟩
  | map p f ih =>
    obtain ⟨h1, h2, h3⟩ := ih hp
    refine ⟨h1, ?_, h3⟩
    intro it hit
    simp only [Pipe.trace, List.mem_map] at hit
    obtain ⟨j, hj, rfl⟩ := hit
    exact h2 j hj
  | filter p q ih =>
    obtain ⟨h1, h2, h3⟩ := ih hp
    refine ⟨h1, ?_⟩
    rw [Pipe.trace, h3]; exact Body.silent_filter q h2
  | inspect p g ih => exact hp.elim
  | zip z p q ih1 ih2 =>
    obtain ⟨h1, h2, h3⟩ := ih1 hp.1
    obtain ⟨g1, g2, g3⟩ := ih2 hp.2
    rw [Pipe.trace, h3, g3, h1, g1]
    exact ⟨rfl, Body.silent_zip z h2 g2⟩
  | @chain V n ps ih =>
    rw [Pipe.trace]
    have : ∀ ts : List (Trace E V), (∀ t ∈ ts, t.Silent) → (Trace.chain ts).Silent := by
      intro ts
      induction ts with
      | nil => intro _; exact ⟨rfl, by simp [Trace.chain], rfl⟩
      | cons t ts iht =>
        intro h
        have h1 := h t (by simp)
        have h2 := iht (fun t ht => h t (by simp [ht]))
        refine ⟨?_, Body.silent_append h1.2 h2.2⟩
        simp [Trace.chain, h1.1, h2.1]
    apply this
    intro t ht
    rw [List.mem_ofFn] at ht
    obtain ⟨i, rfl⟩ := ht
    exact ih i (hp i)
  | flatMap p f ih1 ih2 =>
    obtain ⟨h1, h2, h3⟩ := ih1 hp.1
    have hk : ∀ t, (f t).trace.Silent := fun t => ih2 t (hp.2 t)
    rw [Pipe.trace, Trace.bind]
    split
    · exact ⟨by simp [h1, h3], by simp, rfl⟩
    · next g x r heq =>
      rw [heq] at h2
      have hg : g = id := h2 (g, x) (by simp)
      rw [h3]
      exact ⟨by simp [h1, hg, (hk x).1], Trace.silent_bindRest hk (fun it hit => h2 it (by simp [hit])) (hk x).2⟩
  | take p n ih =>
    obtain ⟨h1, h2, h3⟩ := ih hp
    rw [Pipe.trace, h3, h1]; exact ⟨rfl, Body.silent_take _ h2⟩
  | skip p n ih =>
    obtain ⟨h1, h2, h3⟩ := ih hp
    rw [Pipe.trace, h3, h1]; exact ⟨rfl, Body.silent_drop _ h2⟩
  | skipWhile p q ih =>
    obtain ⟨h1, h2, h3⟩ := ih hp
    rw [Pipe.trace, h3, h1]; exact ⟨rfl, Body.silent_filter _ h2⟩
  | enumerate p ih =>
    obtain ⟨h1, h2, h3⟩ := ih hp
    rw [Pipe.trace, h3, h1]; exact ⟨rfl, Body.silent_number _ h2, rfl⟩

theorem collect_silent {s : Stm E T} (hs : s.par = 0) (c : T → E → E) {l tr l' z} (h : Runs s 0 l tr l' z)
    (ht : tr.Silent) {e : E} : collect s c l e = .ok (l', tr.vals.foldl (fun e x => c x e) e) := by
  rw [← hs] at h
  rw [collect_run c h, run_of_pure c _ ht.1 ht.2.1 ht.2.2]

/-! ### C32, C37: contents -/

/-- C37: FoldWith over a pipeline with parallelism 0 is the left fold over its contents, in order. -/
theorem foldWith_pipeline (p : Pipe E T) (hz : p.Fits) (f : R → T → R) (a : R) (e : E) :
    ∃ l' e', foldWith p.stm a f p.stm.init e = .ok (p.vals.foldl f a, l', e') := by
  obtain ⟨l', h⟩ := p.runs hz
  rw [← p.par_zero] at h
  exact ⟨l', _, by rw [foldWith_run f h, p.vals_trace]⟩

theorem foldl_snoc (xs acc : List T) : xs.foldl (fun acc x => acc ++ [x]) acc = acc ++ xs := by
  induction xs generalizing acc with
  | nil => simp
  | cons x xs ih => simp [ih]

/-- C32, exactly what a pipeline delivers: accumulating it into a list gives `vals`, that is map,
    filter, append and flatMap of the contents of its parts, and for Zip the pairs followed by one
    zero pair for every surplus element of the left side. -/
theorem pipeline_elements (p : Pipe E T) (hz : p.Fits) (e : E) :
    ∃ l' e', foldWith p.stm [] (fun acc x => acc ++ [x]) p.stm.init e = .ok (p.vals, l', e') := by
  obtain ⟨l', e', h⟩ := foldWith_pipeline p hz (fun acc x => acc ++ [x]) [] e
  exact ⟨l', e', by rw [h, foldl_snoc]; rfl⟩

/-- C32, C37: Collect calls the consumer once on each element of `vals`, in order (pipelines without
    Inspect: nothing else happens). -/
theorem collect_pipeline (p : Pipe E T) (hz : p.Fits) (hp : p.NoInspect) (c : T → E → E) (e : E) :
    ∃ l', collect p.stm c p.stm.init e = .ok (l', p.vals.foldl (fun e x => c x e) e) := by
  obtain ⟨l', h⟩ := p.runs hz
  rw [← p.par_zero] at h
  obtain ⟨s1, s2, s3⟩ := p.silent hp
  exact ⟨l', by rw [collect_run c h, run_of_pure c _ s1 s2 s3, p.vals_trace]⟩

/-- C32: with Inspect anywhere in the pipeline, Collect's effect is that of the trace: the consumer
    still gets exactly `vals`, and the effect in front of an element happens before its delivery. -/
theorem collect_pipeline_effects (p : Pipe E T) (hz : p.Fits) (c : T → E → E) (e : E) :
    p.trace.vals = p.vals ∧ ∃ l', collect p.stm c p.stm.init e = .ok (l', p.trace.run c e) := by
  obtain ⟨l', h⟩ := p.runs hz
  rw [← p.par_zero] at h
  exact ⟨p.vals_trace, l', collect_run c h e⟩

/-- C32: Inspect runs its callback exactly once per delivered element, immediately before it is
    delivered: collecting `Inspect(s, g)` with `c` is collecting `s` with "g, then c". -/
theorem inspect_before_delivery (p : Pipe E T) (hz : p.Fits) (g c : T → E → E) (e : E) :
    collect (inspect p.stm g) c p.stm.init e = collect p.stm (fun x e => c x (g x e)) p.stm.init e := by
  obtain ⟨l', h⟩ := p.runs hz
  have h' := inspect_runs g h
  rw [← p.par_zero] at h
  rw [← p.par_zero] at h'
  rw [collect_run _ h, collect_run (s := inspect p.stm g) _ h']
  congr 2
  simp only [Trace.run, Body.run, List.foldl_map]
  rfl

/-- C37: Sum is the sum (in the element type's own, possibly wrapping, addition). -/
theorem sum_pipeline [Add T] [Zero T] (p : Pipe E T) (hz : p.Fits) (e : E) :
    ∃ l' e', sum p.stm p.stm.init e = .ok (p.vals.foldl (· + ·) 0, l', e') :=
  foldWith_pipeline p hz _ 0 e

theorem sum_pipeline_monoid [AddMonoid T] (p : Pipe E T) (hz : p.Fits) (e : E) :
    ∃ l' e', sum p.stm p.stm.init e = .ok (p.vals.sum, l', e') := by
  obtain ⟨l', e', h⟩ := sum_pipeline p hz e
  exact ⟨l', e', by rw [h, List.sum_eq_foldl]⟩

/-- C37: Fold. -/
theorem fold_pipeline (p : Pipe E T) (hz : p.Fits) (f : T → T → T) (a : T) (e : E) :
    ∃ l' e', fold p.stm a f p.stm.init e = .ok (p.vals.foldl f a, l', e') :=
  foldWith_pipeline p hz f a e

/-- C37: ReduceWith. -/
theorem reduceWith_pipeline (p : Pipe E T) (hz : p.Fits) (f : R → T → R) (a : R) (e : E) :
    ∃ l' e', reduceWith p.stm a f p.stm.init e = .ok (p.vals.foldl f a, l', e') :=
  foldWith_pipeline p hz f a e

/-! ### C33: Take -/

/-- C33 (first activation): the first `n` elements are delivered. -/
theorem take_first_activation_partial (p : Pipe E T) (hz : p.Fits) (hp : p.NoInspect) (n : Int) (c : T → E → E) (e : E) :
    ∃ l', collect (take p.stm n) c (take p.stm n).init e =
      .ok (l', (p.vals.take n.toNat).foldl (fun e x => c x e) e) :=
  collect_pipeline (.take p n) hz hp c e

/-- C33, what a second Collect of the same `Take(s, n)` delivers: only the first
    `n - min n len` elements. -/
theorem take_second_activation (p : Pipe E T) (hz : p.Fits) (hc : p.NoCounter) (hp : p.NoInspect) (n : Int)
    (c c' : T → E → E) (e e' : E) :
    ∃ l1 l2, collect (take p.stm n) c (take p.stm n).init e =
        .ok (l1, (p.vals.take n.toNat).foldl (fun e x => c x e) e) ∧
      collect (take p.stm n) c' l1 e' =
        .ok (l2, (p.vals.take (n.toNat - p.vals.length)).foldl (fun e x => c' x e) e') := by
  obtain ⟨l', h⟩ := p.replays hz hc p.stm.init
  obtain ⟨l3, h3⟩ := take_runs n h 0
  obtain ⟨l4, h4⟩ := p.replays hz hc l3
  obtain ⟨l5, h5⟩ := take_runs n h4 (0 + Min.min (n - 0).toNat p.trace.body.items.length)
  obtain ⟨s1, s2, s3⟩ := p.silent hp
  have hlen : p.trace.body.items.length = p.vals.length := by
    rw [← p.vals_trace]; simp [Trace.vals, Body.vals]
  have e1 : (n - (0 + ((Min.min (n - 0).toNat p.trace.body.items.length : Nat) : Int))).toNat =
      n.toNat - p.vals.length := by omega
  rw [s1, s3] at h3
  rw [e1, s1, s3] at h5
  have A := collect_silent (s := take p.stm n) (Pipe.par_zero (.take p n)) c h3 ⟨rfl, Body.silent_take _ s2⟩ (e := e)
  have B := collect_silent (s := take p.stm n) (Pipe.par_zero (.take p n)) c' h5 ⟨rfl, Body.silent_take _ s2⟩ (e := e')
  simp only [Trace.vals, Body.vals_take] at A B
  have hv : p.trace.body.items.map Prod.snd = p.vals := p.vals_trace
  rw [hv, show (n - 0).toNat = n.toNat by omega] at A
  rw [hv, show (n - 0).toNat = n.toNat by omega] at B
  exact ⟨_, _, A, B⟩

/-- Elements of a test slice in memory. -/
def demoMem (xs : List Int) : Slice.Mem Int :=
  { cell := fun _ k => xs.getD k 0, size := fun _ => xs.length, next := 1 }

/-- A slice holding `xs`. -/
def demo (E : Type) (xs : List Int) : Pipe E Int :=
  .slice (demoMem xs) { arr := 0, off := 0, len := xs.length, cap := xs.length }

theorem demo_vals (xs : List Int) : (demo E xs).vals = xs := by
  simp only [demo, Pipe.slice, Pipe.vals, Slice.Mem.view, demoMem]
  apply List.ext_getElem
  · simp
  · intro i h1 h2
    simp at h1
    simp [List.getElem?_eq_getElem h1]

/-- C33 as stated ("every activation delivers the first n") is false: the counter survives. -/
theorem take_refuted :
    ¬ ∀ (p : Pipe (List Int) Int) (_ : p.Fits) (_ : p.NoCounter) (_ : p.NoInspect) (n : Int) (l1 : (take p.stm n).L) (e1 : List Int),
      collect (take p.stm n) (fun x e => e ++ [x]) (take p.stm n).init [] = .ok (l1, e1) →
      ∃ l2, collect (take p.stm n) (fun x e => e ++ [x]) l1 [] = .ok (l2, p.vals.take n.toNat) := by
  intro h
  obtain ⟨l1, l2, h1, h2⟩ := take_second_activation (demo (List Int) [7, 8, 9]) trivial trivial trivial 2
    (fun x e => e ++ [x]) (fun x e => e ++ [x]) [] []
  obtain ⟨l3, h3⟩ := h (demo (List Int) [7, 8, 9]) trivial trivial trivial 2 l1 _ h1
  rw [h2] at h3
  rw [demo_vals] at h3
  simp at h3

/-! ### C34: Skip -/

/-- C34, exactly what Skip does on its first activation: it drops `n - 1` elements. -/
theorem skip_exact (p : Pipe E T) (hz : p.Fits) (hp : p.NoInspect) (n : Int) (c : T → E → E) (e : E) :
    ∃ l', collect (skip p.stm n) c (skip p.stm n).init e =
      .ok (l', (p.vals.drop (n - 1).toNat).foldl (fun e x => c x e) e) :=
  collect_pipeline (.skip p n) hz hp c e

/-- C34 holds where dropping n-1 and dropping n agree: n ≤ 0, or everything is dropped anyway. -/
theorem skip_partial (p : Pipe E T) (hz : p.Fits) (hp : p.NoInspect) (n : Int) (hn : n ≤ 0 ∨ (p.vals.length : Int) < n)
    (c : T → E → E) (e : E) :
    ∃ l', collect (skip p.stm n) c (skip p.stm n).init e =
      .ok (l', (p.vals.drop n.toNat).foldl (fun e x => c x e) e) := by
  obtain ⟨l', h⟩ := skip_exact p hz hp n c e
  refine ⟨l', ?_⟩
  rw [h]
  congr 3
  rcases hn with hn | hn
  · rw [show (n - 1).toNat = 0 by omega, show n.toNat = 0 by omega]
  · rw [List.drop_eq_nil_of_le (by omega), List.drop_eq_nil_of_le (by omega)]

/-- C34 as stated is false: Skip([7,8,9], 2) delivers 8, 9. -/
theorem skip_refuted :
    ¬ ∀ (p : Pipe (List Int) Int) (_ : p.Fits) (_ : p.NoInspect) (n : Int), ∃ l',
      collect (skip p.stm n) (fun x e => e ++ [x]) (skip p.stm n).init [] = .ok (l', p.vals.drop n.toNat) := by
  intro h
  obtain ⟨l', h1⟩ := h (demo (List Int) [7, 8, 9]) trivial trivial 2
  obtain ⟨l'', h2⟩ := skip_exact (demo (List Int) [7, 8, 9]) trivial trivial 2 (fun x e => e ++ [x]) []
  rw [h2, demo_vals] at h1
  simp at h1

/-- C34: a second Collect of the same `Skip(s, n)` drops only `n - 1 - len` elements. -/
theorem skip_second_activation (p : Pipe E T) (hz : p.Fits) (hc : p.NoCounter) (hp : p.NoInspect) (n : Int)
    (c c' : T → E → E) (e e' : E) :
    ∃ l1 l2, collect (skip p.stm n) c (skip p.stm n).init e =
        .ok (l1, (p.vals.drop (n - 1).toNat).foldl (fun e x => c x e) e) ∧
      collect (skip p.stm n) c' l1 e' =
        .ok (l2, (p.vals.drop (n - 1 - p.vals.length).toNat).foldl (fun e x => c' x e) e') := by
  obtain ⟨l', h⟩ := p.replays hz hc p.stm.init
  have h3 := skip_runs n h 0
  obtain ⟨l4, h4⟩ := p.replays hz hc l'
  have h5 := skip_runs n h4 (0 + p.trace.body.items.length)
  obtain ⟨s1, s2, s3⟩ := p.silent hp
  have hlen : p.trace.body.items.length = p.vals.length := by
    rw [← p.vals_trace]; simp [Trace.vals, Body.vals]
  rw [s1, s3] at h3
  rw [s1, s3] at h5
  have A := collect_silent (s := skip p.stm n) (Pipe.par_zero (.skip p n)) c h3 ⟨rfl, Body.silent_drop _ s2⟩ (e := e)
  have B := collect_silent (s := skip p.stm n) (Pipe.par_zero (.skip p n)) c' h5 ⟨rfl, Body.silent_drop _ s2⟩ (e := e')
  simp only [Trace.vals, Body.vals_drop] at A B
  have hv : p.trace.body.items.map Prod.snd = p.vals := p.vals_trace
  rw [hv, show (n - 1 - 0).toNat = (n - 1).toNat by omega] at A
  rw [hv, show (n - 1 - (0 + (p.trace.body.items.length : Int))).toNat = (n - 1 - p.vals.length).toNat by omega] at B
  exact ⟨_, _, A, B⟩

/-! ### C35: SkipWhile -/

/-- C35, exactly what SkipWhile does: it removes every element satisfying `q`. -/
theorem skipWhile_exact (p : Pipe E T) (hz : p.Fits) (hp : p.NoInspect) (q : T → Bool) (c : T → E → E) (e : E) :
    ∃ l', collect (skipWhile p.stm q) c (skipWhile p.stm q).init e =
      .ok (l', (p.vals.filter (fun x => !q x)).foldl (fun e x => c x e) e) :=
  collect_pipeline (.skipWhile p q) hz hp c e

/-- C35 holds when no element after the prefix satisfies `q`. -/
theorem skipWhile_partial (p : Pipe E T) (hz : p.Fits) (hp : p.NoInspect) (q : T → Bool)
    (hq : ∀ x ∈ p.vals.dropWhile q, q x = false) (c : T → E → E) (e : E) :
    ∃ l', collect (skipWhile p.stm q) c (skipWhile p.stm q).init e =
      .ok (l', (p.vals.dropWhile q).foldl (fun e x => c x e) e) := by
  obtain ⟨l', h⟩ := skipWhile_exact p hz hp q c e
  refine ⟨l', ?_⟩
  rw [h]
  congr 3
  have := List.takeWhile_append_dropWhile (p := q) (l := p.vals)
  conv_lhs => rw [← this]
  rw [List.filter_append]
  have h1 : List.filter (fun x => !q x) (p.vals.takeWhile q) = [] := by
    rw [List.filter_eq_nil_iff]
    intro a ha
    have := List.all_takeWhile (p := q) (l := p.vals)
    rw [List.all_eq_true] at this
    simp [this a ha]
  have h2 : List.filter (fun x => !q x) (p.vals.dropWhile q) = p.vals.dropWhile q := by
    rw [List.filter_eq_self]
    intro a ha
    simp [hq a ha]
  rw [h1, h2]; rfl

/-- C35 as stated is false: SkipWhile([1,2,1], = 1) delivers only 2. -/
theorem skipWhile_refuted :
    ¬ ∀ (p : Pipe (List Int) Int) (_ : p.Fits) (_ : p.NoInspect) (q : Int → Bool), ∃ l',
      collect (skipWhile p.stm q) (fun x e => e ++ [x]) (skipWhile p.stm q).init [] =
        .ok (l', p.vals.dropWhile q) := by
  intro h
  obtain ⟨l', h1⟩ := h (demo (List Int) [1, 2, 1]) trivial trivial (fun x => x == 1)
  obtain ⟨l'', h2⟩ := skipWhile_exact (demo (List Int) [1, 2, 1]) trivial trivial (fun x => x == 1) (fun x e => e ++ [x]) []
  rw [h2, demo_vals] at h1
  simp at h1

/-! ### C36: Enumerate, sequentially -/

/-- C36: sequentially the i-th element (from 1) is delivered with index i. -/
theorem enumerate_sequential (p : Pipe E T) (hz : p.Fits) (hp : p.NoInspect) (c : Int × T → E → E) (e : E) :
    ∃ (l' : _) (ys : List (Int × T)), collect (enumerate p.stm) c (enumerate p.stm).init e = .ok (l', ys.foldl (fun e x => c x e) e) ∧
      ys.map Prod.snd = p.vals ∧ ys.map Prod.fst = (List.range p.vals.length).map (fun k => (k : Int) + 1) := by
  obtain ⟨l', h⟩ := collect_pipeline (.enumerate p) hz hp c e
  refine ⟨l', _, h, ?_, ?_⟩
  · apply List.ext_getElem
    · simp [Pipe.vals]
    · intro i h1 h2; simp [Pipe.vals]
  · apply List.ext_getElem
    · simp [Pipe.vals]
    · intro i h1 h2; simp [Pipe.vals]

/-! ### First and the operations that activate twice -/

theorem first_run (z : T) {s : Stm E T} {l tr l' z0} (h : Runs s s.par l tr l' z0) (e : E) :
    ∃ l1 e1, first z s l e = .ok ((tr.vals.head?.getD z, !tr.vals.isEmpty), l1, e1) := by
  obtain ⟨g1, st, l1, st', h1, h2, h3, _⟩ := h
  unfold first
  simp only [h1, Res.bind_ok, Trace.vals, Body.vals]
  generalize tr.body.items = its at h2
  cases h2 with
  | done hd => exact ⟨l', tr.body.fin (tr.start e), by simp [hd]⟩
  | next hn r => exact ⟨_, _, by simp [hn]; exact ⟨rfl, rfl⟩⟩

/-- First of a pipeline is its first element, or (zero,false). -/
theorem first_pipeline (z : T) (p : Pipe E T) (hz : p.Fits) (e : E) :
    ∃ l1 e1, first z p.stm p.stm.init e = .ok ((p.vals.head?.getD z, !p.vals.isEmpty), l1, e1) := by
  obtain ⟨l', h⟩ := p.runs hz
  rw [← p.par_zero] at h
  rw [← p.vals_trace]
  exact first_run z h e

theorem maxBy_run (z : T) (f : T → T → T) (p : Pipe E T) (hz : p.Fits) (hc : p.NoCounter) (l : p.stm.L) (e : E) :
    ∃ l1 e1, maxBy z p.stm f l e =
      .ok (match p.vals with | [] => z | x :: xs => (x :: xs).foldl f x, l1, e1) := by
  obtain ⟨l', h⟩ := p.replays hz hc l
  have hpar := p.par_zero
  rw [← hpar] at h
  obtain ⟨l1, e1, h1⟩ := first_run z h e
  obtain ⟨l2, h2⟩ := p.replays hz hc l1
  rw [← hpar] at h2
  have h3 := fun a => foldWith_run f h2 a e1
  rw [p.vals_trace] at h1 h3
  unfold maxBy
  rw [h1]
  cases hv : p.vals with
  | nil => exact ⟨l1, e1, by simp⟩
  | cons x xs =>
    rw [hv] at h3
    exact ⟨l2, _, by simp [h3]; rfl⟩

theorem reduce_eq_maxBy : @reduce E T = @maxBy E T := rfl

/-! ### C38: Reduce -/

/-- C38, exactly what Reduce computes on a stream without counters: the first element is combined with
    *all* elements, itself included; zero value when empty. -/
theorem reduce_exact (z : T) (f : T → T → T) (p : Pipe E T) (hz : p.Fits) (hc : p.NoCounter) (e : E) :
    ∃ l1 e1, reduce z p.stm f p.stm.init e =
      .ok (match p.vals with | [] => z | x :: xs => (x :: xs).foldl f x, l1, e1) :=
  maxBy_run z f p hz hc _ e

/-- C38 where it holds: combining the first element with itself gives itself (idempotent operators). -/
theorem reduce_partial (z : T) (f : T → T → T) (p : Pipe E T) (hz : p.Fits) (hc : p.NoCounter) (x : T) (xs : List T)
    (hv : p.vals = x :: xs) (hx : f x x = x) (e : E) :
    ∃ l1 e1, reduce z p.stm f p.stm.init e = .ok (xs.foldl f x, l1, e1) := by
  obtain ⟨l1, e1, h⟩ := reduce_exact z f p hz hc e
  rw [hv] at h
  exact ⟨l1, e1, by rw [h]; simp [hx]⟩

/-- C38 as stated is false: Reduce([1,2], +) is 4. -/
theorem reduce_refuted :
    ¬ ∀ (p : Pipe Unit Int) (_ : p.Fits) (_ : p.NoCounter) (f : Int → Int → Int) (x : Int) (xs : List Int), p.vals = x :: xs →
      ∃ l1 e1, reduce 0 p.stm f p.stm.init () = .ok (xs.foldl f x, l1, e1) := by
  intro h
  obtain ⟨l1, e1, h1⟩ := h (demo Unit [1, 2]) trivial trivial (· + ·) 1 [2] (demo_vals _)
  obtain ⟨l2, e2, h2⟩ := reduce_exact 0 (· + ·) (demo Unit [1, 2]) trivial trivial ()
  rw [h2] at h1
  have hv : (demo Unit [1, 2]).vals = [1, 2] := demo_vals _
  rw [hv] at h1
  simp at h1

/-! ### C39: Max and Min, sequentially -/

theorem foldl_max (xs : List Int) (a : Int) :
    let m := xs.foldl (fun a b => if a > b then a else b) a
    (m = a ∨ m ∈ xs) ∧ a ≤ m ∧ ∀ x ∈ xs, x ≤ m := by
  induction xs generalizing a with
  | nil => simp
  | cons x xs ih =>
    simp only [List.foldl_cons]
    have := ih (if a > x then a else x)
    simp only at this
    obtain ⟨h1, h2, h3⟩ := this
    generalize hm : xs.foldl (fun a b => if a > b then a else b) (if a > x then a else x) = m at *
    split at h1 <;> simp_all <;> grind

theorem foldl_min (xs : List Int) (a : Int) :
    let m := xs.foldl (fun a b => if a < b then a else b) a
    (m = a ∨ m ∈ xs) ∧ m ≤ a ∧ ∀ x ∈ xs, m ≤ x := by
  induction xs generalizing a with
  | nil => simp
  | cons x xs ih =>
    simp only [List.foldl_cons]
    have := ih (if a < x then a else x)
    simp only at this
    obtain ⟨h1, h2, h3⟩ := this
    generalize hm : xs.foldl (fun a b => if a < b then a else b) (if a < x then a else x) = m at *
    split at h1 <;> simp_all <;> grind

/-- C39: Max of a non-empty sequential stream is an element and at least every element. -/
theorem max_sequential (p : Pipe E Int) (hz : p.Fits) (hc : p.NoCounter) (hne : p.vals ≠ []) (e : E) :
    ∃ m l1 e1, max p.stm p.stm.init e = .ok (m, l1, e1) ∧ m ∈ p.vals ∧ ∀ x ∈ p.vals, x ≤ m := by
  obtain ⟨l1, e1, h⟩ := maxBy_run 0 (fun a b => if a > b then a else b) p hz hc p.stm.init e
  cases hv : p.vals with
  | nil => exact (hne hv).elim
  | cons x xs =>
    rw [hv] at h
    simp only at h
    obtain ⟨h1, h2, h3⟩ := foldl_max (x :: xs) x
    exact ⟨_, l1, e1, h, by rcases h1 with h1 | h1 <;> [(rw [h1]; simp); exact h1], h3⟩

/-- C39: Min of a non-empty sequential stream is an element and at most every element. -/
theorem min_sequential (p : Pipe E Int) (hz : p.Fits) (hc : p.NoCounter) (hne : p.vals ≠ []) (e : E) :
    ∃ m l1 e1, min p.stm p.stm.init e = .ok (m, l1, e1) ∧ m ∈ p.vals ∧ ∀ x ∈ p.vals, m ≤ x := by
  obtain ⟨l1, e1, h⟩ := maxBy_run 0 (fun a b => if a < b then a else b) p hz hc p.stm.init e
  cases hv : p.vals with
  | nil => exact (hne hv).elim
  | cons x xs =>
    rw [hv] at h
    simp only at h
    obtain ⟨h1, h2, h3⟩ := foldl_min (x :: xs) x
    exact ⟨_, l1, e1, h, by rcases h1 with h1 | h1 <;> [(rw [h1]; simp); exact h1], h3⟩

/-- C39: on an empty sequential stream Max and Min return the zero value. -/
theorem maxmin_empty (p : Pipe E Int) (hz : p.Fits) (hc : p.NoCounter) (hv : p.vals = []) (e : E) :
    (∃ l1 e1, max p.stm p.stm.init e = .ok (0, l1, e1)) ∧ (∃ l1 e1, min p.stm p.stm.init e = .ok (0, l1, e1)) := by
  obtain ⟨l1, e1, h⟩ := maxBy_run 0 (fun a b => if a > b then a else b) p hz hc p.stm.init e
  obtain ⟨l2, e2, h2⟩ := maxBy_run 0 (fun a b => if a < b then a else b) p hz hc p.stm.init e
  rw [hv] at h h2
  exact ⟨⟨l1, e1, h⟩, ⟨l2, e2, h2⟩⟩

/-- C39: the restriction to streams without counters is needed: Max(Take([1,5], 2)) is 1. -/
theorem max_take_refuted :
    ¬ ∀ (p : Pipe Unit Int) (_ : p.Fits), p.vals ≠ [] →
      ∃ m l1 e1, max p.stm p.stm.init () = .ok (m, l1, e1) ∧ ∀ x ∈ p.vals, x ≤ m := by
  intro h
  have hv : (demo Unit [1, 5]).vals = [1, 5] := demo_vals _
  obtain ⟨m, l1, e1, h1, h2⟩ := h (.take (demo Unit [1, 5]) 2) trivial (by simp [Pipe.vals, hv])
  have h5 : (5 : Int) ≤ m := h2 5 (by simp [Pipe.vals, hv])
  have hf : first 0 (Pipe.take (demo Unit [1, 5]) 2).stm (Pipe.take (demo Unit [1, 5]) 2).stm.init () =
      .ok ((1, true), ((1, ()) : Int × Unit), ()) := by
    simp [first, Pipe.stm, demo, Pipe.slice, take, ofSlice, Slice.splitableIter, Slice.iter, Slice.Mem.get, demoMem]
  obtain ⟨l2, hr⟩ := take_runs 2 (source_runs (ofSlice_source (E := Unit) (demoMem [1, 5])
    { arr := 0, off := 0, len := 2, cap := 2 }) ()) 1
  have : max (Pipe.take (demo Unit [1, 5]) 2).stm (Pipe.take (demo Unit [1, 5]) 2).stm.init () =
      .ok (1, ((2, ()) : Int × Unit), ()) := by
    simp only [max, maxBy, hf, Res.bind_ok, if_true]
    exact foldWith_run (s := (Pipe.take (demo Unit [1, 5]) 2).stm) _ hr 1 ()
  rw [this] at h1
  simp at h1
  omega

/-! ### C40: AllMatch and AnyMatch, sequentially -/

theorem tryFoldSeg_run {s : Stm E T} (f : T → T → T × Bool) (q : T → Bool) (hf : ∀ a b, f a b = (a, q b))
    {st l its fin st' l'} (r : SegRun s st l its fin st' l') (a : T) (e : E) :
    ∃ l1 e1, tryFoldSeg s f st a l e = .ok ((a, (its.map Prod.snd).all q), l1, e1) := by
  induction r generalizing e with
  | done h => exact ⟨_, _, by rw [tryFoldSeg]; simp [h]; exact ⟨rfl, rfl⟩⟩
  | @next st l g x st1 l1 its fin st' l' h r ih =>
    by_cases hq : q x = true
    · obtain ⟨l2, e2, ih'⟩ := ih (g e)
      exact ⟨l2, e2, by rw [tryFoldSeg]; simp [h, hf, hq, ih']⟩
    · exact ⟨_, _, by rw [tryFoldSeg]; simp [h, hf, hq]; exact ⟨rfl, rfl⟩⟩

theorem tryFold_run (z : T) {s : Stm E T} (f : T → T → T × Bool) (q : T → Bool) (hf : ∀ a b, f a b = (a, q b))
    {l tr l' z0} (h : Runs s s.par l tr l' z0) (a : T) (e : E) :
    ∃ l1 e1, tryFold z s a f l e = .ok ((a, tr.vals.all q), l1, e1) := by
  obtain ⟨g1, st, l1, st', h1, h2, h3, _⟩ := h
  obtain ⟨l2, e2, h4⟩ := tryFoldSeg_run f q hf h2 a (tr.start e)
  exact ⟨l2, e2, by simp only [tryFold, h1, Res.bind_ok, h4]; rfl⟩

/-- C40: AllMatch on a non-empty sequential stream (without counters) decides "for all". -/
theorem allMatch_sequential (z : T) (q : T → Bool) (p : Pipe E T) (hz : p.Fits) (hc : p.NoCounter) (hne : p.vals ≠ []) (e : E) :
    ∃ b l1 e1, allMatch z p.stm q p.stm.init e = .ok (b, l1, e1) ∧ (b = true ↔ ∀ x ∈ p.vals, q x = true) := by
  obtain ⟨l', h⟩ := p.replays hz hc p.stm.init
  have hpar := p.par_zero
  rw [← hpar] at h
  obtain ⟨l1, e1, h1⟩ := first_run z h e
  obtain ⟨l2, h2⟩ := p.replays hz hc l1
  rw [← hpar] at h2
  obtain ⟨l3, e3, h3⟩ := tryFold_run z (fun a b => if q b then (a, true) else (a, false)) q
    (fun a b => by cases q b <;> rfl) h2 (p.trace.vals.head?.getD z) e1
  rw [p.vals_trace] at h1 h3
  refine ⟨p.vals.all q, l3, e3, ?_, by simp⟩
  unfold allMatch
  rw [h1]
  simp [hne, h3]

/-- C40: AnyMatch on every sequential stream (without counters) decides "exists". -/
theorem anyMatch_sequential (z : T) (q : T → Bool) (p : Pipe E T) (hz : p.Fits) (hc : p.NoCounter) (e : E) :
    ∃ b l1 e1, anyMatch z p.stm q p.stm.init e = .ok (b, l1, e1) ∧ (b = true ↔ ∃ x ∈ p.vals, q x = true) := by
  obtain ⟨l', h⟩ := p.replays hz hc p.stm.init
  have hpar := p.par_zero
  rw [← hpar] at h
  obtain ⟨l1, e1, h1⟩ := first_run z h e
  obtain ⟨l2, h2⟩ := p.replays hz hc l1
  rw [← hpar] at h2
  obtain ⟨l3, e3, h3⟩ := tryFold_run z (fun a b => if q b then (a, false) else (a, true)) (fun b => !q b)
    (fun a b => by cases q b <;> rfl) h2 (p.trace.vals.head?.getD z) e1
  rw [p.vals_trace] at h1 h3
  by_cases hne : p.vals = []
  · refine ⟨false, l1, e1, ?_, by simp [hne]⟩
    unfold anyMatch
    rw [h1]
    simp [hne]
  · refine ⟨!(p.vals.all (fun b => !q b)), l3, e3, ?_, by simp⟩
    unfold anyMatch
    rw [h1]
    simp [hne, h3]

/-- C40: AllMatch answers false on the empty stream, so "for all" fails there. -/
theorem allMatch_empty_refuted :
    ¬ ∀ (q : Int → Bool) (p : Pipe Unit Int) (_ : p.Fits) (_ : p.NoCounter), ∃ b l1 e1,
      allMatch 0 p.stm q p.stm.init () = .ok (b, l1, e1) ∧ (b = true ↔ ∀ x ∈ p.vals, q x = true) := by
  intro h
  obtain ⟨b, l1, e1, h1, h2⟩ := h (fun _ => true) (demo Unit []) trivial trivial
  obtain ⟨l2, e2, h3⟩ := first_pipeline 0 (demo Unit []) trivial ()
  have hv : (demo Unit []).vals = [] := demo_vals _
  rw [hv] at h2 h3
  simp [allMatch, h3] at h1
  simp [h1.1] at h2

/-! ### C32: Zip -/

theorem Pipe.vals_leftShort {T : Type} (p : Pipe E T) (hp : p.LeftShort) : p.Fits ∧ p.vals = p.listVals := by
  induction p with
  | src s xs z h => exact ⟨trivial, rfl⟩
  | map p f ih => exact ⟨(ih hp).1, by rw [Pipe.vals, Pipe.listVals, (ih hp).2]⟩
  | filter p q ih => exact ⟨(ih hp).1, by rw [Pipe.vals, Pipe.listVals, (ih hp).2]⟩
  | inspect p g ih => exact ⟨(ih hp).1, by rw [Pipe.vals, Pipe.listVals, (ih hp).2]⟩
  | zip z p q ih1 ih2 =>
    obtain ⟨a1, a2⟩ := ih1 hp.1
    obtain ⟨b1, b2⟩ := ih2 hp.2.1
    have hl : p.vals.length ≤ q.vals.length := by rw [a2, b2]; exact hp.2.2
    refine ⟨⟨a1, b1, Or.inl hl⟩, ?_⟩
    rw [Pipe.vals, Pipe.listVals, Nat.sub_eq_zero_of_le hl, a2, b2]
    simp
  | chain ps ih =>
    refine ⟨fun i => (ih i (hp i)).1, ?_⟩
    rw [Pipe.vals, Pipe.listVals]
    congr 2; funext i; exact (ih i (hp i)).2
  | flatMap p f ih1 ih2 =>
    refine ⟨⟨(ih1 hp.1).1, fun t => (ih2 t (hp.2 t)).1⟩, ?_⟩
    rw [Pipe.vals, Pipe.listVals, (ih1 hp.1).2]
    congr 1; funext t; exact (ih2 t (hp.2 t)).2
  | take p n ih => exact ⟨(ih hp).1, by rw [Pipe.vals, Pipe.listVals, (ih hp).2]⟩
  | skip p n ih => exact ⟨(ih hp).1, by rw [Pipe.vals, Pipe.listVals, (ih hp).2]⟩
  | skipWhile p q ih => exact ⟨(ih hp).1, by rw [Pipe.vals, Pipe.listVals, (ih hp).2]⟩
  | enumerate p ih => exact ⟨(ih hp).1, by rw [Pipe.vals, Pipe.listVals, (ih hp).2]⟩

/-- C32 where it holds: if no Zip has a left side longer than its right side, the pipeline delivers
    the list functions (map, filter, append, `List.zip`, flatMap) of the contents of its parts. -/
theorem pipeline_elements_partial (p : Pipe E T) (hp : p.LeftShort) (e : E) :
    ∃ l' e', foldWith p.stm [] (fun acc x => acc ++ [x]) p.stm.init e = .ok (p.listVals, l', e') := by
  obtain ⟨hz, hv⟩ := p.vals_leftShort hp
  rw [← hv]
  exact pipeline_elements p hz e

/-- C32, exactly what Zip delivers when its right side can be asked again after its end: the pairs,
    and then a zero pair for each element of the left side that has no partner. -/
theorem zip_exact (z : T × R) (p : Pipe E T) (q : Pipe E R) (hp : p.Fits) (hq : q.Fits) (hs : q.Steady) (e : E) :
    ∃ l' e', foldWith (zip z p.stm q.stm) [] (fun acc x => acc ++ [x]) (zip z p.stm q.stm).init e =
      .ok (p.vals.zip q.vals ++ List.replicate (p.vals.length - q.vals.length) z, l', e') :=
  pipeline_elements (.zip z p q) ⟨hp, hq, Or.inr hs⟩ e

/-- C32 as stated is false: Zip([1,2],[7]) delivers (1,7) and (0,0). -/
theorem zip_refuted :
    ¬ ∀ (p q : Pipe Unit Int), p.Fits → q.Fits → q.Steady → ∃ l' e',
      foldWith (zip (0, 0) p.stm q.stm) [] (fun acc x => acc ++ [x]) (zip (0, 0) p.stm q.stm).init () =
        .ok (p.vals.zip q.vals, l', e') := by
  intro h
  obtain ⟨l1, e1, h1⟩ := h (demo Unit [1, 2]) (demo Unit [7]) trivial trivial trivial
  obtain ⟨l2, e2, h2⟩ := zip_exact (0, 0) (demo Unit [1, 2]) (demo Unit [7]) trivial trivial trivial ()
  rw [h2, demo_vals, demo_vals] at h1
  simp at h1

theorem foldSeg_zip_broken (z : T × R) {A : Type} (f : A → T × R → E → A × E) {s : Stm E T} {s2 : Stm E R}
    {st l its fin st' l'} (r : SegRun s st l its fin st' l') {st2 l2 its2 fin2 st2' l2'}
    (r2 : SegRun s2 st2 l2 its2 fin2 st2' l2') (hb : Broken s2 st2' l2') (hl : its2.length < its.length) (a : A) (e : E) :
    foldSeg (zip z s s2) f (st, st2) a (l, l2) e = .panic .indexOutOfRange := by
  induction r generalizing st2 l2 its2 a e with
  | done h => simp at hl
  | @next st l f1 x st1 l1 its fin st' l' h r ih =>
    cases r2 with
    | done h2 =>
      have e1 : ∀ e, (zip z s s2).pull (st, st2) (l, l2) e = .ok (some z, (st1, st2'), (l1, l2'), fin2 (f1 e)) :=
        fun e => by simp [zip, h, h2]
      have e2 : ∀ e, (zip z s s2).pull (st1, st2') (l1, l2') e = .panic .indexOutOfRange := fun e => by
        cases r with
        | done h' => simp only [zip, h', Res.bind_ok]; rw [hb]; rfl
        | next h' _ => simp only [zip, h', Res.bind_ok]; rw [hb]; rfl
      refine (foldSeg.eq_def (zip z s s2) f (st, st2) a (l, l2) e).trans ?_
      rw [e1]
      simp only [Res.bind_ok]
      refine (foldSeg.eq_def (zip z s s2) f (st1, st2') _ (l1, l2') _).trans ?_
      rw [e2]
      rfl
    | @next _ _ f2 x2 st21 l21 _ _ _ _ h2 r2 =>
      have e1 : ∀ e, (zip z s s2).pull (st, st2) (l, l2) e = .ok (some (x, x2), (st1, st21), (l1, l21), f2 (f1 e)) :=
        fun e => by simp [zip, h, h2]
      refine (foldSeg.eq_def (zip z s s2) f (st, st2) a (l, l2) e).trans ?_
      rw [e1]
      simp only [Res.bind_ok]
      exact ih r2 (by simpa using hl) _ _

/-- C32: a Zip whose right side is a Chain (of streams that can be asked again) and whose left side is
    longer panics with an index out of range, whatever is folded over it. -/
theorem zip_chain_panics {n : Nat} (z : T × R) (p : Pipe E T) (ps : Fin (n + 1) → Pipe E R) (hp : p.Fits)
    (hq : ∀ i, (ps i).Fits) (hs : ∀ i, (ps i).Steady)
    (hl : (List.ofFn (fun i => (ps i).vals)).flatten.length < p.vals.length) {A : Type} (f : A → T × R → A) (a : A) (e : E) :
    foldWith (zip z p.stm (chain (fun i => (ps i).stm))) a f (zip z p.stm (chain (fun i => (ps i).stm))).init e =
      .panic .indexOutOfRange := by
  obtain ⟨l1, g1, st, lb, st', h1, h2, h3, _⟩ := p.runs hp
  choose l' h using fun i => (ps i).runs (hq i)
  obtain ⟨g2, stc, l1c, stc', c1, c2, c3, cb⟩ := chain_breaks (p := p.stm.par) (fun i => (ps i).trace)
    (fun i => (ps i).stm.init) l' (ss := fun i => (ps i).stm) (fun i => by rw [Pipe.par_zero]; exact h i)
  have hlen : (Trace.chain (List.ofFn fun i => (ps i).trace)).body.items.length < p.trace.body.items.length := by
    rw [p.length_trace]
    have := Pipe.length_trace (Pipe.chain ps)
    rw [Pipe.trace, Pipe.vals] at this
    rw [this]; exact hl
  have hseg : ∀ e, (zip z p.stm (chain (fun i => (ps i).stm))).seg
      ((zip z p.stm (chain (fun i => (ps i).stm))).activate (zip z p.stm (chain (fun i => (ps i).stm))).par)
      (zip z p.stm (chain (fun i => (ps i).stm))).init e =
      .ok (some (st, stc), (g1, g2), (lb, l1c), (Trace.chain (List.ofFn fun i => (ps i).trace)).start (p.trace.start e)) := by
    intro e
    rw [p.par_zero] at c1
    have c1' := c1 (p.trace.start e)
    change ((p.stm.seg (p.stm.activate p.stm.par) p.stm.init e).bind _) = _
    rw [p.par_zero, h1]
    show (((chain (fun i => (ps i).stm)).seg ((chain (fun i => (ps i).stm)).activate 0)
      (fun i => (ps i).stm.init) (p.trace.start e)).bind _) = _
    rw [c1']
    rfl
  unfold foldWith
  rw [foldSegs, hseg]
  simp only [Res.bind_ok]
  rw [foldSeg_zip_broken z _ h2 c2 (cb hs) hlen]
  rfl

example : foldWith (zip (0, 0) (demo Unit [1, 2]).stm (chain (fun _ : Fin 1 => (demo Unit [7]).stm))) []
    (fun acc x => acc ++ [x]) (zip (0, 0) (demo Unit [1, 2]).stm (chain (fun _ : Fin 1 => (demo Unit [7]).stm))).init () =
      .panic .indexOutOfRange :=
  zip_chain_panics (0, 0) (demo Unit [1, 2]) (fun _ : Fin 1 => demo Unit [7]) trivial (fun _ => trivial)
    (fun _ => trivial) (by simp [demo_vals]) _ _ ()

/-! ### The hypotheses are met -/

example : (demo Unit [3, 1, 2]).NoCounter ∧ (demo Unit [3, 1, 2]).NoInspect ∧ (demo Unit [3, 1, 2]).vals ≠ [] :=
  ⟨trivial, trivial, by rw [demo_vals]; simp⟩

/-- A nested pipeline: FlatMap of Chain of Filter and Map, zipped with Enumerate's source. -/
def nested : Pipe Unit ((Int) × (Int × Int)) := .zip (0, (0, 0))
  (.flatMap (.chain (fun i : Fin 2 => if i = 0 then demo Unit [1, 2, 3, 4] else .map (demo Unit [5]) (· * 2)))
    (fun t => .filter (demo Unit [t, t + 1]) (fun x => x % 2 == 0)))
  (.enumerate (.take (demo Unit [7, 8, 9]) 2))

example : ∃ l' e', foldWith nested.stm [] (fun acc x => acc ++ [x]) nested.stm.init () =
    .ok ([(2, (1, 7)), (2, (2, 8)), (0, (0, 0)), (0, (0, 0)), (0, (0, 0))], l', e') := by
  obtain ⟨l', e', h⟩ := pipeline_elements nested
    ⟨⟨fun i => by dsimp only; split <;> trivial, fun _ => trivial⟩, trivial, Or.inr trivial⟩ ()
  exact ⟨l', e', by rw [h]; rfl⟩

end Gds.Stream
