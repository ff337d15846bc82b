import Verif.Stream.Lemmas

/-! C32–C40: sequential streams. -/

namespace Gds.Stream

variable {E T R U : Type}

theorem Source.par {s : Stm E T} {xs : List T} {z : Prop} (h : Source s xs z) : s.par = 0 := h.1

/-- The pipeline that is just a slice. -/
def Pipe.slice {T : Type} (m : Slice.Mem T) (s : Slice.Hdr) : Pipe E T := .src (ofSlice m s 0) (m.view s) True (ofSlice_source m s)

theorem Pipe.par_zero {T : Type} (p : Pipe E T) : p.stm.par = 0 := by
  induction p <;> simp only [Pipe.stm] <;> first | rfl | assumption | exact Source.par ‹_›

/-! ### The elements of a trace are given by the list functions -/

theorem Body.vals_after (f : E → E) (b : Body E T) : (b.after f).vals = b.vals := by
  obtain ⟨_ | ⟨⟨h, x⟩, r⟩, fin⟩ := b <;> rfl

theorem Body.vals_append (b c : Body E T) : (b.append c).vals = b.vals ++ c.vals := by
  have := Body.vals_after b.fin c
  simp only [Body.vals] at this ⊢
  simp [Body.append, this]

theorem Body.vals_filter (q : T → Bool) (its : List ((E → E) × T)) (fin : E → E) :
    (Body.filter q its fin).vals = (its.map Prod.snd).filter q := by
  induction its with
  | nil => rfl
  | cons it its ih =>
    obtain ⟨f, x⟩ := it
    unfold Body.filter
    split
    · next h => simp [Body.vals, Body.cons, h] at ih ⊢; exact ih
    · next h => rw [Body.vals_after, ih]; simp [h]

theorem Body.vals_take (n : Nat) (its : List ((E → E) × T)) (fin : E → E) :
    (Body.take n its fin).vals = (its.map Prod.snd).take n := by
  induction its generalizing n with
  | nil => cases n <;> rfl
  | cons it its ih =>
    cases n with
    | zero => rfl
    | succ n => have := ih n; simp [Body.take, Body.cons, Body.vals] at this ⊢; exact this

theorem Body.vals_drop (n : Nat) (its : List ((E → E) × T)) (fin : E → E) :
    (Body.drop n its fin).vals = (its.map Prod.snd).drop n := by
  induction its generalizing n with
  | nil => cases n <;> rfl
  | cons it its ih =>
    cases n with
    | zero => rfl
    | succ n => rw [Body.drop, Body.vals_after, ih n]; rfl

theorem Body.vals_number (k : Nat) (its : List ((E → E) × T)) :
    (Body.number k its).map Prod.snd =
      (List.range' k its.length).zipWith (fun k x => ((k : Int) + 1, x)) (its.map Prod.snd) := by
  induction its generalizing k with
  | nil => rfl
  | cons it its ih =>
    have := ih (k + 1)
    simp [Body.number, List.range'_succ] at this ⊢
    exact this

theorem Body.vals_zip (z : T × R) (its : List ((E → E) × T)) (fin) (its2 : List ((E → E) × R)) (fin2) :
    (Body.zip z its fin its2 fin2).vals = (its.map Prod.snd).zip (its2.map Prod.snd) ++
      List.replicate (its.length - its2.length) z := by
  induction its generalizing its2 with
  | nil => cases its2 <;> simp [Body.zip, Body.vals]
  | cons it its ih =>
    cases its2 with
    | nil => simp [Body.zip, Body.vals, Body.cons, List.replicate_succ, Function.comp_def, List.map_const']
    | cons it2 its2 =>
      have := ih its2
      simp [Body.zip, Body.cons, Body.vals] at this ⊢
      exact this

theorem Trace.vals_bindRest (k : T → Trace E U) (its : List ((E → E) × T)) (fin) (cur : Body E U) :
    (Trace.bindRest k its fin cur).vals = cur.vals ++ (its.map Prod.snd).flatMap (fun t => (k t).vals) := by
  induction its generalizing cur with
  | nil => simp [Trace.bindRest, Body.vals_append]; simp [Body.vals]
  | cons it its ih => simp [Trace.bindRest, Body.vals_append, Body.vals_after, ih, Trace.vals]

theorem Trace.vals_bind (t : Trace E T) (k : T → Trace E U) :
    (t.bind k).vals = t.vals.flatMap (fun x => (k x).vals) := by
  obtain ⟨s, ⟨_ | ⟨⟨h, x⟩, r⟩, fin⟩⟩ := t
  · rfl
  · simp only [Trace.bind, Trace.vals, Trace.vals_bindRest]
    simp [Body.vals, Trace.vals]

theorem Trace.vals_chain (ts : List (Trace E T)) : (Trace.chain ts).vals = (ts.map Trace.vals).flatten := by
  induction ts with
  | nil => rfl
  | cons t ts ih =>
    rw [Trace.chain, List.map_cons, List.flatten_cons, ← ih]
    simp [Trace.vals, Body.vals_append]

theorem Pipe.vals_trace {T : Type} (p : Pipe E T) : p.trace.vals = p.vals := by
  induction p with
  | src s xs z h => simp [Pipe.trace, Pipe.vals, Trace.vals, Body.vals, Body.pure, Function.comp_def]
  | map p f ih =>
    rw [Pipe.vals, ← ih]; simp [Pipe.trace, Trace.vals, Body.vals, Function.comp_def]
  | filter p q ih => rw [Pipe.vals, ← ih]; exact Body.vals_filter _ _ _
  | inspect p g ih =>
    rw [Pipe.vals, ← ih]; simp [Pipe.trace, Trace.vals, Body.vals, Function.comp_def]
  | zip z p q ih1 ih2 =>
    rw [Pipe.vals, ← ih1, ← ih2, Pipe.trace, Trace.vals, Body.vals_zip]
    simp [Trace.vals, Body.vals]
  | chain ps ih =>
    rw [Pipe.vals, Pipe.trace, Trace.vals_chain, List.map_ofFn]
    congr 2; funext i; exact ih i
  | flatMap p f ih1 ih2 =>
    rw [Pipe.vals, Pipe.trace, Trace.vals_bind, ih1]
    congr 1; funext t; exact ih2 t
  | take p n ih => rw [Pipe.vals, ← ih]; exact Body.vals_take _ _ _
  | skip p n ih => rw [Pipe.vals, ← ih]; exact Body.vals_drop _ _ _
  | skipWhile p q ih => rw [Pipe.vals, ← ih]; exact Body.vals_filter _ _ _
  | enumerate p ih =>
    rw [Pipe.vals, ← ih]
    have := Body.vals_number 0 p.trace.body.items
    simp only [Pipe.trace, Trace.vals, Body.vals, List.length_map, List.range_eq_range']
    exact this

/-! ### Every pipeline runs -/

theorem Pipe.length_trace {T : Type} (p : Pipe E T) : p.trace.body.items.length = p.vals.length := by
  rw [← p.vals_trace]; simp [Trace.vals, Body.vals]

theorem Runs.mono {s : Stm E T} {p l tr l'} {z z' : Prop} (h : Runs s p l tr l' z) (hz : z' → z) :
    Runs s p l tr l' z' := by
  obtain ⟨g1, st, l1, st', h1, h2, h3, hs⟩ := h
  exact ⟨g1, st, l1, st', h1, h2, h3, fun a => hs (hz a)⟩

/-- The first activation of a pipeline delivers its trace. -/
theorem Pipe.runs {T : Type} (p : Pipe E T) (hz : p.Fits) :
    ∃ l', Runs p.stm 0 p.stm.init p.trace l' p.Steady := by
  induction p with
  | src s xs z h => exact ⟨_, source_runs h _⟩
  | map p f ih => obtain ⟨l', h⟩ := ih hz; exact ⟨l', map_runs f h⟩
  | filter p q ih => obtain ⟨l', h⟩ := ih hz; exact ⟨l', filter_runs q h⟩
  | inspect p g ih => obtain ⟨l', h⟩ := ih hz; exact ⟨l', inspect_runs g h⟩
  | zip z p q ih1 ih2 =>
    obtain ⟨l1, h1⟩ := ih1 hz.1
    obtain ⟨l2, h2⟩ := ih2 hz.2.1
    have h3 := zip_runs z h1 h2 (by rw [p.length_trace, q.length_trace]; exact hz.2.2)
    rw [p.length_trace, q.length_trace] at h3
    exact h3
  | chain ps ih =>
    choose l' h using fun i => ih i (hz i)
    exact ⟨l', chain_runs (fun i => (ps i).trace) _ l' (fun i => by rw [Pipe.par_zero]; exact h i)⟩
  | flatMap p f ih1 ih2 =>
    obtain ⟨l', h⟩ := ih1 hz.1
    exact ⟨l', flatMap_runs (fun t => (f t).stm) (fun t => (f t).trace)
      (fun t => (ih2 t (hz.2 t)).imp fun _ h => h.mono fun hs => hs t) h⟩
  | take p n ih =>
    obtain ⟨l', h⟩ := ih hz
    obtain ⟨l3, h3⟩ := take_runs n h 0
    rw [show n - 0 = n by omega] at h3
    exact ⟨_, h3⟩
  | skip p n ih =>
    obtain ⟨l', h⟩ := ih hz
    have h3 := skip_runs n h 0
    rw [show n - 1 - 0 = n - 1 by omega] at h3
    exact ⟨_, h3⟩
  | skipWhile p q ih => obtain ⟨l', h⟩ := ih hz; exact ⟨l', skipWhile_runs q h⟩
  | enumerate p ih => obtain ⟨l', h⟩ := ih hz; exact ⟨_, enumerate_runs h 0⟩

/-- Without counters every activation delivers the same. -/
theorem Pipe.replays {T : Type} (p : Pipe E T) (hz : p.Fits) (hp : p.NoCounter) :
    ∀ l, ∃ l', Runs p.stm 0 l p.trace l' p.Steady := by
  induction p with
  | src s xs z h => exact fun l => ⟨_, source_runs h l⟩
  | map p f ih => intro l; obtain ⟨l', h⟩ := ih hz hp l; exact ⟨l', map_runs f h⟩
  | filter p q ih => intro l; obtain ⟨l', h⟩ := ih hz hp l; exact ⟨l', filter_runs q h⟩
  | inspect p g ih => intro l; obtain ⟨l', h⟩ := ih hz hp l; exact ⟨l', inspect_runs g h⟩
  | zip z p q ih1 ih2 =>
    intro l
    obtain ⟨l1, h1⟩ := ih1 hz.1 hp.1 l.1
    obtain ⟨l2, h2⟩ := ih2 hz.2.1 hp.2 l.2
    have h3 := zip_runs z h1 h2 (by rw [p.length_trace, q.length_trace]; exact hz.2.2)
    rw [p.length_trace, q.length_trace] at h3
    exact h3
  | chain ps ih =>
    intro l
    have ih' := fun i => ih i (hz i) (hp i) (l i)
    choose l' h using ih'
    exact ⟨l', chain_runs (fun i => (ps i).trace) _ l' (fun i => by rw [Pipe.par_zero]; exact h i)⟩
  | flatMap p f ih1 ih2 =>
    intro l
    obtain ⟨l', h⟩ := ih1 hz.1 hp l
    exact ⟨l', flatMap_runs (fun t => (f t).stm) (fun t => (f t).trace)
      (fun t => ((f t).runs (hz.2 t)).imp fun _ h => h.mono fun hs => hs t) h⟩
  | take p n ih => exact hp.elim
  | skip p n ih => exact hp.elim
  | skipWhile p q ih => intro l; obtain ⟨l', h⟩ := ih hz hp l; exact ⟨l', skipWhile_runs q h⟩
  | enumerate p ih => exact hp.elim

/-! ### Terminal operations over a run -/

theorem foldSeg_run {s : Stm E T} (f : R → T → E → R × E) {st l its fin st' l'}
    (r : SegRun s st l its fin st' l') (a : R) (e : E) :
    foldSeg s f st a l e =
      let z := its.foldl (fun z it => f z.1 it.2 (it.1 z.2)) (a, e)
      .ok (z.1, l', fin z.2) := by
  induction r generalizing a e with
  | done h => rw [foldSeg]; simp [h]
  | next h r ih => rw [foldSeg]; simp only [h, Res.bind_ok]; rw [ih]; simp

theorem foldSegs_run {s : Stm E T} (f : R → T → E → R × E) {p l tr l' z} (h : Runs s p l tr l' z) (a : R) (e : E) :
    foldSegs s f (s.activate p) a l e =
      let z := tr.body.items.foldl (fun z it => f z.1 it.2 (it.1 z.2)) (a, tr.start e)
      .ok (z.1, l', tr.body.fin z.2) := by
  obtain ⟨g1, st, l1, st', h1, h2, h3, _⟩ := h
  rw [foldSegs]
  simp only [h1, Res.bind_ok, foldSeg_run f h2]
  rw [foldSegs]
  obtain ⟨g2, e2⟩ := h3 l' (tr.body.fin (tr.body.items.foldl (fun z it => f z.1 it.2 (it.1 z.2)) (a, tr.start e)).2)
  simp [e2]

theorem collect_run {s : Stm E T} (c : T → E → E) {l tr l' z} (h : Runs s s.par l tr l' z) (e : E) :
    collect s c l e = .ok (l', tr.run c e) := by
  unfold collect
  rw [foldSegs_run _ h]
  simp only [Res.bind_ok, Res.pure_eq, Trace.run, Body.run]
  have : ∀ (its : List ((E → E) × T)) (e : E),
      (its.foldl (fun (z : Unit × E) it => ((), c it.2 (it.1 z.2))) ((), e)).2 =
        its.foldl (fun e it => c it.2 (it.1 e)) e := by
    intro its
    induction its with
    | nil => intro e; rfl
    | cons it its ih => intro e; simpa using ih _
  rw [this]

theorem foldWith_run {s : Stm E T} (f : R → T → R) {l tr l' z} (h : Runs s s.par l tr l' z) (a : R) (e : E) :
    foldWith s a f l e = .ok (tr.vals.foldl f a, l', tr.run (fun _ e => e) e) := by
  unfold foldWith
  rw [foldSegs_run _ h]
  have : ∀ (its : List ((E → E) × T)) (a : R) (e : E),
      its.foldl (fun (z : R × E) it => (f z.1 it.2, it.1 z.2)) (a, e) =
        ((its.map Prod.snd).foldl f a, its.foldl (fun e it => it.1 e) e) := by
    intro its
    induction its with
    | nil => intro a e; rfl
    | cons it its ih => intro a e; simpa using ih _ _
  simp only [this, Trace.run, Body.run, Trace.vals, Body.vals]

/-- The run of a trace without effects. -/
theorem run_of_pure (c : T → E → E) (t : Trace E T) (h0 : t.start = id) (h1 : ∀ it ∈ t.body.items, it.1 = id)
    (h2 : t.body.fin = id) (e : E) : t.run c e = t.vals.foldl (fun e x => c x e) e := by
  simp only [Trace.run, Body.run, h0, h2, id, Trace.vals, Body.vals]
  have : ∀ (its : List ((E → E) × T)), (∀ it ∈ its, it.1 = id) → ∀ e : E,
      its.foldl (fun e it => c it.2 (it.1 e)) e = (its.map Prod.snd).foldl (fun e x => c x e) e := by
    intro its
    induction its with
    | nil => intro _ e; rfl
    | cons it its ih =>
      intro h e
      simp only [List.foldl_cons, List.map_cons]
      rw [h it (by simp)]
      exact ih (fun it hit => h it (by simp [hit])) _
  exact this _ h1 e

end Gds.Stream
