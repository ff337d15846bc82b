import Verif.Stream.ParTry
import Verif.Stream.ParCollect
import Verif.Stream.Props

/-! The terminal operations as a caller sees them, both branches: what a call returns, on every schedule. -/

namespace Gds.Stream

variable {E T R U : Type}

/-- Every schedule from `c` reaches a state with `P`: as long as `P` does not hold some step is possible, and no schedule
    goes on for ever without reaching `P`. -/
inductive Inevitably {σ : Type} (step : σ → σ → Prop) (P : σ → Prop) : σ → Prop where
  | here {c} : P c → Inevitably step P c
  | next {c} : (∃ c', step c c') → (∀ c', step c c' → Inevitably step P c') → Inevitably step P c

theorem inevitably_of {σ : Type} {step : σ → σ → Prop} {P : σ → Prop} (I : σ → Prop) (w : σ → Nat) (h1 : ∀ c c', I c → step c c' → I c')
    (h2 : ∀ c, I c → P c ∨ ∃ c', step c c') (h3 : ∀ c c', I c → step c c' → w c' < w c) : ∀ c, I c → Inevitably step P c := by
  have : ∀ n c, w c < n → I c → Inevitably step P c := by
    intro n
    induction n with
    | zero => intro c h; omega
    | succ n ih =>
      intro c hw hc
      rcases h2 c hc with h | h
      · exact .here h
      · exact .next h fun c' hst => ih c' (by have := h3 c c' hc hst; omega) (h1 c c' hc hst)
  exact fun c => this (w c + 1) c (by omega)

/-- stream/fold.go:11-51 `FoldWith` returns `r`: sequentially; or, with a positive parallelism, on every schedule, without a
    panic.  (A negative parallelism panics in `make(chan R, parallelism)`, line 28.) -/
def FoldWithReturns (s : Stm E T) (ini : R) (f : R → T → R) (comb : R → R → R) (l : s.L) (e : E) (r : R) : Prop :=
  if s.par = 0 then ∃ l' e', foldWith s ini f l e = .ok (r, l', e')
  else 0 < s.par ∧
    (∀ c, FReach s s.par.toNat ini f comb l e c → c.panicked = false ∧ ∀ v, c.main = .done v → v = r) ∧
    Inevitably (FStep s s.par.toNat ini f comb) (fun c => ∃ v, c.main = .done v) (FSt.init s R s.par.toNat l e)

/-- stream/sum.go:7-12 `Sum`. -/
def SumReturns [Add T] [Zero T] (s : Stm E T) (l : s.L) (e : E) (r : T) : Prop :=
  FoldWithReturns s 0 (fun a b => a + b) (fun a b => a + b) l e r

/-- stream/reduce.go:3-9 `Reduce`, stream/max_min.go:12-18, 29-36 `MaxBy`, `MinBy`. -/
def ReduceReturns (z : T) (s : Stm E T) (f : T → T → T) (l : s.L) (e : E) (r : T) : Prop :=
  ∃ x ok l' e', first z s l e = .ok ((x, ok), l', e') ∧ if ok = true then FoldWithReturns s x f f l' e' r else r = z

/-- stream/max_min.go:3-10 `Max`. -/
def MaxReturns (s : Stm E Int) (l : s.L) (e : E) (r : Int) : Prop := ReduceReturns 0 s (fun a b => if a > b then a else b) l e r
/-- stream/max_min.go:20-27 `Min`. -/
def MinReturns (s : Stm E Int) (l : s.L) (e : E) (r : Int) : Prop := ReduceReturns 0 s (fun a b => if a < b then a else b) l e r

/-- stream/tryfold.go:9-65 `TryFold` returns the flag `b`. -/
def TryFoldReturns (z : T) (s : Stm E T) (ini : T) (f : T → T → T × Bool) (l : s.L) (e : E) (b : Bool) : Prop :=
  if s.par = 0 then ∃ r l' e', tryFold z s ini f l e = .ok ((r, b), l', e')
  else 0 < s.par ∧
    (∀ c, TReach s s.par.toNat z ini f l e c → ∀ v ok, c.main = .ret v ok → ok = b) ∧
    Inevitably (TStep s s.par.toNat z ini f) (fun c => ∃ v ok, c.main = .ret v ok) (TSt.init s s.par.toNat l e)

/-- stream/all_any_match.go:3-15 `AllMatch`. -/
def AllMatchReturns (z : T) (s : Stm E T) (q : T → Bool) (l : s.L) (e : E) (b : Bool) : Prop :=
  ∃ x ok l' e', first z s l e = .ok ((x, ok), l', e') ∧ if ok = true then TryFoldReturns z s x (allCb q) l' e' b else b = false

/-- stream/all_any_match.go:17-29 `AnyMatch`. -/
def AnyMatchReturns (z : T) (s : Stm E T) (q : T → Bool) (l : s.L) (e : E) (b : Bool) : Prop :=
  ∃ x ok l' e', first z s l e = .ok ((x, ok), l', e') ∧ if ok = true then TryFoldReturns z s x (anyCb q) l' e' (!b) else b = false

/-! ### Streams that split -/

theorem foldSeg_pure {s : Stm E T} (f : R → T → R) {st xs} (h : PureSeg s st xs) : ∀ acc l e,
    foldSeg s (fun a v e => (f a v, e)) st acc l e = .ok (xs.foldl f acc, l, e) := by
  induction h with
  | nil h => intro acc l e; have h1 := h l e; rw [foldSeg]; simp [h1]
  | cons h r ih => intro acc l e; rw [foldSeg]; simp [h l e, ih]

theorem foldSegs_pure {s : Stm E T} (f : R → T → R) {g segs} (h : SegsOf s g segs) : ∀ acc l e,
    foldSegs s (fun a v e => (f a v, e)) g acc l e = .ok (segs.flatten.foldl f acc, l, e) := by
  induction h with
  | nil h => intro acc l e; obtain ⟨g', h'⟩ := h l e; rw [foldSegs]; simp [h']
  | cons h hs r ih => intro acc l e; rw [foldSegs]; simp [h l e, foldSeg_pure f hs, ih, List.foldl_append]

theorem foldWith_returns_seq {s : Stm E T} (h0 : s.par = 0) {segs : List (List T)} (hs : Splits s 0 segs) (ini : R) (f : R → T → R)
    (comb : R → R → R) (l : s.L) (e : E) : FoldWithReturns s ini f comb l e (segs.flatten.foldl f ini) := by
  rw [FoldWithReturns, if_pos h0]
  exact ⟨l, e, by rw [foldWith, h0]; exact foldSegs_pure f hs ini l e⟩

theorem foldWith_inevitable {s : Stm E T} {p : Nat} (ini : R) (f : R → T → R) (comb : R → R → R) {segs : List (List T)} (hs : Splits s p segs)
    (hp : segs.length = p) (l : s.L) (e : E) :
    Inevitably (FStep s p ini f comb) (fun c => ∃ v, c.main = .done v) (FSt.init s R p l e) :=
  inevitably_of (FReach s p ini f comb l e) (FSt.work p) (fun _ _ h hst => .step h hst)
    (fun c h => parFold_progress hs (by omega) l e c h) (fun c c' h hst => parFold_terminates hs hp l e c c' h hst) _ .init

theorem foldWith_returns_par {s : Stm E T} {p : Nat} (h0 : s.par = p) (hp0 : 0 < p) {segs : List (List T)} (hs : Splits s p segs) (hp : segs.length = p)
    {ini : R} {f : R → T → R} {comb : R → R → R} {r : R} (l : s.L) (e : E)
    (hr : ∀ c, FReach s p ini f comb l e c → c.panicked = false ∧ ∀ v, c.main = .done v → v = r) :
    FoldWithReturns s ini f comb l e r := by
  have e1 : s.par.toNat = p := by omega
  rw [FoldWithReturns, if_neg (by omega), e1]
  exact ⟨by omega, hr, foldWith_inevitable ini f comb hs hp l e⟩

theorem slice_splits_zero (m : Slice.Mem T) (s : Slice.Hdr) (q : Int) : Splits (ofSlice (E := E) m s q) 0 [m.view s] := by
  obtain ⟨idx, h1, h2⟩ := Slice.split_sequential s 0 (Int.le_refl _)
  exact ofSlice_segsOf m s q 0 h1 h2

/-- The pipelines considered: Filter and Map over a slice, then `Parallel(p)`. -/
abbrev pipe (m : Slice.Mem T) (s : Slice.Hdr) (q : T → Bool) (g : T → U) (p : Int) : Stm E U := parallel (map (filter (ofSlice m s 0) q) g) p

theorem parallel_splits {s : Stm E T} {p q : Int} {segs : List (List T)} (h : Splits s p segs) : Splits (parallel s q) p segs := by
  have hp : ∀ st xs, PureSeg s st xs → PureSeg (parallel s q) st xs := by
    intro st xs h
    induction h with
    | nil h => exact .nil h
    | cons h r ih => exact .cons h ih
  have hg : ∀ g segs, SegsOf s g segs → SegsOf (parallel s q) g segs := by
    intro g segs h
    induction h with
    | nil h => exact .nil h
    | cons h hs r ih => exact .cons h (hp _ _ hs) ih
  exact hg _ _ h

theorem pipe_splits_zero (m : Slice.Mem T) (s : Slice.Hdr) (q : T → Bool) (g : T → U) (p : Int) :
    Splits (pipe (E := E) m s q g p) 0 [((m.view s).filter q).map g] :=
  parallel_splits (map_splits g (filter_splits q (slice_splits_zero m s 0)))

theorem pipe_splits (m : Slice.Mem T) (s : Slice.Hdr) (hs : m.Ok s) (q : T → Bool) (g : T → U) (p : Nat) (hp : 1 ≤ p) (hl : 0 < s.len) (hd : p ∣ s.len) :
    ∃ segs, Splits (pipe (E := E) m s q g p) p segs ∧ segs.flatten = ((m.view s).filter q).map g ∧ segs.length = p ∧
      ((∀ x, q x = true) → ∀ g ∈ segs, g ≠ []) := by
  obtain ⟨segs, h1, h2, h3, _, h4⟩ := ofSlice_splits (E := E) m s hs p hp (Nat.le_of_dvd hl hd) 0
  refine ⟨_, parallel_splits (map_splits g (filter_splits q h1)), by rw [← List.map_flatten, ← List.filter_flatten, h2], by simpa using h4.2 hd, ?_⟩
  intro hq xs hxs
  simp only [List.map_map, List.mem_map, Function.comp_apply] at hxs
  obtain ⟨ys, hy, rfl⟩ := hxs
  have := h3 ys hy
  simp only [ne_eq, List.map_eq_nil_iff, List.filter_eq_nil_iff, hq]
  intro hcon
  cases ys with
  | nil => exact this rfl
  | cons y ys => exact hcon y (List.mem_cons_self ..) trivial

/-! ### C83 -/

/-- C83, FoldWith: for a commutative monoid, when p divides len(s) > 0, the parallel fold of a Filter/Map pipeline returns on
    every schedule what the sequential fold returns. -/
theorem parallel_foldWith_partial (m : Slice.Mem T) (s : Slice.Hdr) (hs : m.Ok s) (q : T → Bool) (g : T → U) (p : Nat) (hl : 0 < s.len)
    (hd : p ∣ s.len) {ini : R} {f : R → U → R} {comb : R → R → R}
    (hc : ∀ a b, comb a b = comb b a) (ha : ∀ a b c, comb (comb a b) c = comb a (comb b c))
    (hi : ∀ a, comb ini a = a) (hf : ∀ a x, f a x = comb a (f ini x)) (e : E) :
    FoldWithReturns (pipe m s q g p) ini f comb () e ((((m.view s).filter q).map g).foldl f ini) ∧
    FoldWithReturns (pipe m s q g 0) ini f comb () e ((((m.view s).filter q).map g).foldl f ini) := by
  have hp : 1 ≤ p := Nat.pos_of_dvd_of_pos hd hl
  refine ⟨?_, by simpa using foldWith_returns_seq rfl (pipe_splits_zero (E := E) m s q g 0) ini f comb () e⟩
  obtain ⟨segs, h1, h2, h3, -⟩ := pipe_splits (E := E) m s hs q g p hp hl hd
  refine foldWith_returns_par rfl hp h1 h3 () e fun c hcr => ?_
  have := parFold_monoid h1 h3 hc ha hi hf () e c hcr
  rwa [h2] at this

/-- C83, Sum. -/
theorem parallel_sum_partial [AddCommMonoid U] (m : Slice.Mem T) (s : Slice.Hdr) (hs : m.Ok s) (q : T → Bool) (g : T → U) (p : Nat) (hl : 0 < s.len)
    (hd : p ∣ s.len) (e : E) :
    SumReturns (pipe m s q g p) () e (((m.view s).filter q).map g).sum ∧ SumReturns (pipe m s q g 0) () e (((m.view s).filter q).map g).sum := by
  have h := parallel_foldWith_partial m s hs q g p hl hd (R := U) (ini := 0) (f := fun a b => a + b) (comb := fun a b => a + b)
    (fun a b => add_comm a b) (fun a b c => add_assoc a b c) (fun a => zero_add a) (fun a x => by rw [zero_add]) e
  rw [List.sum_eq_foldl]
  exact h

theorem first_cons (z : T) {s : Stm E T} {x : T} {xs : List T} {segs : List (List T)} (h : Splits s s.par ((x :: xs) :: segs)) (l : s.L) (e : E) :
    first z s l e = .ok ((x, true), l, e) := by
  unfold Splits at h
  cases h with
  | cons h hsg r =>
    cases hsg with
    | cons hp' r' => simp [first, h l e, hp' l e]

theorem first_empty (z : T) {s : Stm E T} {segs : List (List T)} (h : Splits s s.par ([] :: segs)) (l : s.L) (e : E) :
    first z s l e = .ok ((z, false), l, e) := by
  unfold Splits at h
  cases h with
  | cons h hsg r =>
    cases hsg with
    | nil h' => simp [first, h l e, h' l e]

/-- `First` of a Map pipeline is its first element, sequential or not. -/
theorem first_pipe (z : U) (m : Slice.Mem T) (s : Slice.Hdr) (hs : m.Ok s) (g : T → U) (p : Nat) (hl : 0 < s.len) (hd : p = 0 ∨ p ∣ s.len) (e : E) :
    ∃ x, x ∈ (m.view s).map g ∧ first z (pipe (E := E) m s (fun _ => true) g p) () e = .ok ((x, true), (), e) := by
  have hq : (m.view s).filter (fun _ => true) = m.view s := by simp
  rcases Nat.eq_zero_or_pos p with h0 | hp
  · subst h0
    have h := pipe_splits_zero (E := E) m s (fun _ => true) g 0
    rw [hq] at h
    cases hv : (m.view s).map g with
    | nil => have := congrArg List.length hv; simp at this; omega
    | cons x xs => rw [hv] at h; exact ⟨x, by simp, first_cons z h () e⟩
  · obtain ⟨segs, h1, h2, h3, h4⟩ := pipe_splits (E := E) m s hs (fun _ => true) g p hp hl (hd.resolve_left (by omega))
    rw [hq] at h2
    cases segs with
    | nil => simp at h3; omega
    | cons xs segs =>
      cases xs with
      | nil => exact absurd rfl (h4 (fun _ => rfl) [] (by simp))
      | cons x xs => exact ⟨x, by rw [← h2]; simp, first_cons z h1 () e⟩

/-- The largest element of a non-empty list. -/
def IsMax (xs : List Int) (v : Int) : Prop := v ∈ xs ∧ ∀ x ∈ xs, x ≤ v
/-- The least element of a non-empty list. -/
def IsMin (xs : List Int) (v : Int) : Prop := v ∈ xs ∧ ∀ x ∈ xs, v ≤ x

theorem exists_max : ∀ {xs : List Int}, xs ≠ [] → ∃ v, IsMax xs v
  | [], h => absurd rfl h
  | [x], _ => ⟨x, by simp [IsMax]⟩
  | x :: y :: xs, _ => by
    obtain ⟨v, h1, h2⟩ := exists_max (xs := y :: xs) (by simp)
    by_cases hx : x ≤ v
    · exact ⟨v, List.mem_cons_of_mem _ h1, fun z hz => by rcases List.mem_cons.1 hz with rfl | hz; exact hx; exact h2 z hz⟩
    · exact ⟨x, by simp, fun z hz => by rcases List.mem_cons.1 hz with rfl | hz; exact Int.le_refl _; have := h2 z hz; omega⟩

theorem exists_min : ∀ {xs : List Int}, xs ≠ [] → ∃ v, IsMin xs v
  | [], h => absurd rfl h
  | [x], _ => ⟨x, by simp [IsMin]⟩
  | x :: y :: xs, _ => by
    obtain ⟨v, h1, h2⟩ := exists_min (xs := y :: xs) (by simp)
    by_cases hx : v ≤ x
    · exact ⟨v, List.mem_cons_of_mem _ h1, fun z hz => by rcases List.mem_cons.1 hz with rfl | hz; exact hx; exact h2 z hz⟩
    · exact ⟨x, by simp, fun z hz => by rcases List.mem_cons.1 hz with rfl | hz; exact Int.le_refl _; have := h2 z hz; omega⟩

theorem foldl_isMax {xs : List Int} {a v : Int} (ha : a ∈ xs) (hv : IsMax xs v) : xs.foldl (fun a b => if a > b then a else b) a = v := by
  obtain ⟨h1, -, h3⟩ := foldl_max xs a
  have h6 : xs.foldl (fun a b => if a > b then a else b) a ∈ xs := by
    rcases h1 with e | e
    · rw [e]; exact ha
    · exact e
  have h4 := hv.2 _ h6
  have h5 := h3 v hv.1
  omega

theorem foldl_isMin {xs : List Int} {a v : Int} (ha : a ∈ xs) (hv : IsMin xs v) : xs.foldl (fun a b => if a < b then a else b) a = v := by
  obtain ⟨h1, -, h3⟩ := foldl_min xs a
  have h6 : xs.foldl (fun a b => if a < b then a else b) a ∈ xs := by
    rcases h1 with e | e
    · rw [e]; exact ha
    · exact e
  have h4 := hv.2 _ h6
  have h5 := h3 v hv.1
  omega

/-- C83, Max: over a Map pipeline, when p divides len(s) > 0, on every schedule and sequentially. -/
theorem parallel_max_partial (m : Slice.Mem T) (s : Slice.Hdr) (hs : m.Ok s) (g : T → Int) (p : Nat) (hl : 0 < s.len) (hd : p ∣ s.len) (e : E) :
    ∃ v, IsMax ((m.view s).map g) v ∧ MaxReturns (pipe m s (fun _ => true) g p) () e v ∧ MaxReturns (pipe m s (fun _ => true) g 0) () e v := by
  have hq : (m.view s).filter (fun _ => true) = m.view s := by simp
  have hp : 1 ≤ p := Nat.pos_of_dvd_of_pos hd hl
  obtain ⟨v, hv⟩ := exists_max (xs := (m.view s).map g) (by intro h; have := congrArg List.length h; simp at this; omega)
  refine ⟨v, hv, ?_, ?_⟩
  · obtain ⟨x, hx, hf⟩ := first_pipe (E := E) 0 m s hs g p hl (.inr hd) e
    refine ⟨x, true, (), e, hf, ?_⟩
    rw [if_pos rfl]
    obtain ⟨segs, h1, h2, h3, -⟩ := pipe_splits (E := E) m s hs (fun _ => true) g p hp hl hd
    rw [hq] at h2
    refine foldWith_returns_par rfl hp h1 h3 () e fun c hcr => ?_
    obtain ⟨k1, k2⟩ := parMax _ h1 h3 x (by rw [h2]; exact hx) () e c hcr
    refine ⟨k1, fun w hw => ?_⟩
    obtain ⟨k3, k4⟩ := k2 w hw
    rw [h2] at k3 k4
    have := hv.2 w k3
    have := k4 v hv.1
    omega
  · obtain ⟨x, hx, hf⟩ := first_pipe (E := E) 0 m s hs g 0 hl (.inl rfl) e
    refine ⟨x, true, (), e, hf, ?_⟩
    rw [if_pos rfl]
    have := foldWith_returns_seq rfl (pipe_splits_zero (E := E) m s (fun _ => true) g 0) x (fun a b => if a > b then a else b) (fun a b => if a > b then a else b) () e
    rw [hq] at this
    simp only [List.flatten_cons, List.flatten_nil, List.append_nil] at this
    rwa [foldl_isMax hx hv] at this

/-- C83, Min. -/
theorem parallel_min_partial (m : Slice.Mem T) (s : Slice.Hdr) (hs : m.Ok s) (g : T → Int) (p : Nat) (hl : 0 < s.len) (hd : p ∣ s.len) (e : E) :
    ∃ v, IsMin ((m.view s).map g) v ∧ MinReturns (pipe m s (fun _ => true) g p) () e v ∧ MinReturns (pipe m s (fun _ => true) g 0) () e v := by
  have hq : (m.view s).filter (fun _ => true) = m.view s := by simp
  have hp : 1 ≤ p := Nat.pos_of_dvd_of_pos hd hl
  obtain ⟨v, hv⟩ := exists_min (xs := (m.view s).map g) (by intro h; have := congrArg List.length h; simp at this; omega)
  refine ⟨v, hv, ?_, ?_⟩
  · obtain ⟨x, hx, hf⟩ := first_pipe (E := E) 0 m s hs g p hl (.inr hd) e
    refine ⟨x, true, (), e, hf, ?_⟩
    rw [if_pos rfl]
    obtain ⟨segs, h1, h2, h3, -⟩ := pipe_splits (E := E) m s hs (fun _ => true) g p hp hl hd
    rw [hq] at h2
    refine foldWith_returns_par rfl hp h1 h3 () e fun c hcr => ?_
    obtain ⟨k1, k2⟩ := parMin _ h1 h3 x (by rw [h2]; exact hx) () e c hcr
    refine ⟨k1, fun w hw => ?_⟩
    obtain ⟨k3, k4⟩ := k2 w hw
    rw [h2] at k3 k4
    have := hv.2 w k3
    have := k4 v hv.1
    omega
  · obtain ⟨x, hx, hf⟩ := first_pipe (E := E) 0 m s hs g 0 hl (.inl rfl) e
    refine ⟨x, true, (), e, hf, ?_⟩
    rw [if_pos rfl]
    have := foldWith_returns_seq rfl (pipe_splits_zero (E := E) m s (fun _ => true) g 0) x (fun a b => if a < b then a else b) (fun a b => if a < b then a else b) () e
    rw [hq] at this
    simp only [List.flatten_cons, List.flatten_nil, List.append_nil] at this
    rwa [foldl_isMin hx hv] at this

theorem tryFoldSeg_pure {s : Stm E T} (q : T → Bool) {st xs} (h : PureSeg s st xs) : ∀ acc l e,
    ∃ r l' e', tryFoldSeg s (allCb q) st acc l e = .ok ((r, xs.all q), l', e') := by
  induction h with
  | nil h => intro acc l e; rw [tryFoldSeg]; exact ⟨acc, l, e, by simp [h l e]⟩
  | @cons st st' x xs h r ih =>
    intro acc l e
    rw [tryFoldSeg]
    by_cases hq : q x = true
    · obtain ⟨r, l', e', h'⟩ := ih acc l e
      exact ⟨r, l', e', by simp [h l e, hq, h']⟩
    · exact ⟨acc, l, e, by simp [h l e, hq]⟩

theorem tryFold_returns_seq (z : T) {s : Stm E T} (h0 : s.par = 0) {xs : List T} (hs : Splits s 0 [xs]) (ini : T) (q : T → Bool) (l : s.L) (e : E) :
    TryFoldReturns z s ini (allCb q) l e (xs.all q) := by
  rw [TryFoldReturns, if_pos h0]
  unfold Splits at hs
  cases hs with
  | cons h hsg r =>
    obtain ⟨r, l', e', h'⟩ := tryFoldSeg_pure q hsg ini l e
    exact ⟨r, l', e', by simp [tryFold, h0, h l e, h']⟩

theorem tryFold_returns_par (z : T) {s : Stm E T} {p : Nat} (h0 : s.par = p) (hp0 : 0 < p) {segs : List (List T)} (hs : Splits s p segs) (hp : segs.length = p)
    {x : T} (hx : x ∈ segs.flatten) (q : T → Bool) (l : s.L) (e : E) : TryFoldReturns z s x (allCb q) l e (segs.flatten.all q) := by
  have e1 : s.par.toNat = p := by omega
  rw [TryFoldReturns, if_neg (by omega), e1]
  exact ⟨by omega, fun c h v ok hv => parTry_result hs hp hx l e c h v ok hv,
    inevitably_of (TReach s p z x (allCb q) l e) (TSt.work p) (fun _ _ h hst => .step h hst)
      (fun c h => parTry_progress hs hp.ge hx l e c h) (fun c c' h hst => parTry_terminates hs hx l e c c' h hst) _ .init⟩

/-- C83, AllMatch. -/
theorem parallel_allMatch_partial (z : U) (m : Slice.Mem T) (s : Slice.Hdr) (hs : m.Ok s) (g : T → U) (q : U → Bool) (p : Nat) (hl : 0 < s.len)
    (hd : p ∣ s.len) (e : E) :
    AllMatchReturns z (pipe m s (fun _ => true) g p) q () e (((m.view s).map g).all q) ∧
    AllMatchReturns z (pipe m s (fun _ => true) g 0) q () e (((m.view s).map g).all q) := by
  have hq : (m.view s).filter (fun _ => true) = m.view s := by simp
  have hp : 1 ≤ p := Nat.pos_of_dvd_of_pos hd hl
  constructor
  · obtain ⟨x, hx, hf⟩ := first_pipe (E := E) z m s hs g p hl (.inr hd) e
    refine ⟨x, true, (), e, hf, ?_⟩
    rw [if_pos rfl]
    obtain ⟨segs, h1, h2, h3, -⟩ := pipe_splits (E := E) m s hs (fun _ => true) g p hp hl hd
    rw [hq] at h2
    rw [← h2] at hx ⊢
    exact tryFold_returns_par z rfl hp h1 h3 hx q () e
  · obtain ⟨x, hx, hf⟩ := first_pipe (E := E) z m s hs g 0 hl (.inl rfl) e
    refine ⟨x, true, (), e, hf, ?_⟩
    rw [if_pos rfl]
    have := tryFold_returns_seq z rfl (pipe_splits_zero (E := E) m s (fun _ => true) g 0) x q () e
    rwa [hq] at this

/-- C83, AnyMatch. -/
theorem parallel_anyMatch_partial (z : U) (m : Slice.Mem T) (s : Slice.Hdr) (hs : m.Ok s) (g : T → U) (q : U → Bool) (p : Nat) (hl : 0 < s.len)
    (hd : p ∣ s.len) (e : E) :
    AnyMatchReturns z (pipe m s (fun _ => true) g p) q () e (((m.view s).map g).any q) ∧
    AnyMatchReturns z (pipe m s (fun _ => true) g 0) q () e (((m.view s).map g).any q) := by
  have key : ∀ (s : Stm E U) l e b, AllMatchReturns z s (fun x => !q x) l e b → (∃ x l' e', first z s l e = .ok ((x, true), l', e')) →
      AnyMatchReturns z s q l e (!b) := by
    rintro s l e b ⟨x, ok, l', e', h1, h2⟩ ⟨x', l'', e'', h3⟩
    rw [h3] at h1
    simp only [Res.ok.injEq, Prod.mk.injEq] at h1
    obtain ⟨⟨rfl, rfl⟩, rfl, rfl⟩ := h1
    rw [if_pos rfl] at h2
    exact ⟨_, true, _, _, h3, by rw [if_pos rfl, anyCb_eq, Bool.not_not]; exact h2⟩
  obtain ⟨h1, h2⟩ := parallel_allMatch_partial (E := E) z m s hs g (fun x => !q x) p hl hd e
  obtain ⟨x, -, hx⟩ := first_pipe (E := E) z m s hs g p hl (.inr hd) e
  obtain ⟨y, -, hy⟩ := first_pipe (E := E) z m s hs g 0 hl (.inl rfl) e
  rw [List.any_eq_not_all_not]
  exact ⟨key _ _ _ _ h1 ⟨x, _, _, hx⟩, key _ _ _ _ h2 ⟨y, _, _, hy⟩⟩

/-- The hypotheses are met by [1, 2, 3] and p = 3. -/
example : mem123.Ok hdr123 ∧ 0 < hdr123.len ∧ 3 ∣ hdr123.len ∧ (mem123.view hdr123).map (· * 2) = [2, 4, 6] :=
  ⟨⟨by decide, by decide, by decide, by decide⟩, by decide, by decide, by decide⟩

/-- C83 is false for Max behind a Filter: with p = 3 the first segment of [1, 2, 3] is empty after the filter, `First` finds
    nothing and Max of the parallel stream is 0, of the sequential one 3. -/
theorem parallel_max_refuted :
    ¬ ∀ (m : Slice.Mem Int) (s : Slice.Hdr), m.Ok s → ∀ (q : Int → Bool) (p : Nat), 0 < s.len → p ∣ s.len → ∀ v,
      MaxReturns (pipe (E := Unit) m s q id 0) () () v → MaxReturns (pipe (E := Unit) m s q id p) () () v := by
  intro h
  have h1 : MaxReturns (pipe (E := Unit) mem123 hdr123 (fun x => decide (x > 1)) id 0) () () 3 := by
    have hs := pipe_splits_zero (E := Unit) mem123 hdr123 (fun x => decide (x > 1)) id 0
    have e : ((mem123.view hdr123).filter (fun x => decide (x > 1))).map id = [2, 3] := by decide
    rw [e] at hs
    refine ⟨2, true, (), (), first_cons 0 hs () (), ?_⟩
    rw [if_pos rfl]
    exact foldWith_returns_seq rfl hs 2 _ _ () ()
  have h2 := h mem123 hdr123 ⟨by decide, by decide, by decide, by decide⟩ (fun x => decide (x > 1)) 3 (by decide) (by decide) 3 h1
  obtain ⟨x, ok, l', e', h3, h4⟩ := h2
  have hf : first 0 (pipe (E := Unit) mem123 hdr123 (fun x => decide (x > 1)) id 3) () () = .ok ((0, false), (), ()) := by
    refine first_empty (s := pipe (E := Unit) mem123 hdr123 (fun x => decide (x > 1)) id 3) (segs := [[2], [3]]) 0 ?_ () ()
    have hsl : Iter.Yields (Slice.splitableIter hdr123 3) 0
        [{ arr := 0, off := 0, len := 1, cap := 3 }, { arr := 0, off := 1, len := 1, cap := 2 }, { arr := 0, off := 2, len := 1, cap := 1 }] 3 :=
      .cons rfl (.cons rfl (.cons rfl (.nil _)))
    have hsp := parallel_splits (q := 3) (map_splits id (filter_splits (fun x => decide (x > 1)) (ofSlice_segsOf (E := Unit) mem123 hdr123 0 3 hsl rfl)))
    exact hsp
  have h5 := hf.symm.trans h3
  simp only [Res.ok.injEq, Prod.mk.injEq] at h5
  obtain ⟨⟨rfl, rfl⟩, -⟩ := h5
  simp at h4

/-! ### C84: parallel calls that never return -/

theorem pipe_seg_short (m : Slice.Mem T) (s : Slice.Hdr) (hs : m.Ok s) (q : T → Bool) (g : T → U) (p : Nat) (h0 : 0 < s.len) (hp : s.len < p) :
    ∃ st : Slice.Hdr × Nat, ∀ (l : Unit) (e : E), (pipe (E := E) m s q g p).seg ((p, 0) : Int × Int) l e = .ok (some st, ((p, 0) : Int × Int), l, e) := by
  obtain ⟨segs, h1, h2, h3⟩ := Slice.split_endless s p hp h0 hs.len_le 1
  have h1 : ∃ x, Slice.splitableIter s p 0 = .ok (some x, 0) := by
    cases h1 with
    | nil => cases h2
    | cons hn hr =>
      cases hr with
      | nil => exact ⟨_, hn⟩
      | cons hn' hr' => simp at h2
  obtain ⟨x, hx⟩ := h1
  exact ⟨(x, 0), fun l e => by simp [pipe, parallel, map, filter, ofSlice, hx]⟩

/-- C84: FoldWith (Sum, Reduce, Max, Min) over a slice shorter than p never returns: it starts goroutines for ever. -/
theorem foldWith_short_never_returns (m : Slice.Mem T) (s : Slice.Hdr) (hs : m.Ok s) (q : T → Bool) (g : T → U) (p : Nat) (h0 : 0 < s.len)
    (hp : s.len < p) (ini : R) (f : R → U → R) (comb : R → R → R) (e : E) (c : FSt (pipe (E := E) m s q g p) R)
    (h : FReach (pipe (E := E) m s q g p) p ini f comb () e c) :
    (∀ v, c.main ≠ .done v) ∧ ∃ c', FStep (pipe (E := E) m s q g p) p ini f comb c c' ∧ c'.ws.length = c.ws.length + 1 := by
  obtain ⟨st0, hseg⟩ := pipe_seg_short (E := E) m s hs q g p h0 hp
  have key : c.main = .seg ((p, 0) : Int × Int) := by
    induction h with
    | init => rfl
    | step _ hst ih =>
      cases hst with
      | spawn g st g' l' e' hm hq => rw [ih] at hm; cases hm; have := (hseg _ _).symm.trans hq; cases this; rfl
      | segEnd g g' l' e' hm hq => rw [ih] at hm; cases hm; have := (hseg _ _).symm.trans hq; cases this
      | pull => exact ih
      | pullEnd => exact ih
      | send => exact ih
      | sendPanic => exact ih
      | recv acc k a rest hm => rw [ih] at hm; cases hm
      | close acc k hm => rw [ih] at hm; cases hm
  exact ⟨fun v hv => (by rw [key] at hv; cases hv), _, .spawn c _ _ _ _ _ key (hseg _ _), by simp⟩

/-- C84: Collect over a slice shorter than p never returns. -/
theorem collect_short_never_returns (m : Slice.Mem T) (s : Slice.Hdr) (hs : m.Ok s) (q : T → Bool) (g : T → U) (p : Nat) (h0 : 0 < s.len)
    (hp : s.len < p) (f : U → E → E) (e : E) (c : CSt (pipe (E := E) m s q g p)) (h : CReach (pipe (E := E) m s q g p) p f () e c) :
    c.main ≠ .done ∧ ∃ c', CStep (pipe (E := E) m s q g p) f c c' ∧ c'.ws.length = c.ws.length + 1 := by
  obtain ⟨st0, hseg⟩ := pipe_seg_short (E := E) m s hs q g p h0 hp
  have key : c.main = .seg ((p, 0) : Int × Int) := by
    induction h with
    | init => rfl
    | step _ hst ih =>
      cases hst with
      | spawn g st g' l' e' hm hq => rw [ih] at hm; cases hm; have := (hseg _ _).symm.trans hq; cases this; rfl
      | segEnd g g' l' e' hm hq => rw [ih] at hm; cases hm; have := (hseg _ _).symm.trans hq; cases this
      | pull => exact ih
      | pullEnd => exact ih
      | call => exact ih
      | waited hm => rw [ih] at hm; cases hm
  exact ⟨fun hv => (by rw [key] at hv; cases hv), _, .spawn c _ _ _ _ _ key (hseg _ _), by simp⟩

/-- C84: TryFold over a slice shorter than p never returns. -/
theorem tryFold_short_never_returns (z : U) (m : Slice.Mem T) (s : Slice.Hdr) (hs : m.Ok s) (q : T → Bool) (g : T → U) (p : Nat) (h0 : 0 < s.len)
    (hp : s.len < p) (ini : U) (f : U → U → U × Bool) (e : E) (c : TSt (pipe (E := E) m s q g p))
    (h : TReach (pipe (E := E) m s q g p) p z ini f () e c) :
    (∀ v ok, c.main ≠ .ret v ok) ∧ ∃ c', TStep (pipe (E := E) m s q g p) p z ini f c c' ∧ c'.ws.length = c.ws.length + 1 := by
  obtain ⟨st0, hseg⟩ := pipe_seg_short (E := E) m s hs q g p h0 hp
  have key : c.main = .seg ((p, 0) : Int × Int) := by
    induction h with
    | init => rfl
    | step _ hst ih =>
      cases hst with
      | spawn g st g' l' e' hm hq => rw [ih] at hm; cases hm; have := (hseg _ _).symm.trans hq; cases this; rfl
      | segEnd g g' l' e' hm hq => rw [ih] at hm; cases hm; have := (hseg _ _).symm.trans hq; cases this
      | pull => exact ih
      | pullEnd => exact ih
      | selDone => exact ih
      | selDefault => exact ih
      | callOk => exact ih
      | callStop => exact ih
      | cancel => exact ih
      | send => exact ih
      | recvOk acc k val a rest hm => rw [ih] at hm; cases hm
      | recvStop acc k val a rest hm => rw [ih] at hm; cases hm
      | recvDone acc k val hm => rw [ih] at hm; cases hm
      | finish acc k val hm => rw [ih] at hm; cases hm
  exact ⟨fun v ok hv => (by rw [key] at hv; cases hv), _, .spawn c _ _ _ _ _ key (hseg _ _), by simp⟩

/-- C84: FoldWith over an empty slice with parallelism p ≥ 1 deadlocks on every schedule: no schedule returns, and the only
    state without a next step is the caller waiting for a result nobody computes. -/
theorem foldWith_empty_deadlocks (m : Slice.Mem T) (s : Slice.Hdr) (q : T → Bool) (g : T → U) (p : Nat) (h0 : s.len = 0)
    (hp : 1 ≤ p) (ini : R) (f : R → U → R) (comb : R → R → R) (e : E) :
    (∀ c, FReach (pipe (E := E) m s q g p) p ini f comb () e c → ∀ v, c.main ≠ .done v) ∧
    Inevitably (FStep (pipe (E := E) m s q g p) p ini f comb) (fun c => c.main = .recv ini 0 ∧ ∀ c', ¬ FStep (pipe (E := E) m s q g p) p ini f comb c c')
      (FSt.init (pipe (E := E) m s q g p) R p () e) := by
  have hseg : ∀ (l : Unit) (e : E), (pipe (E := E) m s q g p).seg ((p, 0) : Int × Int) l e = .ok (none, ((p, 0) : Int × Int), l, e) := by
    intro l e
    simp [pipe, parallel, map, filter, ofSlice, Slice.split_empty s p (by omega) h0]
  have stuck : ∀ c : FSt (pipe (E := E) m s q g p) R, c.main = .recv ini 0 → c.ws = [] → c.chan = [] →
      ∀ c', ¬ FStep (pipe (E := E) m s q g p) p ini f comb c c' := by
    intro c h1 h2 h3 c' hst
    cases hst with
    | spawn g st g' l' e' hm hq => rw [h1] at hm; cases hm
    | segEnd g g' l' e' hm hq => rw [h1] at hm; cases hm
    | pull pre post st acc v st' l' e' hw => rw [h2] at hw; simp at hw
    | pullEnd pre post st acc st' l' e' hw => rw [h2] at hw; simp at hw
    | send pre post acc hw => rw [h2] at hw; simp at hw
    | sendPanic pre post acc hw => rw [h2] at hw; simp at hw
    | recv acc k a rest hm hk hc => rw [h3] at hc; cases hc
    | close acc k hm hk => rw [h1] at hm; cases hm; omega
  have hfst : ∀ c c' : FSt (pipe (E := E) m s q g p) R, c.main = .seg ((p, 0) : Int × Int) → c.ws = [] → c.chan = [] →
      FStep (pipe (E := E) m s q g p) p ini f comb c c' → c'.main = .recv ini 0 ∧ c'.ws = [] ∧ c'.chan = [] := by
    intro c c' h1 h2 h3 hst
    cases hst with
    | spawn g st g' l' e' hm hq => rw [h1] at hm; cases hm; have := (hseg _ _).symm.trans hq; cases this
    | segEnd g g' l' e' hm hq => exact ⟨rfl, h2, h3⟩
    | pull pre post st acc v st' l' e' hw => rw [h2] at hw; simp at hw
    | pullEnd pre post st acc st' l' e' hw => rw [h2] at hw; simp at hw
    | send pre post acc hw => rw [h2] at hw; simp at hw
    | sendPanic pre post acc hw => rw [h2] at hw; simp at hw
    | recv acc k a rest hm hk hc => rw [h3] at hc; cases hc
    | close acc k hm hk => rw [h1] at hm; cases hm
  refine ⟨?_, .next ⟨_, .segEnd _ _ _ _ _ rfl (hseg _ _)⟩ fun c' hst => ?_⟩
  · intro c h v hv
    have : (c.main = .seg ((p, 0) : Int × Int) ∨ c.main = .recv ini 0) ∧ c.ws = [] ∧ c.chan = [] := by
      clear hv
      induction h with
      | init => exact ⟨.inl rfl, rfl, rfl⟩
      | step _ hst ih =>
        obtain ⟨h1 | h1, h2, h3⟩ := ih
        · obtain ⟨a, b, c⟩ := hfst _ _ h1 h2 h3 hst; exact ⟨.inr a, b, c⟩
        · exact absurd hst (stuck _ h1 h2 h3 _)
    rcases this.1 with e | e <;> rw [e] at hv <;> cases hv
  · obtain ⟨a, b, c⟩ := hfst _ _ rfl rfl rfl hst
    exact .here ⟨a, stuck _ a b c⟩

/-- The hypotheses are met by [1, 2, 3] with p = 4 and by an empty slice with p = 2. -/
example : mem123.Ok hdr123 ∧ 0 < hdr123.len ∧ hdr123.len < 4 := ⟨⟨by decide, by decide, by decide, by decide⟩, by decide, by decide⟩
example : ({ hdr123 with len := 0 } : Slice.Hdr).len = 0 := rfl

end Gds.Stream
