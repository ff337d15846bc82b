import Verif.Stream.Terminal

/-! Property C129: sequential pipelines whose callbacks have effects: they are called element by element. -/
namespace Gds.Stream
variable {E T R U : Type}

/-! ### The operators with callbacks that act on the environment -/

/-- stream/map.go:5-28 `Map`; the callback reads and changes the environment. -/
def mapE (s : Stm E T) (f : T → E → R × E) : Stm E R where
  L := s.L
  G := s.G
  S := s.S
  init := s.init
  par := s.par
  activate := s.activate
  seg := s.seg
  pull := fun st l e => do
    let r ← s.pull st l e
    match r.1 with
    | none => pure (none, r.2)
    | some t => pure (some (f t r.2.2.2).1, r.2.1, r.2.2.1, (f t r.2.2.2).2)

/-- stream/filter.go:15-20, the loop of one pull; the callback reads and changes the environment. -/
def filterPullE (s : Stm E T) (p : T → E → Bool × E) (st : s.S) (l : s.L) (e : E) : Res (Option T × s.S × s.L × E) := do
  let r ← s.pull st l e
  match r.1 with
  | none => pure (none, r.2)
  | some t =>
    if (p t r.2.2.2).1 then pure (some t, r.2.1, r.2.2.1, (p t r.2.2.2).2) else filterPullE s p r.2.1 r.2.2.1 (p t r.2.2.2).2
partial_fixpoint

/-- stream/filter.go:5-30 `Filter`. -/
def filterE (s : Stm E T) (p : T → E → Bool × E) : Stm E T where
  L := s.L
  G := s.G
  S := s.S
  init := s.init
  par := s.par
  activate := s.activate
  seg := s.seg
  pull := filterPullE s p

/-- stream/skip.go:51-56, the loop of one pull of `SkipWhile`; the callback reads and changes the environment. -/
def skipWhilePullE (s : Stm E T) (p : T → E → Bool × E) (st : s.S) (l : s.L) (e : E) : Res (Option T × s.S × s.L × E) := do
  let r ← s.pull st l e
  match r.1 with
  | none => pure (none, r.2)
  | some t =>
    if (p t r.2.2.2).1 then skipWhilePullE s p r.2.1 r.2.2.1 (p t r.2.2.2).2 else pure (some t, r.2.1, r.2.2.1, (p t r.2.2.2).2)
partial_fixpoint

/-- stream/skip.go:40-66 `SkipWhile`. -/
def skipWhileE (s : Stm E T) (p : T → E → Bool × E) : Stm E T where
  L := s.L
  G := s.G
  S := s.S
  init := s.init
  par := s.par
  activate := s.activate
  seg := s.seg
  pull := skipWhilePullE s p

/-- stream/fold.go:11-25 `FoldWith`, branch `parallelism == 0`, with a callback that reads and changes the environment. -/
def foldWithE (s : Stm E T) (init : R) (f : R → T → E → R × E) (l : s.L) (e : E) : Res (R × s.L × E) :=
  foldSegs s f (s.activate s.par) init l e

/-- stream/reduce.go:3-9 `Reduce`, branch `parallelism == 0`, likewise. -/
def reduceE (z : T) (s : Stm E T) (f : T → T → E → T × E) (l : s.L) (e : E) : Res (T × s.L × E) := do
  let r ← first z s l e
  if r.1.2 then foldWithE s r.1.1 f r.2.1 r.2.2 else pure (r.1.1, r.2.1, r.2.2)

/-- stream/tryfold.go:15-21, the loop, with a callback that reads and changes the environment. -/
def tryFoldSegE (s : Stm E T) (f : T → T → E → (T × Bool) × E) (st : s.S) (acc : T) (l : s.L) (e : E) : Res ((T × Bool) × s.L × E) := do
  let r ← s.pull st l e
  match r.1 with
  | none => pure ((acc, true), r.2.2.1, r.2.2.2)
  | some v =>
    let a := f acc v r.2.2.2
    if a.1.2 then tryFoldSegE s f r.2.1 a.1.1 r.2.2.1 a.2
    else pure ((a.1.1, false), r.2.2.1, a.2)
partial_fixpoint

/-- stream/tryfold.go:9-22 `TryFold`, branch `parallelism == 0`, likewise. -/
def tryFoldE (z : T) (s : Stm E T) (init : T) (f : T → T → E → (T × Bool) × E) (l : s.L) (e : E) : Res ((T × Bool) × s.L × E) := do
  let r ← s.seg (s.activate s.par) l e
  match r.1 with
  | none => pure ((z, false), r.2.2.1, r.2.2.2)
  | some st => tryFoldSegE s f st init r.2.2.1 r.2.2.2

/-- stream/all_any_match.go:3-15 `AllMatch`, likewise. -/
def allMatchE (z : T) (s : Stm E T) (p : T → E → Bool × E) (l : s.L) (e : E) : Res (Bool × s.L × E) := do
  let r ← first z s l e
  if r.1.2 then do
    let t ← tryFoldE z s r.1.1 (fun a b e => ((a, (p b e).1), (p b e).2)) r.2.1 r.2.2
    pure (t.1.2, t.2)
  else pure (false, r.2)

/-- stream/all_any_match.go:17-29 `AnyMatch`, likewise. -/
def anyMatchE (z : T) (s : Stm E T) (p : T → E → Bool × E) (l : s.L) (e : E) : Res (Bool × s.L × E) := do
  let r ← first z s l e
  if r.1.2 then do
    let t ← tryFoldE z s r.1.1 (fun a b e => ((a, !(p b e).1), (p b e).2)) r.2.1 r.2.2
    pure (!t.1.2, t.2)
  else pure (false, r.2)

/-! ### Specification -/

/-- A pipeline on top of a source with elements of type `T`. -/
inductive Stages (E T : Type) : Type → Type 1 where
  | source : Stages E T T
  | map {R U : Type} (p : Stages E T R) (f : R → E → U × E) : Stages E T U
  | filter {R : Type} (p : Stages E T R) (q : R → E → Bool × E) : Stages E T R
  | skipWhile {R : Type} (p : Stages E T R) (q : R → E → Bool × E) : Stages E T R
  | inspect {R : Type} (p : Stages E T R) (g : R → E → E) : Stages E T R
  | take {R : Type} (p : Stages E T R) (n : Int) : Stages E T R
  | skip {R : Type} (p : Stages E T R) (n : Int) : Stages E T R
  | enumerate {R : Type} (p : Stages E T R) : Stages E T (Int × R)

namespace Stages

/-- The stream value the program builds. -/
def build (s : Stm E T) : {R : Type} → Stages E T R → Stm E R
  | _, source => s
  | _, map p f => mapE (p.build s) f
  | _, filter p q => filterE (p.build s) q
  | _, skipWhile p q => skipWhileE (p.build s) q
  | _, inspect p g => Stream.inspect (p.build s) g
  | _, take p n => Stream.take (p.build s) n
  | _, skip p n => Stream.skip (p.build s) n
  | _, enumerate p => Stream.enumerate (p.build s)

/-- How often each Take, Skip and Enumerate has counted. -/
def Count : {R : Type} → Stages E T R → Type
  | _, source => Unit
  | _, map p _ => p.Count
  | _, filter p _ => p.Count
  | _, skipWhile p _ => p.Count
  | _, inspect p _ => p.Count
  | _, take p _ => Int × p.Count
  | _, skip p _ => Int × p.Count
  | _, enumerate p => Int × p.Count

/-- Nothing counted yet. -/
def zero : {R : Type} → (p : Stages E T R) → p.Count
  | _, source => ()
  | _, map p _ => p.zero
  | _, filter p _ => p.zero
  | _, skipWhile p _ => p.zero
  | _, inspect p _ => p.zero
  | _, take p _ => (0, p.zero)
  | _, skip p _ => (0, p.zero)
  | _, enumerate p => (0, p.zero)

/-- Some Take has had its n elements: the source is not asked again. -/
def closed : {R : Type} → (p : Stages E T R) → p.Count → Bool
  | _, source, _ => false
  | _, map p _, c => p.closed c
  | _, filter p _, c => p.closed c
  | _, skipWhile p _, c => p.closed c
  | _, inspect p _, c => p.closed c
  | _, take p n, c => decide (n ≤ c.1) || p.closed c.2
  | _, skip p _, c => p.closed c.2
  | _, enumerate p, c => p.closed c.2

/-- One element of the source goes through all the callbacks, from the source on: what arrives, if anything does. -/
def one : {R : Type} → (p : Stages E T R) → T → p.Count → E → Option R × p.Count × E
  | _, source, x, c, e => (some x, c, e)
  | _, map p f, x, c, e =>
    match p.one x c e with
    | (none, c, e) => (none, c, e)
    | (some v, c, e) => (some (f v e).1, c, (f v e).2)
  | _, filter p q, x, c, e =>
    match p.one x c e with
    | (none, c, e) => (none, c, e)
    | (some v, c, e) => (if (q v e).1 then some v else none, c, (q v e).2)
  | _, skipWhile p q, x, c, e =>
    match p.one x c e with
    | (none, c, e) => (none, c, e)
    | (some v, c, e) => (if (q v e).1 then none else some v, c, (q v e).2)
  | _, inspect p g, x, c, e =>
    match p.one x c e with
    | (none, c, e) => (none, c, e)
    | (some v, c, e) => (some v, c, g v e)
  | _, take p _, x, c, e =>
    match p.one x c.2 e with
    | (none, c', e) => (none, (c.1, c'), e)
    | (some v, c', e) => (some v, (c.1 + 1, c'), e)
  | _, skip p n, x, c, e =>
    match p.one x c.2 e with
    | (none, c', e) => (none, (c.1, c'), e)
    | (some v, c', e) => (if c.1 + 1 < n then none else some v, (c.1 + 1, c'), e)
  | _, enumerate p, x, c, e =>
    match p.one x c.2 e with
    | (none, c', e) => (none, (c.1, c'), e)
    | (some v, c', e) => (some (c.1 + 1, v), (c.1 + 1, c'), e)

/-- Element by element: one goes through all the callbacks and into the fold before the next is touched. -/
def pass {A : Type} (p : Stages E T R) (F : A → R → E → A × E) : List T → p.Count → A → E → A × p.Count × E
  | [], c, a, e => (a, c, e)
  | x :: xs, c, a, e =>
    if p.closed c then (a, c, e)
    else match p.one x c e with
      | (none, c, e) => p.pass F xs c a e
      | (some v, c, e) => p.pass F xs c (F a v e).1 (F a v e).2

/-- Likewise, but it stops at the first answer `false` of the fold: what is behind is not touched. -/
def passTry {A : Type} (p : Stages E T R) (F : A → R → E → (A × Bool) × E) : List T → p.Count → A → E → (A × Bool) × p.Count × E
  | [], c, a, e => ((a, true), c, e)
  | x :: xs, c, a, e =>
    if p.closed c then ((a, true), c, e)
    else match p.one x c e with
      | (none, c, e) => p.passTry F xs c a e
      | (some v, c, e) => if (F a v e).1.2 then p.passTry F xs c (F a v e).1.1 (F a v e).2 else (((F a v e).1.1, false), c, (F a v e).2)

/-- Element by element until one arrives; the elements behind it are not touched. -/
def next (p : Stages E T R) : List T → p.Count → E → Option R × List T × p.Count × E
  | [], c, e => (none, [], c, e)
  | x :: xs, c, e =>
    if p.closed c then (none, x :: xs, c, e)
    else match p.one x c e with
      | (none, c, e) => p.next xs c e
      | (some v, c, e) => (some v, xs, c, e)

end Stages

/-! ### The pull function of a pipeline -/

namespace Stages
variable {s : Stm E T}

/-- The pull function in state `st` with counters `l`, when the source has `xs` left. -/
def At (s : Stm E T) : {R : Type} → (p : Stages E T R) → (p.build s).S → (p.build s).L → List T → p.Count → Prop
  | _, source, st, _, xs, _ => PureSeg s st xs
  | _, map p _, st, l, xs, c => p.At s st l xs c
  | _, filter p _, st, l, xs, c => p.At s st l xs c
  | _, skipWhile p _, st, l, xs, c => p.At s st l xs c
  | _, inspect p _, st, l, xs, c => p.At s st l xs c
  | _, take p _, st, l, xs, c => l.1 = c.1 ∧ p.At s st l.2 xs c.2
  | _, skip p _, st, l, xs, c => l.1 = c.1 ∧ p.At s st l.2 xs c.2
  | _, enumerate p, st, l, xs, c => l.1 = c.1 ∧ p.At s st l.2 xs c.2

/-- The counters alone. -/
def Counts (s : Stm E T) : {R : Type} → (p : Stages E T R) → (p.build s).L → p.Count → Prop
  | _, source, _, _ => True
  | _, map p _, l, c => p.Counts s l c
  | _, filter p _, l, c => p.Counts s l c
  | _, skipWhile p _, l, c => p.Counts s l c
  | _, inspect p _, l, c => p.Counts s l c
  | _, take p _, l, c => l.1 = c.1 ∧ p.Counts s l.2 c.2
  | _, skip p _, l, c => l.1 = c.1 ∧ p.Counts s l.2 c.2
  | _, enumerate p, l, c => l.1 = c.1 ∧ p.Counts s l.2 c.2

theorem counts_init : ∀ {R : Type} (p : Stages E T R), p.Counts s (p.build s).init p.zero
  | _, source => trivial
  | _, map p _ => counts_init p
  | _, filter p _ => counts_init p
  | _, skipWhile p _ => counts_init p
  | _, inspect p _ => counts_init p
  | _, take p _ => ⟨rfl, counts_init p⟩
  | _, skip p _ => ⟨rfl, counts_init p⟩
  | _, enumerate p => ⟨rfl, counts_init p⟩

theorem At.counts : ∀ {R : Type} (p : Stages E T R) {st l xs c}, p.At s st l xs c → p.Counts s l c
  | _, source, _, _, _, _, _ => trivial
  | _, map p _, _, _, _, _, h => At.counts p h
  | _, filter p _, _, _, _, _, h => At.counts p h
  | _, skipWhile p _, _, _, _, _, h => At.counts p h
  | _, inspect p _, _, _, _, _, h => At.counts p h
  | _, take p _, _, _, _, _, h => ⟨h.1, At.counts p h.2⟩
  | _, skip p _, _, _, _, _, h => ⟨h.1, At.counts p h.2⟩
  | _, enumerate p, _, _, _, _, h => ⟨h.1, At.counts p h.2⟩

/-- One pull answers `o`, with `xs'` left, counters `c'` and environment `e'`. -/
def Pulled (s : Stm E T) (p : Stages E T R) (r : Res (Option R × (p.build s).S × (p.build s).L × E)) (o : Option R × List T × p.Count × E) : Prop :=
  ∃ st' l', r = .ok (o.1, st', l', o.2.2.2) ∧ p.Counts s l' o.2.2.1 ∧ (o.1.isSome → p.At s st' l' o.2.1 o.2.2.1)

theorem next_source (xs : List T) (c : (source : Stages E T T).Count) (e : E) :
    (source : Stages E T T).next xs c e = match xs with | [] => (none, [], c, e) | x :: xs => (some x, xs, c, e) := by
  cases xs <;> rfl

theorem next_map (p : Stages E T R) (f : R → E → U × E) (xs : List T) (c : p.Count) (e : E) :
    (p.map f).next xs c e = (match p.next xs c e with | (none, r) => (none, r) | (some v, xs', c', e') => (some (f v e').1, xs', c', (f v e').2) :
      Option U × List T × p.Count × E) := by
  induction xs generalizing c e with
  | nil => rfl
  | cons x xs ih =>
    simp only [next, closed, one]
    by_cases hc : p.closed c = true
    · simp only [hc, if_true]; rfl
    · simp only [hc]
      rcases p.one x c e with ⟨_ | v, c', e'⟩
      · exact ih c' e'
      · rfl

theorem next_inspect (p : Stages E T R) (g : R → E → E) (xs : List T) (c : p.Count) (e : E) :
    (p.inspect g).next xs c e = (match p.next xs c e with | (none, r) => (none, r) | (some v, xs', c', e') => (some v, xs', c', g v e') :
      Option R × List T × p.Count × E) := by
  induction xs generalizing c e with
  | nil => rfl
  | cons x xs ih =>
    simp only [next, closed, one]
    by_cases hc : p.closed c = true
    · simp only [hc, if_true]; rfl
    · simp only [hc]
      rcases p.one x c e with ⟨_ | v, c', e'⟩
      · exact ih c' e'
      · rfl

theorem next_enumerate (p : Stages E T R) (xs : List T) (c : Int × p.Count) (e : E) :
    p.enumerate.next xs c e = (match p.next xs c.2 e with | (none, xs', c', e') => (none, xs', (c.1, c'), e') | (some v, xs', c', e') => (some (c.1 + 1, v), xs', (c.1 + 1, c'), e') :
      Option (Int × R) × List T × (Int × p.Count) × E) := by
  induction xs generalizing c e with
  | nil => rfl
  | cons x xs ih =>
    simp only [next, closed, one]
    by_cases hc : p.closed c.2 = true
    · simp only [hc, if_true]; rfl
    · simp only [hc]
      rcases p.one x c.2 e with ⟨_ | v, c', e'⟩
      · exact ih (c.1, c') e'
      · rfl

theorem next_take (p : Stages E T R) (n : Int) (xs : List T) (c : Int × p.Count) (e : E) :
    (p.take n).next xs c e = (if n ≤ c.1 then (none, xs, c, e) else
      match p.next xs c.2 e with | (none, xs', c', e') => (none, xs', (c.1, c'), e') | (some v, xs', c', e') => (some v, xs', (c.1 + 1, c'), e') :
      Option R × List T × (Int × p.Count) × E) := by
  induction xs generalizing c e with
  | nil => by_cases hn : n ≤ c.1 <;> simp only [hn, if_true, if_false, next] <;> rfl
  | cons x xs ih =>
    simp only [next, closed, one]
    by_cases hn : n ≤ c.1
    · simp only [hn, decide_true, Bool.true_or, if_true]; rfl
    · by_cases hc : p.closed c.2 = true
      · simp only [hn, hc, decide_false, Bool.or_true, if_true, if_false]; rfl
      · simp only [hn, hc, decide_false, Bool.or_false, if_false, Bool.false_eq_true]
        rcases p.one x c.2 e with ⟨_ | v, c', e'⟩
        · refine (ih (c.1, c') e').trans ?_
          simp only [hn, if_false]; rfl
        · rfl

theorem next_filter (p : Stages E T R) (q : R → E → Bool × E) (xs : List T) (c : p.Count) (e : E) :
    (p.filter q).next xs c e = (match p.next xs c e with
      | (none, r) => (none, r)
      | (some v, xs', c', e') => if (q v e').1 then (some v, xs', c', (q v e').2) else (p.filter q).next xs' c' (q v e').2 :
      Option R × List T × p.Count × E) := by
  induction xs generalizing c e with
  | nil => rfl
  | cons x xs ih =>
    simp only [next, closed, one]
    by_cases hc : p.closed c = true
    · simp only [hc, if_true]; rfl
    · simp only [hc]
      rcases p.one x c e with ⟨_ | v, c', e'⟩
      · exact ih c' e'
      · by_cases hq : (q v e').1 = true
        · simp [hq] <;> rfl
        · simp [hq] <;> rfl

theorem next_skipWhile (p : Stages E T R) (q : R → E → Bool × E) (xs : List T) (c : p.Count) (e : E) :
    (p.skipWhile q).next xs c e = (match p.next xs c e with
      | (none, r) => (none, r)
      | (some v, xs', c', e') => if (q v e').1 then (p.skipWhile q).next xs' c' (q v e').2 else (some v, xs', c', (q v e').2) :
      Option R × List T × p.Count × E) := by
  induction xs generalizing c e with
  | nil => rfl
  | cons x xs ih =>
    simp only [next, closed, one]
    by_cases hc : p.closed c = true
    · simp only [hc, if_true]; rfl
    · simp only [hc]
      rcases p.one x c e with ⟨_ | v, c', e'⟩
      · exact ih c' e'
      · by_cases hq : (q v e').1 = true
        · simp [hq] <;> rfl
        · simp [hq] <;> rfl

theorem next_skip (p : Stages E T R) (n : Int) (xs : List T) (c : Int × p.Count) (e : E) :
    (p.skip n).next xs c e = (match p.next xs c.2 e with
      | (none, xs', c', e') => (none, xs', (c.1, c'), e')
      | (some v, xs', c', e') => if c.1 + 1 < n then (p.skip n).next xs' (c.1 + 1, c') e' else (some v, xs', (c.1 + 1, c'), e') :
      Option R × List T × (Int × p.Count) × E) := by
  induction xs generalizing c e with
  | nil => rfl
  | cons x xs ih =>
    simp only [next, closed, one]
    by_cases hc : p.closed c.2 = true
    · simp only [hc, if_true]; rfl
    · simp only [hc]
      rcases p.one x c.2 e with ⟨_ | v, c', e'⟩
      · exact ih (c.1, c') e'
      · by_cases hq : c.1 + 1 < n
        · simp [hq] <;> rfl
        · simp [hq] <;> rfl

theorem next_shorter (p : Stages E T R) {xs : List T} {c : p.Count} {e : E} {v xs' c' e'} (h : p.next xs c e = (some v, xs', c', e')) :
    xs'.length < xs.length := by
  induction xs generalizing c e with
  | nil => simp [next] at h
  | cons x xs ih =>
    simp only [next] at h
    by_cases hc : p.closed c = true
    · simp [hc] at h
    · simp only [hc] at h
      rcases hx : p.one x c e with ⟨_ | w, c1, e1⟩
      · rw [hx] at h
        exact Nat.lt_succ_of_lt (ih h)
      · rw [hx] at h
        obtain ⟨-, h, -⟩ := by simpa using h
        simp [h]

/-- One pull of the pipeline is one `next` of the specification. -/
theorem pulled : ∀ {R : Type} (p : Stages E T R) {st l xs c}, p.At s st l xs c → ∀ e, p.Pulled s ((p.build s).pull st l e) (p.next xs c e)
  | _, source, st, l, xs, c, h, e => by
    cases h with
    | @nil _ st' h => exact ⟨st', l, h l e, trivial, fun h => by cases h⟩
    | @cons _ st' x xs h r => exact ⟨st', l, h l e, trivial, fun _ => r⟩
  | _, map p f, st, l, xs, c, h, e => by
    obtain ⟨st', l', h1, h2, h3⟩ := pulled p h e
    rw [show (p.map f).next xs c e = _ from next_map p f xs c e]
    rcases hn : p.next xs c e with ⟨_ | v, xs', c', e'⟩ <;> rw [hn] at h1 h2 h3
    · exact ⟨st', l', by simp [build, mapE, h1], h2, fun h => by cases h⟩
    · exact ⟨st', l', by simp [build, mapE, h1], h2, fun _ => h3 rfl⟩
  | _, inspect p f, st, l, xs, c, h, e => by
    obtain ⟨st', l', h1, h2, h3⟩ := pulled p h e
    rw [show (p.inspect f).next xs c e = _ from next_inspect p f xs c e]
    rcases hn : p.next xs c e with ⟨_ | v, xs', c', e'⟩ <;> rw [hn] at h1 h2 h3
    · exact ⟨st', l', by simp [build, Stream.inspect, h1], h2, fun h => by cases h⟩
    · exact ⟨st', l', by simp [build, Stream.inspect, h1], h2, fun _ => h3 rfl⟩
  | _, enumerate p, st, l, xs, c, h, e => by
    obtain ⟨st', l', h1, h2, h3⟩ := pulled p h.2 e
    have hl := h.1
    rw [show p.enumerate.next xs c e = _ from next_enumerate p xs c e]
    rcases hn : p.next xs c.2 e with ⟨_ | v, xs', c', e'⟩ <;> rw [hn] at h1 h2 h3
    · exact ⟨st', (l.1, l'), by simp [build, Stream.enumerate, h1], ⟨hl, h2⟩, fun h => by cases h⟩
    · exact ⟨st', (l.1 + 1, l'), by simp [build, Stream.enumerate, h1, hl], ⟨by simp [hl], h2⟩, fun _ => ⟨by simp [hl], h3 rfl⟩⟩
  | _, take p n, st, l, xs, c, h, e => by
    have hl := h.1
    rw [show (p.take n).next xs c e = _ from next_take p n xs c e]
    by_cases hn : n ≤ c.1
    · simp only [hn, if_true]
      exact ⟨st, l, by simp [build, Stream.take, hl, show ¬ c.1 < n by omega], ⟨hl, At.counts p h.2⟩, fun h => by cases h⟩
    · simp only [hn, if_false]
      obtain ⟨st', l', h1, h2, h3⟩ := pulled p h.2 e
      rcases hn' : p.next xs c.2 e with ⟨_ | v, xs', c', e'⟩ <;> rw [hn'] at h1 h2 h3
      · exact ⟨st', (l.1, l'), by simp [build, Stream.take, h1, hl, show c.1 < n by omega], ⟨hl, h2⟩, fun h => by cases h⟩
      · exact ⟨st', (l.1 + 1, l'), by simp [build, Stream.take, h1, hl, show c.1 < n by omega], ⟨by simp [hl], h2⟩, fun _ => ⟨by simp [hl], h3 rfl⟩⟩
  | _, filter p q, st, l, xs, c, h, e => by
    have key : ∀ k xs, xs.length ≤ k → ∀ st l c e, p.At s st l xs c →
        (p.filter q).Pulled s (filterPullE (p.build s) q st l e) ((p.filter q).next xs c e) := by
      intro k
      induction k with
      | zero =>
        intro xs hk st l c e h
        obtain ⟨st', l', h1, h2, h3⟩ := pulled p h e
        obtain rfl : xs = [] := by simpa using hk
        exact ⟨st', l', by rw [filterPullE, h1]; rfl, h2, fun h => by cases h⟩
      | succ k ih =>
        intro xs hk st l c e h
        obtain ⟨st', l', h1, h2, h3⟩ := pulled p h e
        rw [show (p.filter q).next xs c e = _ from next_filter p q xs c e, filterPullE]
        rcases hn : p.next xs c e with ⟨_ | v, xs', c', e'⟩ <;> rw [hn] at h1 h2 h3
        · exact ⟨st', l', by simp [h1]; rfl, h2, fun h => by cases h⟩
        · have hlt := next_shorter p hn
          simp only [h1, Res.bind_ok]
          by_cases hq : (q v e').1 = true
          · simp only [hq, if_true]
            exact ⟨st', l', rfl, h2, fun _ => h3 rfl⟩
          · simp only [hq]
            exact ih xs' (by omega) st' l' c' _ (h3 rfl)
    exact key xs.length xs (Nat.le_refl _) st l c e h
  | _, skipWhile p q, st, l, xs, c, h, e => by
    have key : ∀ k xs, xs.length ≤ k → ∀ st l c e, p.At s st l xs c →
        (p.skipWhile q).Pulled s (skipWhilePullE (p.build s) q st l e) ((p.skipWhile q).next xs c e) := by
      intro k
      induction k with
      | zero =>
        intro xs hk st l c e h
        obtain ⟨st', l', h1, h2, h3⟩ := pulled p h e
        obtain rfl : xs = [] := by simpa using hk
        exact ⟨st', l', by rw [skipWhilePullE, h1]; rfl, h2, fun h => by cases h⟩
      | succ k ih =>
        intro xs hk st l c e h
        obtain ⟨st', l', h1, h2, h3⟩ := pulled p h e
        rw [show (p.skipWhile q).next xs c e = _ from next_skipWhile p q xs c e, skipWhilePullE]
        rcases hn : p.next xs c e with ⟨_ | v, xs', c', e'⟩ <;> rw [hn] at h1 h2 h3
        · exact ⟨st', l', by simp [h1]; rfl, h2, fun h => by cases h⟩
        · have hlt := next_shorter p hn
          simp only [h1, Res.bind_ok]
          by_cases hq : (q v e').1 = true
          · simp only [hq, if_true]
            exact ih xs' (by omega) st' l' c' _ (h3 rfl)
          · simp only [hq]
            exact ⟨st', l', rfl, h2, fun _ => h3 rfl⟩
    exact key xs.length xs (Nat.le_refl _) st l c e h
  | _, skip p n, st, l, xs, c, h, e => by
    have key : ∀ k xs, xs.length ≤ k → ∀ st (l : Int × (p.build s).L) (c : Int × p.Count) e, l.1 = c.1 ∧ p.At s st l.2 xs c.2 →
        (p.skip n).Pulled s (skipPull (p.build s) n st l e) ((p.skip n).next xs c e) := by
      intro k
      induction k with
      | zero =>
        intro xs hk st l c e h
        obtain ⟨st', l', h1, h2, h3⟩ := pulled p h.2 e
        obtain rfl : xs = [] := by simpa using hk
        exact ⟨st', (l.1, l'), by rw [skipPull, h1]; rfl, ⟨h.1, h2⟩, fun h => by cases h⟩
      | succ k ih =>
        intro xs hk st l c e h
        have hl := h.1
        obtain ⟨st', l', h1, h2, h3⟩ := pulled p h.2 e
        rw [show (p.skip n).next xs c e = _ from next_skip p n xs c e, skipPull]
        rcases hn : p.next xs c.2 e with ⟨_ | v, xs', c', e'⟩ <;> rw [hn] at h1 h2 h3
        · exact ⟨st', (l.1, l'), by simp [h1]; rfl, ⟨hl, h2⟩, fun h => by cases h⟩
        · have hlt := next_shorter p hn
          simp only [h1, Res.bind_ok, hl]
          by_cases hq : c.1 + 1 < n
          · simp only [hq, if_true]
            exact ih xs' (by omega) st' (c.1 + 1, l') (c.1 + 1, c') _ ⟨rfl, h3 rfl⟩
          · simp only [hq, if_false]
            exact ⟨st', (c.1 + 1, l'), rfl, ⟨rfl, h2⟩, fun _ => ⟨rfl, h3 rfl⟩⟩
    exact key xs.length xs (Nat.le_refl _) st l c e h

/-! ### Segments -/

/-- A segment of the source as a segment of the pipeline. -/
def segAs (s : Stm E T) : {R : Type} → (p : Stages E T R) → s.S → (p.build s).S
  | _, source, st => st
  | _, map p _, st => p.segAs s st
  | _, filter p _, st => p.segAs s st
  | _, skipWhile p _, st => p.segAs s st
  | _, inspect p _, st => p.segAs s st
  | _, take p _, st => p.segAs s st
  | _, skip p _, st => p.segAs s st
  | _, enumerate p, st => p.segAs s st

/-- The segmenter of the source as the segmenter of the pipeline. -/
def genAs (s : Stm E T) : {R : Type} → (p : Stages E T R) → s.G → (p.build s).G
  | _, source, g => g
  | _, map p _, g => p.genAs s g
  | _, filter p _, g => p.genAs s g
  | _, skipWhile p _, g => p.genAs s g
  | _, inspect p _, g => p.genAs s g
  | _, take p _, g => p.genAs s g
  | _, skip p _, g => p.genAs s g
  | _, enumerate p, g => p.genAs s g

theorem build_par : ∀ {R : Type} (p : Stages E T R), (p.build s).par = s.par
  | _, source => rfl
  | _, map p _ => build_par p
  | _, filter p _ => build_par p
  | _, skipWhile p _ => build_par p
  | _, inspect p _ => build_par p
  | _, take p _ => build_par p
  | _, skip p _ => build_par p
  | _, enumerate p => build_par p

theorem build_activate : ∀ {R : Type} (p : Stages E T R) (n : Int), (p.build s).activate n = p.genAs s (s.activate n)
  | _, source, _ => rfl
  | _, map p _, n => build_activate p n
  | _, filter p _, n => build_activate p n
  | _, skipWhile p _, n => build_activate p n
  | _, inspect p _, n => build_activate p n
  | _, take p _, n => build_activate p n
  | _, skip p _, n => build_activate p n
  | _, enumerate p, n => build_activate p n

theorem at_segAs : ∀ {R : Type} (p : Stages E T R) {st l xs c}, PureSeg s st xs → p.Counts s l c → p.At s (p.segAs s st) l xs c
  | _, source, _, _, _, _, h, _ => h
  | _, map p _, _, _, _, _, h, hc => at_segAs p h hc
  | _, filter p _, _, _, _, _, h, hc => at_segAs p h hc
  | _, skipWhile p _, _, _, _, _, h, hc => at_segAs p h hc
  | _, inspect p _, _, _, _, _, h, hc => at_segAs p h hc
  | _, take p _, _, _, _, _, h, hc => ⟨hc.1, at_segAs p h hc.2⟩
  | _, skip p _, _, _, _, _, h, hc => ⟨hc.1, at_segAs p h hc.2⟩
  | _, enumerate p, _, _, _, _, h, hc => ⟨hc.1, at_segAs p h hc.2⟩

/-- The source's own counters. -/
def srcL (s : Stm E T) : {R : Type} → (p : Stages E T R) → (p.build s).L → s.L
  | _, source, l => l
  | _, map p _, l => p.srcL s l
  | _, filter p _, l => p.srcL s l
  | _, skipWhile p _, l => p.srcL s l
  | _, inspect p _, l => p.srcL s l
  | _, take p _, l => p.srcL s l.2
  | _, skip p _, l => p.srcL s l.2
  | _, enumerate p, l => p.srcL s l.2

theorem build_seg {g g' : s.G} {o : Option s.S} {e : E} :
    ∀ {R : Type} (p : Stages E T R) (l : (p.build s).L), s.seg g (p.srcL s l) e = .ok (o, g', p.srcL s l, e) →
      (p.build s).seg (p.genAs s g) l e = .ok (o.map (p.segAs s), p.genAs s g', l, e)
  | _, source, l, h => by cases o <;> exact h
  | _, map p _, l, h => build_seg p l h
  | _, filter p _, l, h => build_seg p l h
  | _, skipWhile p _, l, h => build_seg p l h
  | _, inspect p _, l, h => build_seg p l h
  | _, take p _, l, h => by
    show (Bind.bind ((p.build s).seg (p.genAs s g) l.2 e) _ : Res _) = _
    rw [build_seg p l.2 h]; rfl
  | _, skip p _, l, h => by
    show (Bind.bind ((p.build s).seg (p.genAs s g) l.2 e) _ : Res _) = _
    rw [build_seg p l.2 h]; rfl
  | _, enumerate p, l, h => by
    show (Bind.bind ((p.build s).seg (p.genAs s g) l.2 e) _ : Res _) = _
    rw [build_seg p l.2 h]; rfl

/-! ### Folds -/

theorem pass_next {A : Type} (p : Stages E T R) (F : A → R → E → A × E) (xs : List T) (c : p.Count) (a : A) (e : E) :
    p.pass F xs c a e = match p.next xs c e with
      | (none, _, c', e') => (a, c', e')
      | (some v, xs', c', e') => p.pass F xs' c' (F a v e').1 (F a v e').2 := by
  induction xs generalizing c e with
  | nil => rfl
  | cons x xs ih =>
    simp only [next, pass]
    by_cases hc : p.closed c = true
    · simp only [hc, if_true]
    · simp only [hc]
      rcases p.one x c e with ⟨_ | v, c', e'⟩
      · exact ih c' e'
      · rfl

theorem passTry_next {A : Type} (p : Stages E T R) (F : A → R → E → (A × Bool) × E) (xs : List T) (c : p.Count) (a : A) (e : E) :
    p.passTry F xs c a e = match p.next xs c e with
      | (none, _, c', e') => ((a, true), c', e')
      | (some v, xs', c', e') => if (F a v e').1.2 then p.passTry F xs' c' (F a v e').1.1 (F a v e').2 else (((F a v e').1.1, false), c', (F a v e').2) := by
  induction xs generalizing c e with
  | nil => rfl
  | cons x xs ih =>
    simp only [next, passTry]
    by_cases hc : p.closed c = true
    · simp only [hc, if_true]
    · simp only [hc]
      rcases p.one x c e with ⟨_ | v, c', e'⟩
      · exact ih c' e'
      · rfl

theorem pass_closed {A : Type} (p : Stages E T R) (F : A → R → E → A × E) (xs : List T) (c : p.Count) (a : A) (e : E) (h : p.closed c = true) :
    p.pass F xs c a e = (a, c, e) := by
  cases xs with
  | nil => rfl
  | cons x xs => simp only [pass, h, if_true]

theorem pass_append {A : Type} (p : Stages E T R) (F : A → R → E → A × E) (xs ys : List T) (c : p.Count) (a : A) (e : E) :
    p.pass F (xs ++ ys) c a e = p.pass F ys (p.pass F xs c a e).2.1 (p.pass F xs c a e).1 (p.pass F xs c a e).2.2 := by
  induction xs generalizing c a e with
  | nil => rfl
  | cons x xs ih =>
    by_cases hc : p.closed c = true
    · rw [pass_closed p F (x :: xs) c a e hc, pass_closed p F _ c a e hc, pass_closed p F _ c a e hc]
    · simp only [List.cons_append, pass, hc]
      rcases p.one x c e with ⟨_ | v, c', e'⟩
      · exact ih c' a e'
      · exact ih c' _ _

theorem foldSeg_pass {A : Type} (p : Stages E T R) (F : A → R → E → A × E) (k : Nat) : ∀ (xs : List T), xs.length ≤ k →
    ∀ st l c a e, p.At s st l xs c → ∃ l', foldSeg (p.build s) F st a l e = .ok ((p.pass F xs c a e).1, l', (p.pass F xs c a e).2.2) ∧
      p.Counts s l' (p.pass F xs c a e).2.1 := by
  induction k with
  | zero =>
    intro xs hk st l c a e h
    obtain ⟨st', l', h1, h2, h3⟩ := pulled p h e
    obtain rfl : xs = [] := by simpa using hk
    exact ⟨l', by rw [foldSeg, h1]; rfl, h2⟩
  | succ k ih =>
    intro xs hk st l c a e h
    obtain ⟨st', l', h1, h2, h3⟩ := pulled p h e
    rw [pass_next, foldSeg]
    rcases hn : p.next xs c e with ⟨_ | v, xs', c', e'⟩ <;> rw [hn] at h1 h2 h3
    · exact ⟨l', by simp [h1], h2⟩
    · have hlt := next_shorter p hn
      simp only [h1, Res.bind_ok]
      exact ih xs' (by omega) st' l' c' _ _ (h3 rfl)

theorem tryFoldSeg_pass (p : Stages E T R) (F : R → R → E → (R × Bool) × E) (k : Nat) : ∀ (xs : List T), xs.length ≤ k →
    ∀ st l c a e, p.At s st l xs c → ∃ l', tryFoldSegE (p.build s) F st a l e = .ok ((p.passTry F xs c a e).1, l', (p.passTry F xs c a e).2.2) ∧
      p.Counts s l' (p.passTry F xs c a e).2.1 := by
  induction k with
  | zero =>
    intro xs hk st l c a e h
    obtain ⟨st', l', h1, h2, h3⟩ := pulled p h e
    obtain rfl : xs = [] := by simpa using hk
    exact ⟨l', by rw [tryFoldSegE, h1]; rfl, h2⟩
  | succ k ih =>
    intro xs hk st l c a e h
    obtain ⟨st', l', h1, h2, h3⟩ := pulled p h e
    rw [passTry_next, tryFoldSegE]
    rcases hn : p.next xs c e with ⟨_ | v, xs', c', e'⟩ <;> rw [hn] at h1 h2 h3
    · exact ⟨l', by simp [h1], h2⟩
    · have hlt := next_shorter p hn
      simp only [h1, Res.bind_ok]
      by_cases hq : (F a v e').1.2 = true
      · simp only [hq, if_true]
        exact ih xs' (by omega) st' l' c' _ _ (h3 rfl)
      · simp only [hq]
        exact ⟨l', rfl, h2⟩

theorem foldSegs_pass {A : Type} (p : Stages E T R) (F : A → R → E → A × E) {g : s.G} {segs : List (List T)} (h : SegsOf s g segs) :
    ∀ l c a e, p.Counts s l c → ∃ l', foldSegs (p.build s) F (p.genAs s g) a l e =
      .ok ((p.pass F segs.flatten c a e).1, l', (p.pass F segs.flatten c a e).2.2) ∧ p.Counts s l' (p.pass F segs.flatten c a e).2.1 := by
  induction h with
  | nil h =>
    intro l c a e hc
    obtain ⟨g', hg⟩ := h (p.srcL s l) e
    refine ⟨l, ?_, hc⟩
    rw [foldSegs, build_seg p l hg]
    rfl
  | @cons g g' st xs segs h hs r ih =>
    intro l c a e hc
    obtain ⟨l1, h1, h2⟩ := foldSeg_pass p F xs.length xs (Nat.le_refl _) (p.segAs s st) l c a e (at_segAs p hs hc)
    obtain ⟨l2, h3, h4⟩ := ih l1 _ (p.pass F xs c a e).1 (p.pass F xs c a e).2.2 h2
    refine ⟨l2, ?_, ?_⟩
    · rw [foldSegs, build_seg p l (h _ _), List.flatten_cons, pass_append]
      simp only [Res.bind_ok, Option.map_some, h1]
      exact h3
    · rw [List.flatten_cons, pass_append]; exact h4

end Stages

/-! ### The terminal operations -/

/-- FoldWith on a sequential stream: every element goes through all the callbacks of the pipeline and into the fold
    before the next element is touched, and once a Take is full nothing is called any more; from any counters. -/
theorem foldWith_elementwise {s : Stm E T} {A : Type} (p : Stages E T R) (F : A → R → E → A × E) (hp : s.par = 0) {segs : List (List T)} (h : Splits s 0 segs)
    {l c} (hc : p.Counts s l c) (a : A) (e : E) :
    ∃ l', foldWithE (p.build s) a F l e = .ok ((p.pass F segs.flatten c a e).1, l', (p.pass F segs.flatten c a e).2.2) ∧
      p.Counts s l' (p.pass F segs.flatten c a e).2.1 := by
  have := p.foldSegs_pass F h l c a e hc
  rw [foldWithE, p.build_par, hp, p.build_activate]
  exact this

/-- Collect, likewise. -/
theorem collect_elementwise {s : Stm E T} (p : Stages E T R) (C : R → E → E) (hp : s.par = 0) {segs : List (List T)} (h : Splits s 0 segs)
    {l c} (hc : p.Counts s l c) (e : E) :
    ∃ l', collect (p.build s) C l e = .ok (l', (p.pass (fun (_ : Unit) v e => ((), C v e)) segs.flatten c () e).2.2) ∧
      p.Counts s l' (p.pass (fun (_ : Unit) v e => ((), C v e)) segs.flatten c () e).2.1 := by
  obtain ⟨l', h1, h2⟩ := p.foldSegs_pass (fun (_ : Unit) v e => ((), C v e)) h l c () e hc
  refine ⟨l', ?_, h2⟩
  rw [collect, p.build_par, hp, p.build_activate, h1]
  rfl

/-- First: callbacks run on the elements of the first segment until one arrives, and on no other. -/
theorem first_elementwise {s : Stm E T} (z : R) (p : Stages E T R) (hp : s.par = 0) {xs : List T} {segs : List (List T)} (h : Splits s 0 (xs :: segs))
    {l c} (hc : p.Counts s l c) (e : E) :
    ∃ l', first z (p.build s) l e = .ok ((match (p.next xs c e).1 with | some v => (v, true) | none => (z, false)), l', (p.next xs c e).2.2.2) ∧
      p.Counts s l' (p.next xs c e).2.2.1 := by
  cases h with
  | @cons _ g' st _ _ h hs r =>
    obtain ⟨st', l', h1, h2, -⟩ := p.pulled (p.at_segAs hs hc) e
    refine ⟨l', ?_, h2⟩
    rw [first, p.build_par, hp, p.build_activate, p.build_seg l (h _ _)]
    simp only [Res.bind_ok, Option.map_some, h1]
    cases (p.next xs c e).1 <;> rfl

/-- Reduce and MaxBy / MinBy: First, and then a second pass from the beginning — so the callbacks of the elements First has
    looked at run twice, with the counters of Take, Skip and Enumerate where First has left them. -/
theorem reduce_elementwise {s : Stm E T} (z : R) (p : Stages E T R) (F : R → R → E → R × E) (hp : s.par = 0) {xs : List T} {segs : List (List T)}
    (h : Splits s 0 (xs :: segs)) {l c} (hc : p.Counts s l c) (e : E) :
    match p.next xs c e with
    | (none, _, c', e') => ∃ l', reduceE z (p.build s) F l e = .ok (z, l', e') ∧ p.Counts s l' c'
    | (some v, _, c', e') => ∃ l', reduceE z (p.build s) F l e =
        .ok ((p.pass F (xs :: segs).flatten c' v e').1, l', (p.pass F (xs :: segs).flatten c' v e').2.2) ∧
        p.Counts s l' (p.pass F (xs :: segs).flatten c' v e').2.1 := by
  obtain ⟨l1, h1, h2⟩ := first_elementwise z p hp h hc e
  rcases hn : p.next xs c e with ⟨_ | v, xs', c', e'⟩ <;> rw [hn] at h1 h2
  · exact ⟨l1, by rw [reduceE, h1]; rfl, h2⟩
  · obtain ⟨l2, h3, h4⟩ := foldWith_elementwise p F hp h h2 v e'
    refine ⟨l2, ?_, h4⟩
    rw [reduceE, h1]
    exact h3

/-- TryFold: it stops at the first answer `false`; what lies behind that element is not touched, nor are the segments after the first. -/
theorem tryFold_elementwise {s : Stm E T} (z : R) (p : Stages E T R) (a : R) (F : R → R → E → (R × Bool) × E) (hp : s.par = 0) {xs : List T}
    {segs : List (List T)} (h : Splits s 0 (xs :: segs)) {l c} (hc : p.Counts s l c) (e : E) :
    ∃ l', tryFoldE z (p.build s) a F l e = .ok ((p.passTry F xs c a e).1, l', (p.passTry F xs c a e).2.2) ∧
      p.Counts s l' (p.passTry F xs c a e).2.1 := by
  cases h with
  | @cons _ g' st _ _ h hs r =>
    obtain ⟨l', h1, h2⟩ := p.tryFoldSeg_pass F xs.length xs (Nat.le_refl _) _ l c a e (p.at_segAs hs hc)
    refine ⟨l', ?_, h2⟩
    rw [tryFoldE, p.build_par, hp, p.build_activate, p.build_seg l (h _ _)]
    simp only [Res.bind_ok, Option.map_some, h1]

/-- AllMatch: First, and then the predicate on the elements that arrive in a second pass, up to the first that fails. -/
theorem allMatch_elementwise {s : Stm E T} (z : R) (p : Stages E T R) (q : R → E → Bool × E) (hp : s.par = 0) {xs : List T}
    {segs : List (List T)} (h : Splits s 0 (xs :: segs)) {l c} (hc : p.Counts s l c) (e : E) :
    match p.next xs c e with
    | (none, _, c', e') => ∃ l', allMatchE z (p.build s) q l e = .ok (false, l', e') ∧ p.Counts s l' c'
    | (some v, _, c', e') => ∃ l', allMatchE z (p.build s) q l e =
        .ok ((p.passTry (fun a b e => ((a, (q b e).1), (q b e).2)) xs c' v e').1.2, l', (p.passTry (fun a b e => ((a, (q b e).1), (q b e).2)) xs c' v e').2.2) ∧
        p.Counts s l' (p.passTry (fun a b e => ((a, (q b e).1), (q b e).2)) xs c' v e').2.1 := by
  obtain ⟨l1, h1, h2⟩ := first_elementwise z p hp h hc e
  rcases hn : p.next xs c e with ⟨_ | v, xs', c', e'⟩ <;> rw [hn] at h1 h2
  · exact ⟨l1, by rw [allMatchE, h1]; rfl, h2⟩
  · obtain ⟨l2, h3, h4⟩ := tryFold_elementwise z p v (fun a b e => ((a, (q b e).1), (q b e).2)) hp h h2 e'
    refine ⟨l2, ?_, h4⟩
    rw [allMatchE, h1]
    simp only [Res.bind_ok, if_true, h3]
    rfl

/-- AnyMatch: likewise, up to the first that passes. -/
theorem anyMatch_elementwise {s : Stm E T} (z : R) (p : Stages E T R) (q : R → E → Bool × E) (hp : s.par = 0) {xs : List T}
    {segs : List (List T)} (h : Splits s 0 (xs :: segs)) {l c} (hc : p.Counts s l c) (e : E) :
    match p.next xs c e with
    | (none, _, c', e') => ∃ l', anyMatchE z (p.build s) q l e = .ok (false, l', e') ∧ p.Counts s l' c'
    | (some v, _, c', e') => ∃ l', anyMatchE z (p.build s) q l e =
        .ok (!(p.passTry (fun a b e => ((a, !(q b e).1), (q b e).2)) xs c' v e').1.2, l', (p.passTry (fun a b e => ((a, !(q b e).1), (q b e).2)) xs c' v e').2.2) ∧
        p.Counts s l' (p.passTry (fun a b e => ((a, !(q b e).1), (q b e).2)) xs c' v e').2.1 := by
  obtain ⟨l1, h1, h2⟩ := first_elementwise z p hp h hc e
  rcases hn : p.next xs c e with ⟨_ | v, xs', c', e'⟩ <;> rw [hn] at h1 h2
  · exact ⟨l1, by rw [anyMatchE, h1]; rfl, h2⟩
  · obtain ⟨l2, h3, h4⟩ := tryFold_elementwise z p v (fun a b e => ((a, !(q b e).1), (q b e).2)) hp h h2 e'
    refine ⟨l2, ?_, h4⟩
    rw [anyMatchE, h1]
    simp only [Res.bind_ok, if_true, h3]
    rfl

/-! ### Read as list folds -/

/-- Two Inspects and a Collect: for each element in turn the first, the second and then the collector — not one stage after the other. -/
theorem inspect_inspect_collect {s : Stm E T} (g g' C : T → E → E) (hp : s.par = 0) {segs : List (List T)} (h : Splits s 0 segs) (l : s.L) (e : E) :
    ∃ l', collect (inspect (inspect s g) g') C l e = .ok (l', segs.flatten.foldl (fun e x => C x (g' x (g x e))) e) := by
  obtain ⟨l', h1, -⟩ := collect_elementwise ((Stages.source.inspect g).inspect g') C hp h (l := l) (c := ()) trivial e
  refine ⟨l', h1.trans ?_⟩
  congr 2
  generalize segs.flatten = xs
  clear h h1
  induction xs generalizing e with
  | nil => rfl
  | cons x xs ih => exact ih _

/-- Take(n) behind an Inspect: the callback is called on the first n elements only, each followed by the collector. -/
theorem inspect_take_collect {s : Stm E T} (g C : T → E → E) (n : Nat) (hp : s.par = 0) {segs : List (List T)} (h : Splits s 0 segs) (l : s.L) (e : E) :
    ∃ l', collect (take (inspect s g) n) C (0, l) e = .ok (l', (segs.flatten.take n).foldl (fun e x => C x (g x e)) e) := by
  obtain ⟨l', h1, -⟩ := collect_elementwise ((Stages.source.inspect g).take n) C hp h (l := (0, l)) (c := (0, ())) ⟨rfl, trivial⟩ e
  refine ⟨l', h1.trans ?_⟩
  congr 2
  clear h1
  have key : ∀ (xs : List T) (m k : Nat) (e : E), k + m = n →
      (((Stages.source.inspect g).take (n : Int)).pass (fun (_ : Unit) v e => ((), C v e)) xs ((k : Int), ()) () e).2.2 = (xs.take m).foldl (fun e x => C x (g x e)) e := by
    intro xs
    induction xs with
    | nil => intro m k e _; simp [Stages.pass]
    | cons x xs ih =>
      intro m k e hm
      cases m with
      | zero =>
        have : ((Stages.source.inspect g).take (n : Int)).closed ((k : Int), ()) = true := by simp only [Stages.closed]; simp; omega
        exact congrArg (·.2.2) (Stages.pass_closed ((Stages.source.inspect g).take (n : Int)) (fun (_ : Unit) v e => ((), C v e)) (x :: xs) ((k : Int), ()) () e this)
      | succ m =>
        have : ((Stages.source.inspect g).take (n : Int)).closed ((k : Int), ()) = false := by simp only [Stages.closed]; simp; omega
        simp only [Stages.pass, this]
        exact ih m (k + 1) _ (by omega)
  exact key _ n 0 e (by omega)

/-- Filter before an Inspect: the predicate is called on every element, the inspection on those that pass, before the next is looked at. -/
theorem filter_inspect_collect {s : Stm E T} (q : T → E → Bool × E) (g C : T → E → E) (hp : s.par = 0) {segs : List (List T)} (h : Splits s 0 segs) (l : s.L) (e : E) :
    ∃ l', collect (inspect (filterE s q) g) C l e =
      .ok (l', segs.flatten.foldl (fun e x => if (q x e).1 then C x (g x (q x e).2) else (q x e).2) e) := by
  obtain ⟨l', h1, -⟩ := collect_elementwise ((Stages.source.filter q).inspect g) C hp h (l := l) (c := ()) trivial e
  refine ⟨l', h1.trans ?_⟩
  congr 2
  generalize segs.flatten = xs
  clear h h1
  induction xs generalizing e with
  | nil => rfl
  | cons x xs ih =>
    rw [List.foldl_cons, ← ih]
    simp only [Stages.pass, Stages.closed, Stages.one]
    by_cases hq : (q x e).1 = true <;> simp [hq]

/-! ### Callbacks without effects -/

theorem mapE_pure (s : Stm E T) (f : T → R) : mapE s (fun t e => (f t, e)) = map s f := by
  simp only [mapE, map]
  congr 1
  funext st l e
  cases s.pull st l e with
  | ok r => rcases r with ⟨_ | t, r⟩ <;> rfl
  | panic _ => rfl
  | hang => rfl

theorem filterE_pure (s : Stm E T) (q : T → Bool) : filterE s (fun t e => (q t, e)) = filter s q := by
  have : filterPullE s (fun t e => (q t, e)) = filterPull s q := by
    delta filterPullE filterPull
    rfl
  simp only [filterE, filter, this]

theorem skipWhileE_pure (s : Stm E T) (q : T → Bool) : skipWhileE s (fun t e => (q t, e)) = skipWhile s q := by
  have : skipWhilePullE s (fun t e => (q t, e)) = skipWhilePull s q := by
    delta skipWhilePullE skipWhilePull
    rfl
  simp only [skipWhileE, skipWhile, this]

theorem foldWithE_pure {A : Type} (s : Stm E T) (a : A) (f : A → T → A) (l : s.L) (e : E) :
    foldWithE s a (fun a t e => (f a t, e)) l e = foldWith s a f l e := rfl

/-! ### A run -/

/-- Who was called with what. -/
inductive Ev where
  | map (x : Nat) | filter (x : Nat) | inspect (x : Nat) | fold (a x : Nat)
deriving DecidableEq

/-- Map by 10, Filter the multiples of 20, Inspect, Take 2: every callback writes its argument into a log. -/
def logged : Stages (List Ev) Nat Nat :=
  (((Stages.source.map (fun x e => (10 * x, e ++ [Ev.map x]))).filter (fun x e => (x % 20 == 0, e ++ [Ev.filter x]))).inspect (fun x e => e ++ [Ev.inspect x])).take 2

/-- The slice 1, 2, 3, 4, 5, 6. -/
def digits : Slice.Mem Nat := { cell := fun _ i => i + 1, size := fun _ => 6, next := 1 }

/-- The hypotheses are met, and the callbacks run interleaved; 5 and 6 are not touched. -/
example : ∃ l', foldWithE (logged.build (ofSlice digits ⟨false, 0, 0, 6, 6⟩ 0)) 0 (fun a x e => (a + x, e ++ [Ev.fold a x])) (0, ()) [] =
    .ok (60, l', [.map 1, .filter 10, .map 2, .filter 20, .inspect 20, .fold 0 20, .map 3, .filter 30, .map 4, .filter 40, .inspect 40, .fold 20 40]) := by
  obtain ⟨l', h, -⟩ := foldWith_elementwise (s := ofSlice digits ⟨false, 0, 0, 6, 6⟩ 0) logged (fun (a : Nat) x e => (a + x, e ++ [Ev.fold a x])) rfl
    (slice_splits_zero _ _ _) (logged.counts_init) 0 []
  exact ⟨l', h⟩

/-- Reduce on the same pipeline: the first pull happens twice, and Take has only one element left for the second pass. -/
example : ∃ l', reduceE 0 (logged.build (ofSlice digits ⟨false, 0, 0, 6, 6⟩ 0)) (fun a x e => (a + x, e ++ [Ev.fold a x])) (0, ()) [] =
    .ok (40, l', [.map 1, .filter 10, .map 2, .filter 20, .inspect 20, .map 1, .filter 10, .map 2, .filter 20, .inspect 20, .fold 20 20]) := by
  obtain ⟨l', h, -⟩ := reduce_elementwise (s := ofSlice digits ⟨false, 0, 0, 6, 6⟩ 0) 0 logged (fun (a : Nat) x e => (a + x, e ++ [Ev.fold a x])) rfl
    (slice_splits_zero _ _ _) (logged.counts_init) []
  exact ⟨l', h⟩

/-- AnyMatch: the predicate is called up to the first element that passes. -/
example : ∃ l', anyMatchE 0 ((Stages.source.inspect (fun (x : Nat) (e : List Ev) => e ++ [Ev.inspect x])).build (ofSlice digits ⟨false, 0, 0, 6, 6⟩ 0))
    (fun x e => (x == 2, e ++ [Ev.filter x])) () [] = .ok (true, l', [.inspect 1, .inspect 1, .filter 1, .inspect 2, .filter 2]) := by
  obtain ⟨l', h, -⟩ := anyMatch_elementwise (s := ofSlice digits ⟨false, 0, 0, 6, 6⟩ 0) 0 (Stages.source.inspect (fun (x : Nat) (e : List Ev) => e ++ [Ev.inspect x]))
    (fun x e => (x == 2, e ++ [Ev.filter x])) rfl (slice_splits_zero _ _ _) (l := ()) (c := ()) trivial []
  exact ⟨l', h⟩

end Gds.Stream
