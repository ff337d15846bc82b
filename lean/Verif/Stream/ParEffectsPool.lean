import Verif.Stream.ParEffects

/-! Invariants of the goroutines of C132. -/
namespace Gds.Stream
variable {E T R U A : Type}

/-! ### One goroutine -/

/-- What a stage makes of a call list. -/
def after (h : R → List (Act E) × Option U) : List (Act E) × Option R → List (Act E) × Option U
  | (as, none) => (as, none)
  | (as, some v) => (as ++ (h v).1, (h v).2)

/-- A stage in front of a pull function. -/
def Sat {S : Type} (h : R → List (Act E) × Option U) (P : S → List (Act E) × Option R → List T → Nat → Prop) :
    S ⊕ (R × S) → List (Act E) × Option U → List T → Nat → Prop
  | .inl st, cur, xs, m => ∃ cur' m', P st cur' xs m' ∧ cur = after h cur' ∧ m = 2 * m'
  | .inr (v, st), cur, xs, m => ∃ m', P st ([], none) xs m' ∧ cur = h v ∧ m = 2 * m' + 1

namespace Ops

def mapH (e₀ : E) (f : R → E → U × E) (v : R) : List (Act E) × Option U := ([fun e => (f v e).2], some (f v e₀).1)
def filterH (e₀ : E) (q : R → E → Bool × E) (v : R) : List (Act E) × Option R := ([fun e => (q v e).2], if (q v e₀).1 then some v else none)
def skipWhileH (e₀ : E) (q : R → E → Bool × E) (v : R) : List (Act E) × Option R := ([fun e => (q v e).2], if (q v e₀).1 then none else some v)
def inspectH (g : R → E → E) (v : R) : List (Act E) × Option R := ([g v], some v)

/-- The pull function stands in the middle of an element (the calls still to be made for it, and what will arrive), with
    the elements `xs` still to be asked for, and at most `m` steps to go. -/
def Sus (e₀ : E) (s : Stm E T) : {R : Type} → (p : Ops E T R) → p.Susp s → List (Act E) × Option R → List T → Nat → Prop
  | _, source, st, cur, xs, m => cur = ([], none) ∧ PureSeg s st xs ∧ m = xs.length + 1
  | _, map p f, st, cur, xs, m => Sat (mapH e₀ f) (p.Sus e₀ s) st cur xs m
  | _, filter p q, st, cur, xs, m => Sat (filterH e₀ q) (p.Sus e₀ s) st cur xs m
  | _, skipWhile p q, st, cur, xs, m => Sat (skipWhileH e₀ q) (p.Sus e₀ s) st cur xs m
  | _, inspect p g, st, cur, xs, m => Sat (inspectH g) (p.Sus e₀ s) st cur xs m

/-- Steps of the pull function of a stage per step of the source. -/
def scale : {R : Type} → Ops E T R → Nat → Nat
  | _, source, n => n
  | _, map p _, n => 2 * p.scale n
  | _, filter p _, n => 2 * p.scale n
  | _, skipWhile p _, n => 2 * p.scale n
  | _, inspect p _, n => 2 * p.scale n

theorem calls_map (e₀ : E) (p : Ops E T R) (f : R → E → U × E) (x : T) : (p.map f).calls e₀ x = after (mapH e₀ f) (p.calls e₀ x) := by
  rw [calls]; rcases p.calls e₀ x with ⟨as, _ | v⟩ <;> rfl
theorem calls_filter (e₀ : E) (p : Ops E T R) (q : R → E → Bool × E) (x : T) : (p.filter q).calls e₀ x = after (filterH e₀ q) (p.calls e₀ x) := by
  rw [calls]; rcases p.calls e₀ x with ⟨as, _ | v⟩ <;> rfl
theorem calls_skipWhile (e₀ : E) (p : Ops E T R) (q : R → E → Bool × E) (x : T) : (p.skipWhile q).calls e₀ x = after (skipWhileH e₀ q) (p.calls e₀ x) := by
  rw [calls]; rcases p.calls e₀ x with ⟨as, _ | v⟩ <;> rfl
theorem calls_inspect (e₀ : E) (p : Ops E T R) (g : R → E → E) (x : T) : (p.inspect g).calls e₀ x = after (inspectH g) (p.calls e₀ x) := by
  rw [calls]; rcases p.calls e₀ x with ⟨as, _ | v⟩ <;> rfl

end Ops

/-- The calls `gs` lead from one place to another. -/
def Moves (calls : T → List (Act E) × Option R) (gs : List (Act E)) (cur : List (Act E) × Option R) (xs : List T)
    (cur' : List (Act E) × Option R) (xs' : List T) : Prop :=
  (cur = (gs ++ cur'.1, cur'.2) ∧ xs' = xs) ∨ (cur = ([], none) ∧ ∃ x, xs = x :: xs' ∧ calls x = (gs ++ cur'.1, cur'.2))

/-- A step function does what the call lists say. -/
def Ticks {L S : Type} (calls : T → List (Act E) × Option R) (P : S → List (Act E) × Option R → List T → Nat → Prop)
    (τ : S → L → E → Res (Tick R S × L × E)) : Prop :=
  ∀ st cur xs m, P st cur xs m → ∀ l e, ∃ gs t, τ st l e = .ok (t, l, perform gs e) ∧ gs.length ≤ 1 ∧
    match t with
    | .more st' => ∃ cur' xs' m', m' < m ∧ P st' cur' xs' m' ∧ Moves calls gs cur xs cur' xs'
    | .yield v st' => ∃ xs' m', m' < m ∧ P st' ([], none) xs' m' ∧ Moves calls gs cur xs ([], some v) xs'
    | .stop _ => 0 < m ∧ gs = [] ∧ cur = ([], none) ∧ xs = []

theorem Ticks.stage {L S : Type} {calls : T → List (Act E) × Option R} {P : S → List (Act E) × Option R → List T → Nat → Prop}
    {τ : S → L → E → Res (Tick R S × L × E)} (hτ : Ticks calls P τ) (h : R → List (Act E) × Option U) (calls' : T → List (Act E) × Option U)
    (hc : ∀ x, calls' x = after h (calls x)) (hl : ∀ v, (h v).1.length ≤ 1) (τ' : S ⊕ (R × S) → L → E → Res (Tick U (S ⊕ (R × S)) × L × E))
    (h1 : ∀ st l e, τ' (.inl st) l e = (do
      let r ← τ st l e
      match r.1 with
      | .more st' => pure (.more (.inl st'), r.2)
      | .yield v st' => pure (.more (.inr (v, st')), r.2)
      | .stop st' => pure (.stop (.inl st'), r.2)))
    (h2 : ∀ v st l e, τ' (.inr (v, st)) l e = .ok ((match (h v).2 with | some u => .yield u (.inl st) | none => .more (.inl st)), l, perform (h v).1 e)) :
    Ticks calls' (Sat h P) τ' := by
  rintro (st | ⟨v, st⟩) cur xs m hs l e
  · obtain ⟨cur0, m0, hp, rfl, rfl⟩ := hs
    obtain ⟨gs, t, ht, hgs, hres⟩ := hτ st cur0 xs m0 hp l e
    rw [h1, ht]
    cases t with
    | more st' =>
      obtain ⟨cur', xs', m', hm, hp', hmv⟩ := hres
      refine ⟨gs, .more (.inl st'), rfl, hgs, after h cur', xs', 2 * m', by omega, ⟨cur', m', hp', rfl, rfl⟩, ?_⟩
      rcases hmv with ⟨rfl, rfl⟩ | ⟨rfl, x, rfl, hx⟩
      · left
        rcases cur' with ⟨as, _ | v⟩ <;> simp [after]
      · right
        refine ⟨rfl, x, rfl, ?_⟩
        rw [hc, hx]
        rcases cur' with ⟨as, _ | v⟩ <;> simp [after]
    | yield v st' =>
      obtain ⟨xs', m', hm, hp', hmv⟩ := hres
      refine ⟨gs, .more (.inr (v, st')), rfl, hgs, h v, xs', 2 * m' + 1, by omega, ⟨m', hp', rfl, rfl⟩, ?_⟩
      rcases hmv with ⟨rfl, rfl⟩ | ⟨rfl, x, rfl, hx⟩
      · left
        simp [after]
      · right
        refine ⟨rfl, x, rfl, ?_⟩
        rw [hc, hx]
        simp [after]
    | stop st' =>
      obtain ⟨hm, rfl, rfl, rfl⟩ := hres
      exact ⟨[], .stop (.inl st'), rfl, by simp, by omega, rfl, rfl, rfl⟩
  · obtain ⟨m0, hp, rfl, rfl⟩ := hs
    rw [h2]
    have hl := hl v
    rcases hv : h v with ⟨as, _ | u⟩ <;> rw [hv] at hl
    · exact ⟨as, .more (.inl st), rfl, hl, ([], none), xs, 2 * m0, by omega, ⟨_, _, hp, rfl, rfl⟩, .inl ⟨by simp, rfl⟩⟩
    · exact ⟨as, .yield u (.inl st), rfl, hl, xs, 2 * m0, by omega, ⟨_, _, hp, rfl, rfl⟩, .inl ⟨by simp, rfl⟩⟩

theorem Ops.ticks (e₀ : E) (s : Stm E T) : ∀ {R : Type} (p : Ops E T R), p.Steady → Ticks (p.calls e₀) (p.Sus e₀ s) (p.tick s)
  | _, .source, _ => by
    rintro st cur xs m ⟨rfl, hs, rfl⟩ l e
    cases hs with
    | @nil _ st' h => exact ⟨[], .stop st', by show (Bind.bind (s.pull st l e) _ : Res _) = _; rw [h]; rfl, by simp, by simp, rfl, rfl, rfl⟩
    | @cons _ st' x xs h r =>
      exact ⟨[], .yield x st', by show (Bind.bind (s.pull st l e) _ : Res _) = _; rw [h]; rfl, by simp, xs, xs.length + 1, by simp, ⟨rfl, r, rfl⟩,
        .inr ⟨rfl, x, rfl, rfl⟩⟩
  | _, .map p f, h => (ticks e₀ s p h.1).stage (mapH e₀ f) _ (calls_map e₀ p f) (fun _ => Nat.le_refl _) _ (fun st l e => by rw [Ops.tick]; rcases Ops.tick s p st l e with ⟨_ | _ | _, _⟩ | _ | _ <;> rfl) (fun v st l e => by
      show (Pure.pure _ : Res _) = _
      rw [h.2 v e e₀]; rfl)
  | _, .filter p q, h => (ticks e₀ s p h.1).stage (filterH e₀ q) _ (calls_filter e₀ p q) (fun _ => Nat.le_refl _) _ (fun st l e => by rw [Ops.tick]; rcases Ops.tick s p st l e with ⟨_ | _ | _, _⟩ | _ | _ <;> rfl) (fun v st l e => by
      show (Pure.pure _ : Res _) = _
      rw [h.2 v e e₀]
      by_cases hq : (q v e₀).1 = true <;> simp [filterH, hq] <;> rfl)
  | _, .skipWhile p q, h => (ticks e₀ s p h.1).stage (skipWhileH e₀ q) _ (calls_skipWhile e₀ p q) (fun _ => Nat.le_refl _) _ (fun st l e => by rw [Ops.tick]; rcases Ops.tick s p st l e with ⟨_ | _ | _, _⟩ | _ | _ <;> rfl) (fun v st l e => by
      show (Pure.pure _ : Res _) = _
      rw [h.2 v e e₀]
      by_cases hq : (q v e₀).1 = true <;> simp [skipWhileH, hq] <;> rfl)
  | _, .inspect p g, h => (ticks e₀ s p h).stage (inspectH g) _ (calls_inspect e₀ p g) (fun _ => Nat.le_refl _) _ (fun st l e => by rw [Ops.tick]; rcases Ops.tick s p st l e with ⟨_ | _ | _, _⟩ | _ | _ <;> rfl) (fun v st l e => by rw [Ops.tick]; rfl)

namespace Ops

theorem sus_start (e₀ : E) (s : Stm E T) {st : s.S} {xs : List T} (hs : PureSeg s st xs) :
    ∀ {R : Type} (p : Ops E T R), p.Sus e₀ s (p.start s st) ([], none) xs (p.scale (xs.length + 1))
  | _, source => ⟨rfl, hs, rfl⟩
  | _, map p _ => ⟨_, _, sus_start e₀ s hs p, rfl, rfl⟩
  | _, filter p _ => ⟨_, _, sus_start e₀ s hs p, rfl, rfl⟩
  | _, skipWhile p _ => ⟨_, _, sus_start e₀ s hs p, rfl, rfl⟩
  | _, inspect p _ => ⟨_, _, sus_start e₀ s hs p, rfl, rfl⟩

/-- What a goroutine still has to do in the middle of an element. -/
def rest (e₀ : E) (p : Ops E T R) (F : A → R → E → A × E) (a : A) : List (Act E) × Option R → List T → List (Act E) × A
  | (as, none), xs => (as ++ (p.whole e₀ F a xs).1, (p.whole e₀ F a xs).2)
  | (as, some v), xs => (as ++ (fun e => (F a v e).2) :: (p.whole e₀ F (F a v e₀).1 xs).1, (p.whole e₀ F (F a v e₀).1 xs).2)

theorem whole_cons (e₀ : E) (p : Ops E T R) (F : A → R → E → A × E) (a : A) (x : T) (xs : List T) :
    p.whole e₀ F a (x :: xs) = p.rest e₀ F a (p.calls e₀ x) xs := by
  rw [whole]; rcases p.calls e₀ x with ⟨as, _ | v⟩ <;> rfl

theorem rest_moves {e₀ : E} {p : Ops E T R} {F : A → R → E → A × E} {a : A} {gs cur xs cur' xs'} (h : Moves (p.calls e₀) gs cur xs cur' xs') :
    p.rest e₀ F a cur xs = (gs ++ (p.rest e₀ F a cur' xs').1, (p.rest e₀ F a cur' xs').2) := by
  rcases h with ⟨rfl, rfl⟩ | ⟨rfl, x, rfl, hx⟩
  · rcases cur' with ⟨as, _ | v⟩ <;> simp [rest]
  · have : p.rest e₀ F a ([], none) (x :: xs') = p.rest e₀ F a (p.calls e₀ x) xs' := by
      rw [← whole_cons]; simp [rest]
    rw [this, hx]
    rcases cur' with ⟨as, _ | v⟩ <;> simp [rest]

end Ops

/-- The goroutine still has to make the calls `todo.1`, will end up with `todo.2`, and has at most `n` steps to go. -/
def GW.Owes {s : Stm E T} {p : Ops E T R} (e₀ : E) (F : A → R → E → A × E) : GW s p A → List (Act E) × A → Nat → Prop
  | .ask st acc, todo, n => ∃ cur xs m, p.Sus e₀ s st cur xs m ∧ todo = p.rest e₀ F acc cur xs ∧ n = 2 * m + 1
  | .call v st acc, todo, n => ∃ xs m, p.Sus e₀ s st ([], none) xs m ∧ todo = p.rest e₀ F acc ([], some v) xs ∧ n = 2 * m + 2
  | .fin acc, todo, n => todo = ([], acc) ∧ n = 1
  | .exit, todo, n => todo.1 = [] ∧ n = 0

section
variable {s : Stm E T} {p : Ops E T R} {e₀ : E} {F : A → R → E → A × E}

theorem PoolStep.owes (hp : p.Steady) (hF : ∀ a v e e', (F a v e).1 = (F a v e').1) {i : Nat} {c c' : Pool s p A} (h : PoolStep F i c c') :
    ∃ w, c.ws[i]? = some w ∧ w ≠ .exit ∧ ∀ todo n, w.Owes e₀ F todo n → ∃ gs w' todo' n', gs.length ≤ 1 ∧ w' ≠ .exit ∧ c'.ws = c.ws.set i w' ∧
      c'.e = perform gs c.e ∧ w'.Owes e₀ F todo' n' ∧ n' < n ∧ todo = (gs ++ todo'.1, todo'.2) := by
  cases h with
  | more st acc st' l' e' hw ht =>
    refine ⟨_, hw, by simp, ?_⟩
    rintro todo n ⟨cur, xs, m, hs, rfl, rfl⟩
    obtain ⟨gs, t, ht', hgs, hres⟩ := p.ticks e₀ s hp st cur xs m hs c.l c.e
    rw [ht] at ht'
    obtain ⟨rfl, rfl, rfl⟩ := by simpa using ht'
    obtain ⟨cur', xs', m', hm, hs', hmv⟩ := hres
    exact ⟨gs, _, _, _, hgs, by simp, rfl, rfl, ⟨cur', xs', m', hs', rfl, rfl⟩, by omega, Ops.rest_moves hmv⟩
  | yield st acc v st' l' e' hw ht =>
    refine ⟨_, hw, by simp, ?_⟩
    rintro todo n ⟨cur, xs, m, hs, rfl, rfl⟩
    obtain ⟨gs, t, ht', hgs, hres⟩ := p.ticks e₀ s hp st cur xs m hs c.l c.e
    rw [ht] at ht'
    obtain ⟨rfl, rfl, rfl⟩ := by simpa using ht'
    obtain ⟨xs', m', hm, hs', hmv⟩ := hres
    exact ⟨gs, _, _, _, hgs, by simp, rfl, rfl, ⟨xs', m', hs', rfl, rfl⟩, by omega, Ops.rest_moves hmv⟩
  | stop st acc st' l' e' hw ht =>
    refine ⟨_, hw, by simp, ?_⟩
    rintro todo n ⟨cur, xs, m, hs, rfl, rfl⟩
    obtain ⟨gs, t, ht', hgs, hres⟩ := p.ticks e₀ s hp st cur xs m hs c.l c.e
    rw [ht] at ht'
    obtain ⟨rfl, rfl, rfl⟩ := by simpa using ht'
    obtain ⟨hm, rfl, rfl, rfl⟩ := hres
    exact ⟨[], _, _, _, by simp, by simp, rfl, rfl, ⟨rfl, rfl⟩, by omega, rfl⟩
  | call v st acc hw =>
    refine ⟨_, hw, by simp, ?_⟩
    rintro todo n ⟨xs, m, hs, rfl, rfl⟩
    refine ⟨[fun e => (F acc v e).2], .ask st (F acc v c.e).1, _, _, by simp, by simp, rfl, rfl, ⟨([], none), xs, m, hs, rfl, rfl⟩, by omega, ?_⟩
    rw [hF acc v c.e e₀]
    simp [Ops.rest]

/-- A goroutine inside its loop can make a step. -/
theorem PoolStep.can (hp : p.Steady) {i : Nat} {c : Pool s p A} {w : GW s p A} (hw : c.ws[i]? = some w) {todo n} (h : w.Owes e₀ F todo n) :
    (∃ c', PoolStep F i c c') ∨ (∃ acc, w = .fin acc) ∨ w = .exit := by
  cases w with
  | ask st acc =>
    obtain ⟨cur, xs, m, hs, rfl, rfl⟩ := h
    obtain ⟨gs, t, ht, -⟩ := p.ticks e₀ s hp st cur xs m hs c.l c.e
    cases t with
    | more st' => exact .inl ⟨_, .more c st acc st' _ _ hw ht⟩
    | yield v st' => exact .inl ⟨_, .yield c st acc v st' _ _ hw ht⟩
    | stop st' => exact .inl ⟨_, .stop c st acc st' _ _ hw ht⟩
  | call v st acc => exact .inl ⟨_, .call c v st acc hw⟩
  | fin acc => exact .inr (.inl ⟨acc, rfl⟩)
  | exit => exact .inr (.inr rfl)

end

/-! ### All goroutines -/

theorem sum_set_lt {ns : List Nat} {i a b : Nat} (h : ns[i]? = some a) (hb : b < a) : (ns.set i b).sum < ns.sum := by
  induction ns generalizing i with
  | nil => simp at h
  | cons x xs ih =>
    cases i with
    | zero => simp at h; simp; omega
    | succ i => simp at h; simpa using ih h

/-- The calls of segment `i`. -/
abbrev part (i : Nat) (tr : List (Nat × Act E)) : List (Act E) := (tr.filter (fun x => x.1 == i)).map (·.2)

theorem part_append (i : Nat) (tr tr' : List (Nat × Act E)) : part i (tr ++ tr') = part i tr ++ part i tr' := by simp [part]

theorem part_tagged (i : Nat) (gs : List (Act E)) : part i (gs.map (fun g => (i, g))) = gs := by
  simp [part, List.filter_map, List.map_map, Function.comp_def]

theorem part_other {i j : Nat} (h : i ≠ j) (gs : List (Act E)) : part i (gs.map (fun g => (j, g))) = [] := by
  simp [part, Ne.symm h]

theorem part_fresh {k : Nat} {tr : List (Nat × Act E)} (h : ∀ x ∈ tr, x.1 < k) : part k tr = [] := by
  simp only [part, List.map_eq_nil_iff, List.filter_eq_nil_iff]
  intro x hx
  have := h x hx
  simp; omega

theorem perform_append (gs gs' : List (Act E)) (e : E) : perform (gs ++ gs') e = perform gs' (perform gs e) := by simp [perform]

/-- The goroutines work on the segments `segs`; the calls made are `tr`; those in `sent` have ended; goroutine `i` has at most `ns[i]` steps to go. -/
structure PInv {s : Stm E T} {p : Ops E T R} (F : A → R → E → A × E) (ini : A) (e₀ : E) (segs : List (List T))
    (tr : List (Nat × Act E)) (sent ns : List Nat) (c : Pool s p A) : Prop where
  started : c.ws.length ≤ segs.length
  lens : ns.length = c.ws.length
  each : ∀ i w, c.ws[i]? = some w → ∃ xs todo n, segs[i]? = some xs ∧ ns[i]? = some n ∧ w.Owes e₀ F todo n ∧
    (w ≠ .exit → todo.2 = (p.whole e₀ F ini xs).2) ∧ part i tr ++ todo.1 = (p.whole e₀ F ini xs).1
  tags : ∀ x ∈ tr, x.1 < c.ws.length
  env : c.e = perform (tr.map (·.2)) e₀
  nodup : sent.Nodup
  ended : ∀ i, i ∈ sent ↔ c.ws[i]? = some .exit

section
variable {s : Stm E T} {p : Ops E T R} {e₀ : E} {F : A → R → E → A × E} {ini : A} {segs : List (List T)} {tr : List (Nat × Act E)} {sent ns : List Nat}
  {c c' : Pool s p A}

theorem PInv.start (l : s.L) : PInv F ini e₀ segs [] [] [] ({ ws := [], l := l, e := e₀ } : Pool s p A) where
  started := by simp
  lens := rfl
  each := by simp
  tags := by simp
  env := rfl
  nodup := by simp
  ended := by simp

theorem PInv.spawn (h : PInv F ini e₀ segs tr sent ns c) {st : s.S} {xs : List T} (hs : PureSeg s st xs) (hx : segs[c.ws.length]? = some xs) (l : s.L) :
    PInv F ini e₀ segs tr sent (ns ++ [2 * p.scale (xs.length + 1) + 1]) (c.spawn st ini l c.e) where
  started := by
    have := (List.getElem?_eq_some_iff.1 hx).1
    simp [Pool.spawn]; omega
  lens := by simp [Pool.spawn, h.lens]
  each := by
    intro i w hw
    simp only [Pool.spawn] at hw
    rcases Nat.lt_trichotomy i c.ws.length with hi | hi | hi
    · rw [List.getElem?_append_left hi] at hw
      obtain ⟨xs', todo, n, h1, h2, h3⟩ := h.each i w hw
      exact ⟨xs', todo, n, h1, by rw [List.getElem?_append_left (by rw [h.lens]; exact hi)]; exact h2, h3⟩
    · subst hi
      simp at hw
      subst hw
      refine ⟨xs, _, _, hx, by rw [← h.lens]; simp, ⟨([], none), xs, _, p.sus_start e₀ s hs, rfl, rfl⟩, fun _ => by simp [Ops.rest], ?_⟩
      rw [part_fresh h.tags]
      simp [Ops.rest]
    · rw [List.getElem?_eq_none (by simp; omega)] at hw
      simp at hw
  tags := by
    intro x hx
    have := h.tags x hx
    simp [Pool.spawn]; omega
  env := h.env
  nodup := h.nodup
  ended := by
    intro i
    rw [h.ended]
    simp only [Pool.spawn]
    rcases Nat.lt_trichotomy i c.ws.length with hi | hi | hi
    · rw [List.getElem?_append_left hi]
    · subst hi; simp
    · rw [List.getElem?_eq_none (by omega), List.getElem?_eq_none (by simp; omega)]

theorem PInv.step (hp : p.Steady) (hF : ∀ a v e e', (F a v e).1 = (F a v e').1) (h : PInv F ini e₀ segs tr sent ns c) {i : Nat}
    (hc : PoolStep F i c c') : ∃ (gs : List (Act E)) (ns' : List Nat), gs.length ≤ 1 ∧ PInv F ini e₀ segs (tr ++ gs.map (fun g => (i, g))) sent ns' c' ∧ ns'.sum < ns.sum ∧ c'.ws.length = c.ws.length := by
  obtain ⟨w, hw, hne, hs⟩ := hc.owes (e₀ := e₀) hp hF
  obtain ⟨xs, todo, n, h1, h2, h3, h4, h5⟩ := h.each i w hw
  obtain ⟨gs, w', todo', n', hgs, hne', hws, he, ho, hn, rfl⟩ := hs todo n h3
  have hi : i < c.ws.length := (List.getElem?_eq_some_iff.1 hw).1
  refine ⟨gs, ns.set i n', hgs, ?_, sum_set_lt h2 hn, by simp [hws]⟩
  constructor
  · simp [hws, h.started]
  · simp [hws, h.lens]
  · intro j v hv
    rw [hws] at hv
    by_cases hj : j = i
    · subst hj
      rw [List.getElem?_set_self hi] at hv
      cases hv
      refine ⟨xs, todo', n', h1, by rw [List.getElem?_set_self (by rw [h.lens]; exact hi)], ho, fun _ => h4 hne, ?_⟩
      rw [part_append, part_tagged, List.append_assoc]
      exact h5
    · rw [List.getElem?_set_ne (Ne.symm hj)] at hv
      obtain ⟨xs', todo1, n1, k1, k2, k3, k4, k5⟩ := h.each j v hv
      refine ⟨xs', todo1, n1, k1, by rw [List.getElem?_set_ne (Ne.symm hj)]; exact k2, k3, k4, ?_⟩
      rw [part_append, part_other hj, List.append_nil]
      exact k5
  · intro x hx
    rw [List.mem_append] at hx
    rcases hx with hx | hx
    · simpa [hws] using h.tags x hx
    · obtain ⟨g, -, rfl⟩ := List.mem_map.1 hx
      simpa [hws] using hi
  · rw [he, h.env, List.map_append, perform_append, List.map_map]
    simp [Function.comp_def]
  · exact h.nodup
  · intro j
    rw [h.ended, hws]
    by_cases hj : j = i
    · subst hj
      rw [List.getElem?_set_self hi, hw]
      simp [hne, hne']
    · rw [List.getElem?_set_ne (Ne.symm hj)]

theorem PInv.exit (h : PInv F ini e₀ segs tr sent ns c) {i : Nat} {acc : A} (hw : c.ws[i]? = some (.fin acc)) :
    ∃ ns', PInv F ini e₀ segs tr (sent ++ [i]) ns' (c.exit i) ∧ ns'.sum < ns.sum ∧ (c.exit i).ws.length = c.ws.length ∧
      ∃ xs, segs[i]? = some xs ∧ acc = (p.whole e₀ F ini xs).2 := by
  have hi : i < c.ws.length := (List.getElem?_eq_some_iff.1 hw).1
  obtain ⟨xs, todo, n, h1, h2, ⟨rfl, rfl⟩, h4, h5⟩ := h.each i _ hw
  refine ⟨ns.set i 0, ?_, sum_set_lt h2 (by omega), by simp [Pool.exit], xs, h1, h4 (by simp)⟩
  constructor
  · simp [Pool.exit, h.started]
  · simp [Pool.exit, h.lens]
  · intro j v hv
    simp only [Pool.exit] at hv
    by_cases hj : j = i
    · subst hj
      rw [List.getElem?_set_self hi] at hv
      cases hv
      exact ⟨xs, ([], acc), 0, h1, by rw [List.getElem?_set_self (by rw [h.lens]; exact hi)], ⟨rfl, rfl⟩, fun h => absurd rfl h, h5⟩
    · rw [List.getElem?_set_ne (Ne.symm hj)] at hv
      obtain ⟨xs', todo1, n1, k1, k2, k3⟩ := h.each j v hv
      exact ⟨xs', todo1, n1, k1, by rw [List.getElem?_set_ne (Ne.symm hj)]; exact k2, k3⟩
  · intro x hx
    simpa [Pool.exit] using h.tags x hx
  · exact h.env
  · have : i ∉ sent := by rw [h.ended, hw]; simp
    simpa [List.nodup_append] using ⟨h.nodup, fun a ha hb => this (hb ▸ ha)⟩
  · intro j
    rw [List.mem_append, h.ended]
    simp only [Pool.exit, List.mem_singleton]
    by_cases hj : j = i
    · subst hj
      simp [List.getElem?_set_self hi]
    · rw [List.getElem?_set_ne (Ne.symm hj)]
      simp [hj]

/-- Some goroutine has not ended as long as not all are among those that have. -/
theorem PInv.unfinished (h : PInv F ini e₀ segs tr sent ns c) (hlt : sent.length < c.ws.length) : ∃ (i : Nat) (w : GW s p A), c.ws[i]? = some w ∧ w ≠ .exit := by
  by_contra hno
  have : List.range c.ws.length ⊆ sent := by
    intro i hi
    have hi := List.mem_range.1 hi
    rw [h.ended]
    by_contra hne
    exact hno ⟨i, c.ws[i], by simp [hi], fun he => hne (by rw [List.getElem?_eq_getElem hi, he])⟩
  have := (List.nodup_range.subperm this).length_le
  simp at this
  omega

theorem PInv.sent_le (h : PInv F ini e₀ segs tr sent ns c) : sent.length ≤ c.ws.length := by
  have : sent ⊆ List.range c.ws.length := by
    intro i hi
    rw [h.ended] at hi
    exact List.mem_range.2 (List.getElem?_eq_some_iff.1 hi).1
  simpa using (h.nodup.subperm this).length_le

/-- When all have ended, the calls made are an interleaving of those of the segments. -/
theorem PInv.all (h : PInv F ini e₀ segs tr sent ns c) (hlen : sent.length = segs.length) :
    Interleaves tr (segs.map (fun xs => (p.whole e₀ F ini xs).1)) ∧ sent.Perm (List.range segs.length) := by
  have hws : c.ws.length = segs.length := by have := h.sent_le; have := h.started; omega
  have hsub : sent ⊆ List.range c.ws.length := by
    intro i hi
    rw [h.ended] at hi
    exact List.mem_range.2 (List.getElem?_eq_some_iff.1 hi).1
  have hperm : sent.Perm (List.range c.ws.length) := (h.nodup.subperm hsub).perm_of_length_le (by simp; omega)
  refine ⟨⟨by simpa [hws] using h.tags, fun i acts hi => ?_⟩, hws ▸ hperm⟩
  rw [List.getElem?_map, Option.map_eq_some_iff] at hi
  obtain ⟨xs, hx, rfl⟩ := hi
  have hi : i < c.ws.length := by rw [hws]; exact (List.getElem?_eq_some_iff.1 hx).1
  have : c.ws[i]? = some .exit := (h.ended i).1 (hperm.mem_iff.2 (List.mem_range.2 hi))
  obtain ⟨xs', todo, n, h1, -, ⟨h3, -⟩, -, h5⟩ := h.each i _ this
  rw [hx] at h1
  cases h1
  rw [h3, List.append_nil] at h5
  exact h5

end
end Gds.Stream
