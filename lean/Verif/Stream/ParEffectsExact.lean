import Verif.Stream.ParEffectsProps

/-! C132, the other direction: every interleaving happens on some schedule; and the link to the pull functions of C129. -/
namespace Gds.Stream
variable {E T R U A : Type}

section
variable {s : Stm E T} {p : Ops E T R} {e₀ : E} {F : A → R → E → A × E} {ini : A} {comb : A → A → A} {segs : List (List T)} {k : Nat}

theorem part_cons_split {tr1 tr2 : List (Nat × Act E)} {i : Nat} {g : Act E} :
    part i (tr1 ++ (i, g) :: tr2) = part i tr1 ++ g :: part i tr2 := by simp [part]

/-- Nothing can be added to a complete interleaving. -/
theorem complete_ends {tr tr' : List (Nat × Act E)} {sent ns} {c : Pool s p A} (h : Interleaves tr (segs.map (fun xs => (p.whole e₀ F ini xs).1)))
    (hi : PInv F ini e₀ segs (tr ++ tr') sent ns c) : tr' = [] := by
  cases tr' with
  | nil => rfl
  | cons x tr' =>
    exfalso
    have hx : x.1 < c.ws.length := hi.tags x (by simp)
    obtain ⟨xs, todo, n, h1, -, -, -, h5⟩ := hi.each x.1 c.ws[x.1] (by simp [hx])
    have h6 := h.2 x.1 (p.whole e₀ F ini xs).1 (by rw [List.getElem?_map, h1]; rfl)
    have h6 : part x.1 tr = _ := h6
    rw [part_append, ← h6] at h5
    have := congrArg List.length h5
    simp [part] at this

/-- A goroutine with calls to make can make the next one. -/
theorem next_call (hp : p.Steady) {tr : List (Nat × Act E)} {sent ns} {c : Pool s p A} (hi : PInv F ini e₀ segs tr sent ns c) {i : Nat} {xs : List T} {g : Act E}
    {rest : List (Act E)} (hlt : i < c.ws.length) (hx : segs[i]? = some xs) (hg : part i tr ++ g :: rest = (p.whole e₀ F ini xs).1) : ∃ c', PoolStep F i c c' := by
  have hw : c.ws[i]? = some c.ws[i] := by simp [hlt]
  obtain ⟨xs', todo, n, h1, -, h3, -, h5⟩ := hi.each i _ hw
  rw [hx] at h1
  cases h1
  rw [← hg] at h5
  have h6 : todo.1 = g :: rest := List.append_cancel_left h5
  rcases PoolStep.can hp hw h3 with hc | ⟨acc, hc⟩ | hc
  · exact hc
  · rw [hc] at h3
    obtain ⟨rfl, -⟩ := h3
    simp at h6
  · rw [hc] at h3
    rw [h3.1] at h6
    simp at h6

/-! ### FoldWith -/

theorem fold_call (hp : p.Steady) (hF : ∀ a v e e', (F a v e).1 = (F a v e').1) {l : s.L} {i : Nat} {xs : List T} {g : Act E} {rest : List (Act E)}
    (hx : segs[i]? = some xs) (m : Nat) : ∀ {n c tr}, FoldRun s p k ini F comb l e₀ n c → FoldInv p e₀ F ini comb segs k tr c m → i < c.pool.ws.length →
    part i tr ++ g :: rest = (p.whole e₀ F ini xs).1 →
    ∃ n' c' m', FoldRun s p k ini F comb l e₀ n' c' ∧ FoldInv p e₀ F ini comb segs k (tr ++ [(i, g)]) c' m' ∧ c'.main = c.main ∧ c'.pool.ws.length = c.pool.ws.length := by
  induction m using Nat.strongRecOn with
  | ind m ih =>
    intro n c tr hc h hlt hg
    obtain ⟨pool', hs⟩ : ∃ pool', PoolStep F i c.pool pool' := by
      obtain ⟨-, sent, ns, hi, -⟩ := h
      exact next_call hp hi hlt hx hg
    have hlen : pool'.ws.length = c.pool.ws.length := by
      obtain ⟨-, sent, ns, hi, -⟩ := h
      obtain ⟨-, -, -, -, -, h⟩ := hi.step hp hF hs
      exact h
    obtain ⟨gs, m', h1, h2, h3⟩ := h.work hp hF hs
    have hrun := FoldRun.step hc (.work c i pool' hs)
    rcases gs with _ | ⟨g', _ | ⟨g'', gs⟩⟩
    · rw [List.map_nil, List.append_nil] at h3
      obtain ⟨n2, c2, m2, k1, k2, k3, k4⟩ := ih m' h2 hrun h3 (by rw [← hlen] at hlt; exact hlt) hg
      exact ⟨n2, c2, m2, k1, k2, k3, k4.trans hlen⟩
    · have : g' = g := by
        obtain ⟨-, sent, ns, hi, -⟩ := h3
        have hlt' : i < pool'.ws.length := by rw [hlen]; exact hlt
        obtain ⟨xs', todo, n, h1, -, -, -, h5⟩ := hi.each i pool'.ws[i] (by simp [hlt'])
        rw [hx] at h1
        cases h1
        rw [part_append, part_tagged, List.append_assoc, ← hg] at h5
        exact (List.cons.inj (List.append_cancel_left h5)).1
      subst this
      exact ⟨_, _, m', hrun, h3, rfl, hlen⟩
    · simp at h1

theorem fold_calls (hp : p.Steady) (hF : ∀ a v e e', (F a v e).1 = (F a v e').1) {l : s.L} (tr2 : List (Nat × Act E)) : ∀ {n c tr1 m},
    FoldRun s p k ini F comb l e₀ n c → FoldInv p e₀ F ini comb segs k tr1 c m → c.pool.ws.length = segs.length →
    Interleaves (tr1 ++ tr2) (segs.map (fun xs => (p.whole e₀ F ini xs).1)) →
    ∃ n' c' m', FoldRun s p k ini F comb l e₀ n' c' ∧ FoldInv p e₀ F ini comb segs k (tr1 ++ tr2) c' m' := by
  induction tr2 with
  | nil => intro n c tr1 m hc h _ _; exact ⟨n, c, m, hc, by rwa [List.append_nil]⟩
  | cons x tr2 ih =>
    intro n c tr1 m hc h hlen hi
    obtain ⟨i, g⟩ := x
    have hlt : i < segs.length := by simpa using hi.1 (i, g) (by simp)
    have hx : segs[i]? = some segs[i] := by simp [hlt]
    have hg : part i (tr1 ++ (i, g) :: tr2) = _ := hi.2 i (p.whole e₀ F ini segs[i]).1 (by simp [hlt])
    rw [part_cons_split] at hg
    obtain ⟨n', c', m', k1, k2, -, k4⟩ := fold_call hp hF hx m hc h (by omega) hg
    have := ih k1 k2 (k4.trans hlen) (by simpa using hi)
    simpa using this

theorem fold_started (hk : segs.length = k) {l : s.L} (m : Nat) : ∀ {n c tr}, FoldRun s p k ini F comb l e₀ n c → FoldInv p e₀ F ini comb segs k tr c m →
    ∀ g, c.main = .seg g → ∃ n' c' m', FoldRun s p k ini F comb l e₀ n' c' ∧ FoldInv p e₀ F ini comb segs k tr c' m' ∧ c'.pool.ws.length = segs.length := by
  induction m using Nat.strongRecOn with
  | ind m ih =>
    intro n c tr hc h g hg
    obtain ⟨o, g', ho⟩ : ∃ o g', s.seg g c.pool.l c.pool.e = .ok (o, g', c.pool.l, c.pool.e) := by
      obtain ⟨-, sent, ns, hi, hm⟩ := h
      rw [hg] at hm
      exact segs_can hm.1 _ _
    cases o with
    | none =>
      obtain ⟨m', h1, h2⟩ := h.segEnd hk hg ho
      refine ⟨_, _, m', .step hc (.segEnd c g g' _ _ hg ho), h2, ?_⟩
      obtain ⟨-, sent, ns, hi, hm⟩ := h2
      exact hm.1
    | some st =>
      obtain ⟨m', h1, h2⟩ := h.spawn hg ho
      exact ih m' h1 (.step hc (.spawn c g st g' _ _ hg ho)) h2 g' rfl

theorem fold_finish (hp : p.Steady) (hF : ∀ a v e e', (F a v e).1 = (F a v e').1) (hk : segs.length = k) {l : s.L} (m : Nat) : ∀ {n c tr},
    FoldRun s p k ini F comb l e₀ n c → FoldInv p e₀ F ini comb segs k tr c m → Interleaves tr (segs.map (fun xs => (p.whole e₀ F ini xs).1)) →
    ∃ n' c' m' v, FoldRun s p k ini F comb l e₀ n' c' ∧ FoldInv p e₀ F ini comb segs k tr c' m' ∧ c'.main = .done v := by
  induction m using Nat.strongRecOn with
  | ind m ih =>
    intro n c tr hc h hi
    rcases h.can hp hk with ⟨v, hv⟩ | ⟨c', hs⟩
    · exact ⟨n, c, m, v, hc, h, hv⟩
    · obtain ⟨tr', m', h1, h2⟩ := h.step hp hF hk hs
      obtain rfl : tr' = [] := by
        obtain ⟨-, sent, ns, hpi, -⟩ := h2
        exact complete_ends hi hpi
      rw [List.append_nil] at h2
      exact ih m' h1 (.step hc hs) h2 hi

/-- Every interleaving of the segments' calls is made on some schedule of the parallel FoldWith. -/
theorem parFold_every_interleaving (p : Ops E T R) (ini : A) (F : A → R → E → A × E) (comb : A → A → A) (hs : Splits s k segs) (hk : segs.length = k)
    (hp : p.Steady) (hF : ∀ a v e e', (F a v e).1 = (F a v e').1) (l : s.L) (e : E) (tr : List (Nat × Act E))
    (h : Interleaves tr (segs.map (fun xs => (p.whole e F ini xs).1))) :
    ∃ n c v, FoldRun s p k ini F comb l e n c ∧ c.main = .done v ∧ c.pool.e = perform (tr.map (·.2)) e := by
  have h0 : FoldInv (s := s) p e F ini comb segs k [] (.init s p A k l e) (ahead p segs + k + 2) := FoldInv.init hs l
  obtain ⟨n1, c1, m1, a1, a2, a3⟩ := fold_started hk _ .init h0 _ rfl
  obtain ⟨n2, c2, m2, b1, b2⟩ := fold_calls hp hF tr a1 a2 a3 h
  obtain ⟨n3, c3, m3, v, d1, d2, d3⟩ := fold_finish hp hF hk m2 b1 b2 h
  obtain ⟨-, sent, ns, hi, -⟩ := d2
  exact ⟨n3, c3, v, d1, d3, hi.env⟩

/-! ### Collect -/

theorem collect_call (hp : p.Steady) {C : R → E → E} {l : s.L} {i : Nat} {xs : List T} {g : Act E} {rest : List (Act E)}
    (hx : segs[i]? = some xs) (m : Nat) : ∀ {n c tr}, CollectRun s p k C l e₀ n c → CollectInv p e₀ C segs tr c m → i < c.pool.ws.length →
    part i tr ++ g :: rest = (p.whole e₀ (fun (_ : Unit) v e => ((), C v e)) () xs).1 →
    ∃ n' c' m', CollectRun s p k C l e₀ n' c' ∧ CollectInv p e₀ C segs (tr ++ [(i, g)]) c' m' ∧ c'.main = c.main ∧ c'.pool.ws.length = c.pool.ws.length := by
  induction m using Nat.strongRecOn with
  | ind m ih =>
    intro n c tr hc h hlt hg
    obtain ⟨pool', hs⟩ : ∃ pool', PoolStep (fun (_ : Unit) v e => ((), C v e)) i c.pool pool' := by
      obtain ⟨sent, ns, hi, -⟩ := h
      exact next_call hp hi hlt hx hg
    have hlen : pool'.ws.length = c.pool.ws.length := by
      obtain ⟨sent, ns, hi, -⟩ := h
      obtain ⟨-, -, -, -, -, h⟩ := hi.step hp (fun _ _ _ _ => rfl) hs
      exact h
    obtain ⟨gs, m', h1, h2, h3⟩ := h.work hp hs
    have hrun := CollectRun.step hc (.work c i pool' hs)
    rcases gs with _ | ⟨g', _ | ⟨g'', gs⟩⟩
    · rw [List.map_nil, List.append_nil] at h3
      obtain ⟨n2, c2, m2, k1, k2, k3, k4⟩ := ih m' h2 hrun h3 (by rw [← hlen] at hlt; exact hlt) hg
      exact ⟨n2, c2, m2, k1, k2, k3, k4.trans hlen⟩
    · have : g' = g := by
        obtain ⟨sent, ns, hi, -⟩ := h3
        have hlt' : i < pool'.ws.length := by rw [hlen]; exact hlt
        obtain ⟨xs', todo, n, h1, -, -, -, h5⟩ := hi.each i pool'.ws[i] (by simp [hlt'])
        rw [hx] at h1
        cases h1
        rw [part_append, part_tagged, List.append_assoc, ← hg] at h5
        exact (List.cons.inj (List.append_cancel_left h5)).1
      subst this
      exact ⟨_, _, m', hrun, h3, rfl, hlen⟩
    · simp at h1

theorem collect_calls (hp : p.Steady) {C : R → E → E} {l : s.L} (tr2 : List (Nat × Act E)) : ∀ {n c tr1 m},
    CollectRun s p k C l e₀ n c → CollectInv p e₀ C segs tr1 c m → c.pool.ws.length = segs.length →
    Interleaves (tr1 ++ tr2) (segs.map (fun xs => (p.whole e₀ (fun (_ : Unit) v e => ((), C v e)) () xs).1)) →
    ∃ n' c' m', CollectRun s p k C l e₀ n' c' ∧ CollectInv p e₀ C segs (tr1 ++ tr2) c' m' := by
  induction tr2 with
  | nil => intro n c tr1 m hc h _ _; exact ⟨n, c, m, hc, by rwa [List.append_nil]⟩
  | cons x tr2 ih =>
    intro n c tr1 m hc h hlen hi
    obtain ⟨i, g⟩ := x
    have hlt : i < segs.length := by simpa using hi.1 (i, g) (by simp)
    have hx : segs[i]? = some segs[i] := by simp [hlt]
    have hg : part i (tr1 ++ (i, g) :: tr2) = _ := hi.2 i (p.whole e₀ (fun (_ : Unit) v e => ((), C v e)) () segs[i]).1 (by simp [hlt])
    rw [part_cons_split] at hg
    obtain ⟨n', c', m', k1, k2, -, k4⟩ := collect_call hp hx m hc h (by omega) hg
    have := ih k1 k2 (k4.trans hlen) (by simpa using hi)
    simpa using this

theorem collect_started {C : R → E → E} {l : s.L} (m : Nat) : ∀ {n c tr}, CollectRun s p k C l e₀ n c → CollectInv p e₀ C segs tr c m →
    ∀ g, c.main = .seg g → ∃ n' c' m', CollectRun s p k C l e₀ n' c' ∧ CollectInv p e₀ C segs tr c' m' ∧ c'.pool.ws.length = segs.length := by
  induction m using Nat.strongRecOn with
  | ind m ih =>
    intro n c tr hc h g hg
    obtain ⟨o, g', ho⟩ : ∃ o g', s.seg g c.pool.l c.pool.e = .ok (o, g', c.pool.l, c.pool.e) := by
      obtain ⟨sent, ns, hi, hwg, hm⟩ := h
      rw [hg] at hm
      exact segs_can hm.1 _ _
    cases o with
    | none =>
      obtain ⟨m', h1, h2⟩ := h.segEnd hg ho
      refine ⟨_, _, m', .step hc (.segEnd c g g' _ _ hg ho), h2, ?_⟩
      obtain ⟨sent, ns, hi, hwg, hm⟩ := h2
      exact hm.1
    | some st =>
      obtain ⟨m', h1, h2⟩ := h.spawn hg ho
      exact ih m' h1 (.step hc (.spawn c g st g' _ _ hg ho)) h2 g' rfl

theorem collect_finish (hp : p.Steady) {C : R → E → E} {l : s.L} (m : Nat) : ∀ {n c tr},
    CollectRun s p k C l e₀ n c → CollectInv p e₀ C segs tr c m → Interleaves tr (segs.map (fun xs => (p.whole e₀ (fun (_ : Unit) v e => ((), C v e)) () xs).1)) →
    ∃ n' c' m', CollectRun s p k C l e₀ n' c' ∧ CollectInv p e₀ C segs tr c' m' ∧ c'.main = .done := by
  induction m using Nat.strongRecOn with
  | ind m ih =>
    intro n c tr hc h hi
    rcases h.can hp with hv | ⟨c', hs⟩
    · exact ⟨n, c, m, hc, h, hv⟩
    · obtain ⟨tr', m', h1, h2⟩ := h.step hp hs
      obtain rfl : tr' = [] := by
        obtain ⟨sent, ns, hpi, -⟩ := h2
        exact complete_ends hi hpi
      rw [List.append_nil] at h2
      exact ih m' h1 (.step hc hs) h2 hi

/-- Every interleaving of the segments' calls is made on some schedule of the parallel Collect. -/
theorem parCollect_every_interleaving (p : Ops E T R) (C : R → E → E) (hs : Splits s k segs) (hp : p.Steady) (l : s.L) (e : E) (tr : List (Nat × Act E))
    (h : Interleaves tr (segs.map (fun xs => (p.whole e (fun (_ : Unit) v e => ((), C v e)) () xs).1))) :
    ∃ n c, CollectRun s p k C l e n c ∧ c.main = .done ∧ c.pool.e = perform (tr.map (·.2)) e := by
  have h0 : CollectInv (s := s) p e C segs [] (.init s p k l e) (ahead p segs + 2) := CollectInv.init hs C l
  obtain ⟨n1, c1, m1, a1, a2, a3⟩ := collect_started _ .init h0 _ rfl
  obtain ⟨n2, c2, m2, b1, b2⟩ := collect_calls hp tr a1 a2 a3 h
  obtain ⟨n3, c3, m3, d1, d2, d3⟩ := collect_finish hp m2 b1 b2 h
  obtain ⟨sent, ns, hi, -⟩ := d2
  exact ⟨n3, c3, d1, d3, hi.env⟩

end

/-! ### The pull functions of C129 -/

namespace Ops
variable {s : Stm E T}

/-- What a stage makes of a step of the stage before. -/
def relay {L S : Type} (r : Tick R S × L × E) : Res (Tick U (S ⊕ (R × S)) × L × E) :=
  match r.1 with
  | .more st' => pure (.more (.inl st'), r.2)
  | .yield v st' => pure (.more (.inr (v, st')), r.2)
  | .stop st' => pure (.stop (.inl st'), r.2)

/-- The pull function, run step by step, answers `o`. -/
inductive Halts {L S : Type} (τ : S → L → E → Res (Tick R S × L × E)) : S → L → E → Option R → S → L → E → Prop where
  | more {st l e st1 l1 e1 o st' l' e'} (h : τ st l e = .ok (.more st1, l1, e1)) (r : Halts τ st1 l1 e1 o st' l' e') : Halts τ st l e o st' l' e'
  | yield {st l e v st' l' e'} (h : τ st l e = .ok (.yield v st', l', e')) : Halts τ st l e (some v) st' l' e'
  | stop {st l e st' l' e'} (h : τ st l e = .ok (.stop st', l', e')) : Halts τ st l e none st' l' e'

theorem Halts.alone {p : Ops E T R} {st : p.Susp s} {l : s.L} {e o st' l' e'} (h : Halts (p.tick s) st l e o st' l' e') :
    p.alone s st l e = .ok (o, st', l', e') := by
  induction h with
  | more h _ ih => rw [Ops.alone, h]; exact ih
  | yield h => rw [Ops.alone, h]; rfl
  | stop h => rw [Ops.alone, h]; rfl

section
variable {L S : Type} {τ : S → L → E → Res (Tick R S × L × E)} {τ' : S ⊕ (R × S) → L → E → Res (Tick U (S ⊕ (R × S)) × L × E)}
  (h1 : ∀ st l e, τ' (.inl st) l e = τ st l e >>= relay)
include h1

theorem Halts.stage_none {st l e st' l' e'} (h : Halts τ st l e none st' l' e') : Halts τ' (.inl st) l e none (.inl st') l' e' := by
  generalize ho : (none : Option R) = o at h
  induction h with
  | more h _ ih => exact .more (by rw [h1, h]; rfl) (ih ho)
  | yield h => cases ho
  | stop h => exact .stop (by rw [h1, h]; rfl)

theorem Halts.stage_some {st l e v st' l' e'} (h : Halts τ st l e (some v) st' l' e') {o st2 l2 e2} (h2 : Halts τ' (.inr (v, st')) l' e' o st2 l2 e2) :
    Halts τ' (.inl st) l e o st2 l2 e2 := by
  generalize ho : some v = o' at h
  induction h with
  | more h _ ih => exact .more (by rw [h1, h]; rfl) (ih h2 ho)
  | yield h => cases ho; exact .more (by rw [h1, h]; rfl) h2
  | stop h => cases ho

end

theorem tick_map (s : Stm E T) (p : Ops E T R) (f : R → E → U × E) (st : p.Susp s) (l : s.L) (e : E) : (p.map f).tick s (Sum.inl st) l e = (p.tick s st l e >>= relay) := by
  rw [Ops.tick]; rcases Ops.tick s p st l e with ⟨_ | _ | _, _⟩ | _ | _ <;> rfl

theorem tick_filter (s : Stm E T) (p : Ops E T R) (q : R → E → Bool × E) (st : p.Susp s) (l : s.L) (e : E) : (p.filter q).tick s (Sum.inl st) l e = (p.tick s st l e >>= relay) := by
  rw [Ops.tick]; rcases Ops.tick s p st l e with ⟨_ | _ | _, _⟩ | _ | _ <;> rfl

theorem tick_skipWhile (s : Stm E T) (p : Ops E T R) (q : R → E → Bool × E) (st : p.Susp s) (l : s.L) (e : E) : (p.skipWhile q).tick s (Sum.inl st) l e = (p.tick s st l e >>= relay) := by
  rw [Ops.tick]; rcases Ops.tick s p st l e with ⟨_ | _ | _, _⟩ | _ | _ <;> rfl

theorem tick_inspect (s : Stm E T) (p : Ops E T R) (g : R → E → E) (st : p.Susp s) (l : s.L) (e : E) : (p.inspect g).tick s (Sum.inl st) l e = (p.tick s st l e >>= relay) := by
  rw [Ops.tick]; rcases Ops.tick s p st l e with ⟨_ | _ | _, _⟩ | _ | _ <;> rfl

theorem halts_next (s : Stm E T) : ∀ {R : Type} (p : Ops E T R) (k : Nat) (xs : List T), xs.length ≤ k → ∀ st, PureSeg s st xs → ∀ c l e, ∃ st',
    Halts (p.tick s) (p.start s st) l e (p.stages.next xs c e).1 (p.start s st') l (p.stages.next xs c e).2.2.2 ∧
    ((p.stages.next xs c e).1.isSome → PureSeg s st' (p.stages.next xs c e).2.1)
  | _, source, k, xs, _, st, hs, c, l, e => by
    cases hs with
    | @nil _ st' h => exact ⟨st', .stop (by show (Bind.bind (s.pull st l e) _ : Res _) = _; rw [h]; rfl), fun h => by cases h⟩
    | @cons _ st' x xs h r => exact ⟨st', .yield (by show (Bind.bind (s.pull st l e) _ : Res _) = _; rw [h]; rfl), fun _ => r⟩
  | _, map p f, k, xs, hk, st, hs, c, l, e => by
    obtain ⟨st', h1, h3⟩ := halts_next s p k xs hk st hs c l e
    show ∃ st', Halts _ _ l e (Stages.next (p.stages.map f) xs c e).1 _ l (Stages.next (p.stages.map f) xs c e).2.2.2 ∧
      ((Stages.next (p.stages.map f) xs c e).1.isSome → PureSeg s st' (Stages.next (p.stages.map f) xs c e).2.1)
    rw [show Stages.next (p.stages.map f) xs c e = _ from Stages.next_map p.stages f xs c e]
    rcases hx : p.stages.next xs c e with ⟨_ | v, xs', c1, e1⟩ <;> rw [hx] at h1 h3
    · exact ⟨st', .stage_none (tick_map s p f) h1, fun h => by cases h⟩
    · exact ⟨st', .stage_some (tick_map s p f) h1 (.yield rfl), fun _ => h3 rfl⟩
  | _, filter p q, k, xs, hk, st, hs, c, l, e => by
    have key : ∀ k xs, xs.length ≤ k → ∀ st, PureSeg s st xs → ∀ (c : p.stages.Count) l e, ∃ st',
        Halts ((p.filter q).tick s) ((p.filter q).start s st) l e (Stages.next (p.stages.filter q) xs c e).1 ((p.filter q).start s st') l (Stages.next (p.stages.filter q) xs c e).2.2.2 ∧
        ((Stages.next (p.stages.filter q) xs c e).1.isSome → PureSeg s st' (Stages.next (p.stages.filter q) xs c e).2.1) := by
      intro k
      induction k with
      | zero =>
        intro xs hk st hs c l e
        obtain rfl : xs = [] := by simpa using hk
        obtain ⟨st', h1, h3⟩ := halts_next s p 0 [] hk st hs c l e
        exact ⟨st', .stage_none (tick_filter s p q) h1, fun h => by cases h⟩
      | succ k ih =>
        intro xs hk st hs c l e
        obtain ⟨st', h1, h3⟩ := halts_next s p (k + 1) xs hk st hs c l e
        rw [show Stages.next (p.stages.filter q) xs c e = _ from Stages.next_filter p.stages q xs c e]
        rcases hx : p.stages.next xs c e with ⟨_ | v, xs', c1, e1⟩ <;> rw [hx] at h1 h3
        · exact ⟨st', .stage_none (tick_filter s p q) h1, fun h => by cases h⟩
        · have hlt := Stages.next_shorter p.stages hx
          by_cases hq : (q v e1).1 = true
          · simp only [hq, if_true]
            exact ⟨st', .stage_some (tick_filter s p q) h1 (.yield (by show (Pure.pure _ : Res _) = _; rw [if_pos hq]; rfl)), fun _ => h3 rfl⟩
          · simp only [hq, if_false]
            obtain ⟨st2, k1, k2⟩ := ih xs' (by omega) st' (h3 rfl) c1 l (q v e1).2
            exact ⟨st2, .stage_some (tick_filter s p q) h1 (.more (by show (Pure.pure _ : Res _) = _; rw [if_neg hq]; rfl) k1), k2⟩
    exact key k xs hk st hs c l e
  | _, skipWhile p q, k, xs, hk, st, hs, c, l, e => by
    have key : ∀ k xs, xs.length ≤ k → ∀ st, PureSeg s st xs → ∀ (c : p.stages.Count) l e, ∃ st',
        Halts ((p.skipWhile q).tick s) ((p.skipWhile q).start s st) l e (Stages.next (p.stages.skipWhile q) xs c e).1 ((p.skipWhile q).start s st') l (Stages.next (p.stages.skipWhile q) xs c e).2.2.2 ∧
        ((Stages.next (p.stages.skipWhile q) xs c e).1.isSome → PureSeg s st' (Stages.next (p.stages.skipWhile q) xs c e).2.1) := by
      intro k
      induction k with
      | zero =>
        intro xs hk st hs c l e
        obtain rfl : xs = [] := by simpa using hk
        obtain ⟨st', h1, h3⟩ := halts_next s p 0 [] hk st hs c l e
        exact ⟨st', .stage_none (tick_skipWhile s p q) h1, fun h => by cases h⟩
      | succ k ih =>
        intro xs hk st hs c l e
        obtain ⟨st', h1, h3⟩ := halts_next s p (k + 1) xs hk st hs c l e
        rw [show Stages.next (p.stages.skipWhile q) xs c e = _ from Stages.next_skipWhile p.stages q xs c e]
        rcases hx : p.stages.next xs c e with ⟨_ | v, xs', c1, e1⟩ <;> rw [hx] at h1 h3
        · exact ⟨st', .stage_none (tick_skipWhile s p q) h1, fun h => by cases h⟩
        · have hlt := Stages.next_shorter p.stages hx
          by_cases hq : (q v e1).1 = true
          · simp only [hq, if_true]
            obtain ⟨st2, k1, k2⟩ := ih xs' (by omega) st' (h3 rfl) c1 l (q v e1).2
            exact ⟨st2, .stage_some (tick_skipWhile s p q) h1 (.more (by show (Pure.pure _ : Res _) = _; rw [if_pos hq]; rfl) k1), k2⟩
          · simp only [hq, if_false]
            exact ⟨st', .stage_some (tick_skipWhile s p q) h1 (.yield (by show (Pure.pure _ : Res _) = _; rw [if_neg hq]; rfl)), fun _ => h3 rfl⟩
    exact key k xs hk st hs c l e
  | _, inspect p g, k, xs, hk, st, hs, c, l, e => by
    obtain ⟨st', h1, h3⟩ := halts_next s p k xs hk st hs c l e
    show ∃ st', Halts _ _ l e (Stages.next (p.stages.inspect g) xs c e).1 _ l (Stages.next (p.stages.inspect g) xs c e).2.2.2 ∧
      ((Stages.next (p.stages.inspect g) xs c e).1.isSome → PureSeg s st' (Stages.next (p.stages.inspect g) xs c e).2.1)
    rw [show Stages.next (p.stages.inspect g) xs c e = _ from Stages.next_inspect p.stages g xs c e]
    rcases hx : p.stages.next xs c e with ⟨_ | v, xs', c1, e1⟩ <;> rw [hx] at h1 h3
    · exact ⟨st', .stage_none (tick_inspect s p g) h1, fun h => by cases h⟩
    · exact ⟨st', .stage_some (tick_inspect s p g) h1 (.yield rfl), fun _ => h3 rfl⟩

/-- With nobody else around, the coroutine answers what the pull function of C129 answers (`Stages.pulled`), whatever the callbacks do. -/
theorem alone_next (s : Stm E T) (p : Ops E T R) {xs : List T} {st : s.S} (hs : PureSeg s st xs) (c : p.stages.Count) (l : s.L) (e : E) : ∃ st',
    p.alone s (p.start s st) l e = .ok ((p.stages.next xs c e).1, p.start s st', l, (p.stages.next xs c e).2.2.2) ∧
    ((p.stages.next xs c e).1.isSome → PureSeg s st' (p.stages.next xs c e).2.1) := by
  obtain ⟨st', h1, h2⟩ := halts_next s p xs.length xs (Nat.le_refl _) st hs c l e
  exact ⟨st', h1.alone, h2⟩

end Ops

/-! ### A run -/

/-- Filter the even numbers, Map by 10, with what is called written into a log. -/
def evens : Ops (List Ev) Nat Nat := (Ops.source.filter (fun x e => (x % 2 == 0, e ++ [Ev.filter x]))).map (fun x e => (10 * x, e ++ [Ev.map x]))

theorem evens_steady : evens.Steady := ⟨⟨trivial, fun _ _ _ => rfl⟩, fun _ _ _ => rfl⟩

/-- The slice 1, 2, 3, 4 is cut in two. -/
theorem four_splits : Splits (ofSlice (E := E) digits ⟨false, 0, 0, 4, 4⟩ 2) (2 : Nat) [[1, 2], [3, 4]] := by
  have h := ofSlice_cuts (E := E) digits ⟨false, 0, 0, 4, 4⟩ ⟨by simp [digits], by simp [digits], by simp, by simp⟩ 2 (by omega) (by simp) 2
  have hc : Slice.cuts (4 / 2) (digits.view ⟨false, 0, 0, 4, 4⟩) = [[1, 2], [3, 4]] := by
    have hv : digits.view ⟨false, 0, 0, 4, 4⟩ = [1, 2, 3, 4] := rfl
    rw [hv]
    simp [Slice.cuts]
  rw [← hc]
  exact h

/-- The hypotheses are met; and one of the orders: the second goroutine overtakes the first inside its first element. -/
example : ∃ n c v, FoldRun (ofSlice digits ⟨false, 0, 0, 4, 4⟩ 2) evens 2 0 (fun a x e => (a + x, e ++ [Ev.fold a x])) (· + ·) () [] n c ∧ c.main = .done v ∧
    c.pool.e = [.filter 1, .filter 3, .filter 4, .map 4, .filter 2, .fold 0 40, .map 2, .fold 0 20] := by
  obtain ⟨n, c, v, h1, h2, h3⟩ := parFold_every_interleaving evens 0 (fun a x e => (a + x, e ++ [Ev.fold a x])) (· + ·) four_splits rfl evens_steady
    (fun _ _ _ _ => rfl) () []
    [(0, fun e => e ++ [.filter 1]), (1, fun e => e ++ [.filter 3]), (1, fun e => e ++ [.filter 4]), (1, fun e => e ++ [.map 4]), (0, fun e => e ++ [.filter 2]),
      (1, fun e => e ++ [.fold 0 40]), (0, fun e => e ++ [.map 2]), (0, fun e => e ++ [.fold 0 20])]
    ⟨by simp, by
      intro i acts hi
      rcases i with _ | _ | i
      · simp at hi; subst hi; rfl
      · simp at hi; subst hi; rfl
      · simp at hi⟩
  exact ⟨n, c, v, h1, h2, h3⟩

/-- Callbacks that count their calls. -/
def counting : Ops Nat Nat Nat := (Ops.source.filter (fun x e => (x % 2 == 0, e + 1))).map (fun x e => (10 * x, e + 1))

/-- Eight calls on every schedule, and the sum of what arrives. -/
example (n c v) (h : FoldRun (ofSlice digits ⟨false, 0, 0, 4, 4⟩ 2) counting 2 0 (fun a x e => (a + x, e + 1)) (· + ·) () 0 n c) (hv : c.main = .done v) :
    c.pool.e = 8 ∧ v = 60 := by
  obtain ⟨h1, rs, h2, rfl⟩ := parFold_effects counting 0 (fun a x e => (a + x, e + 1)) (· + ·) four_splits rfl ⟨⟨trivial, fun _ _ _ => rfl⟩, fun _ _ _ => rfl⟩
    (fun _ _ _ _ => rfl) (fun g => g = (· + 1)) (by rintro g g' rfl rfl e; rfl) ⟨⟨trivial, fun _ => rfl⟩, fun _ => rfl⟩ (fun _ _ => rfl) () 0 h hv
  refine ⟨h1, ?_⟩
  have : rs.Perm [20, 40] := h2
  exact (List.Perm.foldl_eq' this (by intros; omega) 0)

/-- Collect of the same pipeline: likewise. -/
example (n c) (h : CollectRun (ofSlice digits ⟨false, 0, 0, 4, 4⟩ 2) counting 2 (fun x e => e + 1) () 0 n c) (hv : c.main = .done) : c.pool.e = 8 :=
  parCollect_effects counting (fun _ e => e + 1) four_splits ⟨⟨trivial, fun _ _ _ => rfl⟩, fun _ _ _ => rfl⟩
    (fun g => g = (· + 1)) (by rintro g g' rfl rfl e; rfl) ⟨⟨trivial, fun _ => rfl⟩, fun _ => rfl⟩ (fun _ => rfl) () 0 h hv

end Gds.Stream
