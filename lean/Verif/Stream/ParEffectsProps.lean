import Verif.Stream.ParEffectsPool

/-! Property C132: parallel pipelines whose callbacks have effects. -/
namespace Gds.Stream
variable {E T R U A : Type}

/-! ### Invariants of the two machines -/

section
variable {s : Stm E T} {p : Ops E T R} {e₀ : E} {F : A → R → E → A × E} {ini : A} {comb : A → A → A} {segs : List (List T)} {k : Nat}

/-- What the goroutine of segment `i` ends up with. -/
def resOf (p : Ops E T R) (e₀ : E) (F : A → R → E → A × E) (ini : A) (segs : List (List T)) (i : Nat) : A := (p.whole e₀ F ini (segs.getD i [])).2

/-- Steps for the segments not started yet. -/
def ahead (p : Ops E T R) (todo : List (List T)) : Nat := (todo.map (fun xs => 2 * p.scale (xs.length + 1) + 2)).sum

/-- Invariant of the parallel FoldWith, with a bound on the steps to come. -/
def FoldInv (p : Ops E T R) (e₀ : E) (F : A → R → E → A × E) (ini : A) (comb : A → A → A) (segs : List (List T)) (k : Nat)
    (tr : List (Nat × Act E)) (c : FoldSt s p A) (m : Nat) : Prop :=
  c.panicked = false ∧ ∃ sent ns, PInv F ini e₀ segs tr sent ns c.pool ∧
    match c.main with
    | .seg g => SegsOf s g (segs.drop c.pool.ws.length) ∧ c.chan = sent.map (resOf p e₀ F ini segs) ∧ c.closed = false ∧
        m = ahead p (segs.drop c.pool.ws.length) + ns.sum + k + 2
    | .recv acc n => c.pool.ws.length = segs.length ∧ n ≤ sent.length ∧ n ≤ k ∧
        acc = ((sent.take n).map (resOf p e₀ F ini segs)).foldl comb ini ∧ c.chan = (sent.drop n).map (resOf p e₀ F ini segs) ∧ c.closed = false ∧
        m = ns.sum + (k - n) + 1
    | .done acc => c.pool.ws.length = segs.length ∧ sent.length = k ∧
        acc = (sent.map (resOf p e₀ F ini segs)).foldl comb ini ∧ m = ns.sum

theorem segs_step {g g' : s.G} {todo : List (List T)} (h : SegsOf s g todo) {l l' e e' o} (hg : s.seg g l e = .ok (o, g', l', e')) :
    l' = l ∧ e' = e ∧ match o with
      | none => todo = []
      | some st => ∃ xs rest, todo = xs :: rest ∧ PureSeg s st xs ∧ SegsOf s g' rest := by
  cases h with
  | nil h =>
    obtain ⟨g1, h1⟩ := h l e
    rw [h1] at hg
    obtain ⟨rfl, rfl, rfl, rfl⟩ := by simpa using hg
    exact ⟨rfl, rfl, rfl⟩
  | @cons _ g1 st xs rest h hs r =>
    rw [h] at hg
    obtain ⟨rfl, rfl, rfl, rfl⟩ := by simpa using hg
    exact ⟨rfl, rfl, xs, rest, rfl, hs, r⟩

theorem segs_can {g : s.G} {todo : List (List T)} (h : SegsOf s g todo) (l e) : ∃ o g', s.seg g l e = .ok (o, g', l, e) := by
  cases h with
  | nil h => obtain ⟨g1, h1⟩ := h l e; exact ⟨_, _, h1⟩
  | cons h hs r => exact ⟨_, _, h l e⟩

theorem drop_cons {k : Nat} {xs : List T} {rest : List (List T)} (h : segs.drop k = xs :: rest) : segs[k]? = some xs ∧ segs.drop (k + 1) = rest := by
  constructor
  · have := List.getElem?_drop (xs := segs) (i := k) (j := 0)
    rw [h] at this
    simpa using this.symm
  · rw [← List.tail_drop, h]; rfl

theorem FoldInv.init (hs : Splits s k segs) (l : s.L) : FoldInv (s := s) p e₀ F ini comb segs k [] (.init s p A k l e₀) (ahead p segs + k + 2) :=
  ⟨rfl, [], [], .start l, by exact ⟨hs, rfl, rfl, by simp [FoldSt.init]⟩⟩

theorem FoldInv.spawn {c : FoldSt s p A} {m tr} (h : FoldInv p e₀ F ini comb segs k tr c m) {g st g' l' e'} (hg : c.main = .seg g)
    (hst : s.seg g c.pool.l c.pool.e = .ok (some st, g', l', e')) :
    ∃ m', m' < m ∧ FoldInv p e₀ F ini comb segs k tr { c with main := .seg g', pool := c.pool.spawn st ini l' e' } m' := by
  obtain ⟨hpan, sent, ns, hi, hm⟩ := h
  rw [hg] at hm
  obtain ⟨h1, h2, h3, rfl⟩ := hm
  obtain ⟨rfl, rfl, xs, rest, hd, hs, hr⟩ := segs_step h1 hst
  obtain ⟨hx, hd'⟩ := drop_cons hd
  have hsp := hi.spawn hs hx c.pool.l
  refine ⟨_, ?_, hpan, sent, _, hsp, ?_, h2, h3, rfl⟩
  · simp only [Pool.spawn, List.length_append, List.length_singleton, hd, hd', ahead, List.map_cons, List.sum_cons, List.sum_append, List.sum_nil]
    omega
  · simp only [Pool.spawn, List.length_append, List.length_singleton, hd']
    exact hr

theorem FoldInv.segEnd (hk : segs.length = k) {c : FoldSt s p A} {m tr} (h : FoldInv p e₀ F ini comb segs k tr c m) {g g' l' e'} (hg : c.main = .seg g)
    (hst : s.seg g c.pool.l c.pool.e = .ok (none, g', l', e')) :
    ∃ m', m' < m ∧ FoldInv p e₀ F ini comb segs k tr { c with main := .recv ini 0, pool := { c.pool with l := l', e := e' } } m' := by
  obtain ⟨hpan, sent, ns, hi, hm⟩ := h
  rw [hg] at hm
  obtain ⟨h1, h2, h3, rfl⟩ := hm
  obtain ⟨rfl, rfl, hd⟩ := segs_step h1 hst
  have := hi.started
  rw [List.drop_eq_nil_iff] at hd
  refine ⟨ns.sum + (k - 0) + 1, by omega, hpan, sent, ns, hi, ?_⟩
  exact ⟨by show c.pool.ws.length = _; omega, by omega, by omega, rfl, h2, h3, rfl⟩

theorem FoldInv.work (hp : p.Steady) (hF : ∀ a v e e', (F a v e).1 = (F a v e').1) {c : FoldSt s p A} {m tr}
    (h : FoldInv p e₀ F ini comb segs k tr c m) {i pool'} (hw : PoolStep F i c.pool pool') :
    ∃ (gs : List (Act E)) (m' : Nat), gs.length ≤ 1 ∧ m' < m ∧ FoldInv p e₀ F ini comb segs k (tr ++ gs.map (fun g => (i, g))) { c with pool := pool' } m' := by
  obtain ⟨hpan, sent, ns, hi, hm⟩ := h
  obtain ⟨gs, ns', hgs, hi', hlt, hlen⟩ := hi.step hp hF hw
  cases hg : c.main with
  | seg g =>
    rw [hg] at hm
    obtain ⟨h1, h2, h3, rfl⟩ := hm
    refine ⟨gs, ahead p (segs.drop pool'.ws.length) + ns'.sum + k + 2, hgs, by rw [hlen]; omega, hpan, sent, ns', hi', ?_⟩
    exact ⟨by rw [hlen]; exact h1, h2, h3, rfl⟩
  | recv acc n =>
    rw [hg] at hm
    obtain ⟨h1, h2, h3, h4, h5, h6, rfl⟩ := hm
    refine ⟨gs, ns'.sum + (k - n) + 1, hgs, by omega, hpan, sent, ns', hi', ?_⟩
    exact ⟨hlen.trans h1, h2, h3, h4, h5, h6, rfl⟩
  | done acc =>
    rw [hg] at hm
    obtain ⟨h1, h2, h3, rfl⟩ := hm
    refine ⟨gs, ns'.sum, hgs, hlt, hpan, sent, ns', hi', ?_⟩
    exact ⟨hlen.trans h1, h2, h3, rfl⟩

theorem FoldInv.step (hp : p.Steady) (hF : ∀ a v e e', (F a v e).1 = (F a v e').1) (hk : segs.length = k) {c c' : FoldSt s p A} {m tr}
    (h : FoldInv p e₀ F ini comb segs k tr c m) (hc : FoldStep k ini F comb c c') :
    ∃ (tr' : List (Nat × Act E)) (m' : Nat), m' < m ∧ FoldInv p e₀ F ini comb segs k (tr ++ tr') c' m' := by
  cases hc with
  | spawn g st g' l' e' hg hst => obtain ⟨m', h1, h2⟩ := h.spawn hg hst; exact ⟨[], m', h1, by rwa [List.append_nil]⟩
  | segEnd g g' l' e' hg hst => obtain ⟨m', h1, h2⟩ := h.segEnd hk hg hst; exact ⟨[], m', h1, by rwa [List.append_nil]⟩
  | work i pool' hw => obtain ⟨gs, m', -, h1, h2⟩ := h.work hp hF hw; exact ⟨_, m', h1, h2⟩
  | send i acc hw hcl hroom =>
    obtain ⟨hpan, sent, ns, hi, hm⟩ := h
    obtain ⟨ns', hi', hlt, hlen, xs, hx, rfl⟩ := hi.exit hw
    have hres : (p.whole e₀ F ini xs).2 = resOf p e₀ F ini segs i := by simp [resOf, List.getD, hx]
    cases hg : c.main with
    | seg g =>
      rw [hg] at hm
      obtain ⟨h1, h2, h3, rfl⟩ := hm
      refine ⟨[], ahead p (segs.drop c.pool.ws.length) + ns'.sum + k + 2, by omega, hpan, sent ++ [i], ns', by rwa [List.append_nil], ?_⟩
      exact ⟨by rw [hlen]; exact h1, by simp [h2, hres], h3, by rw [hlen]⟩
    | recv acc n =>
      rw [hg] at hm
      obtain ⟨h1, h2, h3, h4, h5, h6, rfl⟩ := hm
      refine ⟨[], ns'.sum + (k - n) + 1, by omega, hpan, sent ++ [i], ns', by rwa [List.append_nil], ?_⟩
      refine ⟨hlen.trans h1, by simp; omega, h3, ?_, ?_, h6, rfl⟩
      · rw [List.take_append_of_le_length h2]; exact h4
      · show c.chan ++ _ = _
        rw [List.drop_append_of_le_length h2, h5, hres]; simp
    | done acc =>
      rw [hg] at hm
      obtain ⟨h1, h2, h3, rfl⟩ := hm
      have := hi'.sent_le
      simp at this
      omega
  | sendPanic i acc hw hcl =>
    obtain ⟨hpan, sent, ns, hi, hm⟩ := h
    exfalso
    obtain ⟨ns', hi', hlt, hlen, -⟩ := hi.exit hw
    have := hi'.sent_le
    simp only [List.length_append, List.length_singleton] at this
    cases hg : c.main with
    | seg g => rw [hg] at hm; simp [hm.2.2.1] at hcl
    | recv acc n => rw [hg] at hm; simp [hm.2.2.2.2.2.1] at hcl
    | done acc => rw [hg] at hm; have := hm.1; have := hm.2.1; omega
  | recv acc n a rest hg hn hch =>
    obtain ⟨hpan, sent, ns, hi, hm⟩ := h
    rw [hg] at hm
    obtain ⟨h1, h2, h3, rfl, h5, h6, rfl⟩ := hm
    have hlt : n < sent.length := by
      by_contra hge
      rw [List.drop_eq_nil_of_le (by omega), List.map_nil] at h5
      rw [h5] at hch
      simp at hch
    refine ⟨[], ns.sum + (k - (n + 1)) + 1, by omega, hpan, sent, ns, by rwa [List.append_nil], h1, by omega, by omega, ?_, ?_, h6, rfl⟩
    · rw [List.drop_eq_getElem_cons hlt, List.map_cons] at h5
      rw [h5] at hch
      obtain ⟨rfl, -⟩ := by simpa using hch
      rw [List.take_succ_eq_append_getElem hlt, List.map_append, List.foldl_append]
      rfl
    · rw [List.drop_eq_getElem_cons hlt, List.map_cons] at h5
      rw [h5] at hch
      exact (List.cons.inj hch).2.symm
  | close acc n hg hn =>
    obtain ⟨hpan, sent, ns, hi, hm⟩ := h
    rw [hg] at hm
    obtain ⟨h1, h2, h3, rfl, h5, h6, rfl⟩ := hm
    have := hi.sent_le
    have hl : sent.length = n := by omega
    refine ⟨[], ns.sum, by omega, hpan, sent, ns, by rwa [List.append_nil], h1, by omega, ?_, rfl⟩
    rw [List.take_of_length_le (by omega)]

theorem FoldInv.can (hp : p.Steady) (hk : segs.length = k) {c : FoldSt s p A} {m tr} (h : FoldInv p e₀ F ini comb segs k tr c m) :
    (∃ v, c.main = .done v) ∨ ∃ c', FoldStep k ini F comb c c' := by
  obtain ⟨hpan, sent, ns, hi, hm⟩ := h
  cases hg : c.main with
  | seg g =>
    rw [hg] at hm
    obtain ⟨o, g', ho⟩ := segs_can hm.1 c.pool.l c.pool.e
    cases o with
    | none => exact .inr ⟨_, .segEnd c g g' _ _ hg ho⟩
    | some st => exact .inr ⟨_, .spawn c g st g' _ _ hg ho⟩
  | done acc => exact .inl ⟨acc, rfl⟩
  | recv acc n =>
    rw [hg] at hm
    obtain ⟨h1, h2, h3, h4, h5, h6, -⟩ := hm
    right
    by_cases hn : n = k
    · exact ⟨_, .close c acc n hg hn⟩
    · cases hch : c.chan with
      | cons a rest => exact ⟨_, .recv c acc n a rest hg hn hch⟩
      | nil =>
        rw [hch] at h5
        have hlen : sent.length ≤ n := by simpa using h5.symm
        obtain ⟨i, w, hw, hne⟩ := hi.unfinished (by omega)
        obtain ⟨xs, todo, n', -, -, ho, -⟩ := hi.each i w hw
        rcases PoolStep.can hp hw ho with ⟨c', hc'⟩ | ⟨acc', rfl⟩ | rfl
        · exact ⟨_, .work c i c' hc'⟩
        · exact ⟨_, .send c i acc' hw h6 (by rw [hch]; simp; omega)⟩
        · exact absurd rfl hne

/-- Invariant of the parallel Collect, with a bound on the steps to come. -/
def CollectInv (p : Ops E T R) (e₀ : E) (C : R → E → E) (segs : List (List T)) (tr : List (Nat × Act E)) (c : CollectSt s p) (m : Nat) : Prop :=
  ∃ sent ns, PInv (fun (_ : Unit) v e => ((), C v e)) () e₀ segs tr sent ns c.pool ∧ c.wg + sent.length = c.pool.ws.length ∧
    match c.main with
    | .seg g => SegsOf s g (segs.drop c.pool.ws.length) ∧ m = ahead p (segs.drop c.pool.ws.length) + ns.sum + 2
    | .wait => c.pool.ws.length = segs.length ∧ m = ns.sum + 1
    | .done => c.pool.ws.length = segs.length ∧ sent.length = segs.length ∧ m = ns.sum

theorem CollectInv.init (hs : Splits s k segs) (C : R → E → E) (l : s.L) : CollectInv (s := s) p e₀ C segs [] (.init s p k l e₀) (ahead p segs + 2) :=
  ⟨[], [], .start l, rfl, by exact ⟨hs, by simp [CollectSt.init]⟩⟩

theorem CollectInv.spawn {C : R → E → E} {c : CollectSt s p} {m tr} (h : CollectInv p e₀ C segs tr c m) {g st g' l' e'} (hg : c.main = .seg g)
    (hst : s.seg g c.pool.l c.pool.e = .ok (some st, g', l', e')) :
    ∃ m', m' < m ∧ CollectInv p e₀ C segs tr { main := .seg g', pool := c.pool.spawn st () l' e', wg := c.wg + 1 } m' := by
  obtain ⟨sent, ns, hi, hwg, hm⟩ := h
  rw [hg] at hm
  obtain ⟨h1, rfl⟩ := hm
  obtain ⟨rfl, rfl, xs, rest, hd, hs, hr⟩ := segs_step h1 hst
  obtain ⟨hx, hd'⟩ := drop_cons hd
  have hsp := hi.spawn hs hx c.pool.l
  refine ⟨_, ?_, sent, _, hsp, by simp [Pool.spawn]; omega, ?_, rfl⟩
  · simp only [Pool.spawn, List.length_append, List.length_singleton, hd, hd', ahead, List.map_cons, List.sum_cons, List.sum_append, List.sum_nil]
    omega
  · simp only [Pool.spawn, List.length_append, List.length_singleton, hd']
    exact hr

theorem CollectInv.segEnd {C : R → E → E} {c : CollectSt s p} {m tr} (h : CollectInv p e₀ C segs tr c m) {g g' l' e'} (hg : c.main = .seg g)
    (hst : s.seg g c.pool.l c.pool.e = .ok (none, g', l', e')) :
    ∃ m', m' < m ∧ CollectInv p e₀ C segs tr { c with main := .wait, pool := { c.pool with l := l', e := e' } } m' := by
  obtain ⟨sent, ns, hi, hwg, hm⟩ := h
  rw [hg] at hm
  obtain ⟨h1, rfl⟩ := hm
  obtain ⟨rfl, rfl, hd⟩ := segs_step h1 hst
  have := hi.started
  rw [List.drop_eq_nil_iff] at hd
  exact ⟨ns.sum + 1, by omega, sent, ns, hi, hwg, by show c.pool.ws.length = _; omega, rfl⟩

theorem CollectInv.work (hp : p.Steady) {C : R → E → E} {c : CollectSt s p} {m tr} (h : CollectInv p e₀ C segs tr c m) {i pool'}
    (hw : PoolStep (fun (_ : Unit) v e => ((), C v e)) i c.pool pool') :
    ∃ (gs : List (Act E)) (m' : Nat), gs.length ≤ 1 ∧ m' < m ∧ CollectInv p e₀ C segs (tr ++ gs.map (fun g => (i, g))) { c with pool := pool' } m' := by
  obtain ⟨sent, ns, hi, hwg, hm⟩ := h
  obtain ⟨gs, ns', hgs, hi', hlt, hlen⟩ := hi.step hp (fun _ _ _ _ => rfl) hw
  cases hg : c.main with
  | seg g =>
    rw [hg] at hm
    obtain ⟨h1, rfl⟩ := hm
    refine ⟨gs, ahead p (segs.drop pool'.ws.length) + ns'.sum + 2, hgs, by rw [hlen]; omega, sent, ns', hi', hwg.trans hlen.symm, ?_⟩
    exact ⟨by rw [hlen]; exact h1, rfl⟩
  | wait =>
    rw [hg] at hm
    obtain ⟨h1, rfl⟩ := hm
    refine ⟨gs, ns'.sum + 1, hgs, by omega, sent, ns', hi', hwg.trans hlen.symm, ?_⟩
    exact ⟨hlen.trans h1, rfl⟩
  | done =>
    rw [hg] at hm
    obtain ⟨h1, h2, rfl⟩ := hm
    refine ⟨gs, ns'.sum, hgs, hlt, sent, ns', hi', hwg.trans hlen.symm, ?_⟩
    exact ⟨hlen.trans h1, h2, rfl⟩

theorem CollectInv.step (hp : p.Steady) {C : R → E → E} {c c' : CollectSt s p} {m tr}
    (h : CollectInv p e₀ C segs tr c m) (hc : CollectStep C c c') :
    ∃ (tr' : List (Nat × Act E)) (m' : Nat), m' < m ∧ CollectInv p e₀ C segs (tr ++ tr') c' m' := by
  cases hc with
  | spawn g st g' l' e' hg hst => obtain ⟨m', h1, h2⟩ := h.spawn hg hst; exact ⟨[], m', h1, by rwa [List.append_nil]⟩
  | segEnd g g' l' e' hg hst => obtain ⟨m', h1, h2⟩ := h.segEnd hg hst; exact ⟨[], m', h1, by rwa [List.append_nil]⟩
  | work i pool' hw => obtain ⟨gs, m', -, h1, h2⟩ := h.work hp hw; exact ⟨_, m', h1, h2⟩
  | exit i hw =>
    obtain ⟨sent, ns, hi, hwg, hm⟩ := h
    obtain ⟨ns', hi', hlt, hlen, -⟩ := hi.exit hw
    have hle := hi'.sent_le
    simp only [List.length_append, List.length_singleton] at hle
    have hwg' : c.wg - 1 + (sent ++ [i]).length = (c.pool.exit i).ws.length := by simp; omega
    cases hg : c.main with
    | seg g =>
      rw [hg] at hm
      obtain ⟨h1, rfl⟩ := hm
      refine ⟨[], ahead p (segs.drop c.pool.ws.length) + ns'.sum + 2, by omega, sent ++ [i], ns', by rwa [List.append_nil], hwg', ?_⟩
      exact ⟨by rw [hlen]; exact h1, by rw [hlen]⟩
    | wait =>
      rw [hg] at hm
      obtain ⟨h1, rfl⟩ := hm
      refine ⟨[], ns'.sum + 1, by omega, sent ++ [i], ns', by rwa [List.append_nil], hwg', ?_⟩
      exact ⟨hlen.trans h1, rfl⟩
    | done =>
      rw [hg] at hm
      obtain ⟨h1, h2, rfl⟩ := hm
      omega
  | waited hg h0 =>
    obtain ⟨sent, ns, hi, hwg, hm⟩ := h
    rw [hg] at hm
    obtain ⟨h1, rfl⟩ := hm
    exact ⟨[], ns.sum, by omega, sent, ns, by rwa [List.append_nil], hwg, h1, by omega, rfl⟩

theorem CollectInv.can (hp : p.Steady) {C : R → E → E} {c : CollectSt s p} {m tr} (h : CollectInv p e₀ C segs tr c m) :
    c.main = .done ∨ ∃ c', CollectStep C c c' := by
  obtain ⟨sent, ns, hi, hwg, hm⟩ := h
  cases hg : c.main with
  | seg g =>
    rw [hg] at hm
    obtain ⟨o, g', ho⟩ := segs_can hm.1 c.pool.l c.pool.e
    cases o with
    | none => exact .inr ⟨_, .segEnd c g g' _ _ hg ho⟩
    | some st => exact .inr ⟨_, .spawn c g st g' _ _ hg ho⟩
  | done => exact .inl rfl
  | wait =>
    right
    by_cases h0 : c.wg = 0
    · exact ⟨_, .waited c hg h0⟩
    · obtain ⟨i, w, hw, hne⟩ := hi.unfinished (by omega)
      obtain ⟨xs, todo, n', -, -, ho, -⟩ := hi.each i w hw
      rcases PoolStep.can hp hw ho with ⟨c', hc'⟩ | ⟨acc', rfl⟩ | rfl
      · exact ⟨_, .work c i c' hc'⟩
      · exact ⟨_, .exit c i hw⟩
      · exact absurd rfl hne

end

/-! ### C132 -/

/-- Parallel FoldWith over `k` segments, on every schedule: it returns after a bounded number of steps, nothing panics, and
    the calls made are an interleaving of what the segments cause one by one: every element that reaches a callback reaches
    it exactly once, in the order of its segment. The value combines what the segments end up with, in some order. -/
theorem parFold_interleaves {s : Stm E T} (p : Ops E T R) {k : Nat} (ini : A) (F : A → R → E → A × E) (comb : A → A → A) {segs : List (List T)}
    (hs : Splits s k segs) (hk : segs.length = k) (hp : p.Steady) (hF : ∀ a v e e', (F a v e).1 = (F a v e').1) (l : s.L) (e : E) :
    ∃ N, ∀ n c, FoldRun s p k ini F comb l e n c → n ≤ N ∧ c.panicked = false ∧ ((∃ v, c.main = .done v) ∨ ∃ c', FoldStep k ini F comb c c') ∧
      ∀ v, c.main = .done v → ∃ (tr : List (Nat × Act E)) (rs : List A), Interleaves tr (segs.map (fun xs => (p.whole e F ini xs).1)) ∧ c.pool.e = perform (tr.map (·.2)) e ∧
        rs.Perm (segs.map (fun xs => (p.whole e F ini xs).2)) ∧ v = rs.foldl comb ini := by
  refine ⟨ahead p segs + k + 2, fun n c hc => ?_⟩
  have hinv : ∃ m, n + m ≤ ahead p segs + k + 2 ∧ ∃ tr, FoldInv p e F ini comb segs k tr c m := by
    induction hc with
    | init => exact ⟨_, by omega, [], .init hs l⟩
    | step _ hst ih =>
      obtain ⟨m, hm, tr, hi⟩ := ih
      obtain ⟨tr', m', hlt, hi'⟩ := hi.step hp hF hk hst
      exact ⟨m', by omega, _, hi'⟩
  obtain ⟨m, hm, tr, hi⟩ := hinv
  refine ⟨by omega, hi.1, hi.can hp hk, fun v hv => ?_⟩
  obtain ⟨-, sent, ns, hpi, hcase⟩ := hi
  rw [hv] at hcase
  obtain ⟨h1, h2, rfl, -⟩ := hcase
  obtain ⟨ha, hperm⟩ := hpi.all (by omega)
  refine ⟨tr, sent.map (resOf p e F ini segs), ha, hpi.env, ?_, rfl⟩
  refine (hperm.map _).trans (List.Perm.of_eq ?_)
  apply List.ext_getElem (by simp)
  intro i h1 h2
  simp at h1 h2
  simp [resOf, List.getD, h1]

/-- Parallel Collect, likewise, over any number of segments. -/
theorem parCollect_interleaves {s : Stm E T} (p : Ops E T R) {k : Nat} (C : R → E → E) {segs : List (List T)}
    (hs : Splits s k segs) (hp : p.Steady) (l : s.L) (e : E) :
    ∃ N, ∀ n c, CollectRun s p k C l e n c → n ≤ N ∧ (c.main = .done ∨ ∃ c', CollectStep C c c') ∧
      (c.main = .done → ∃ tr, Interleaves tr (segs.map (fun xs => (p.whole e (fun (_ : Unit) v e => ((), C v e)) () xs).1)) ∧
        c.pool.e = perform (tr.map (·.2)) e) := by
  refine ⟨ahead p segs + 2, fun n c hc => ?_⟩
  have hinv : ∃ m, n + m ≤ ahead p segs + 2 ∧ ∃ tr, CollectInv p e C segs tr c m := by
    induction hc with
    | init => exact ⟨_, by omega, [], .init hs C l⟩
    | step _ hst ih =>
      obtain ⟨m, hm, tr, hi⟩ := ih
      obtain ⟨tr', m', hlt, hi'⟩ := hi.step hp hst
      exact ⟨m', by omega, _, hi'⟩
  obtain ⟨m, hm, tr, hi⟩ := hinv
  refine ⟨by omega, hi.can hp, fun hv => ?_⟩
  obtain ⟨sent, ns, hpi, -, hcase⟩ := hi
  rw [hv] at hcase
  obtain ⟨ha, -⟩ := hpi.all hcase.2.1
  exact ⟨tr, ha, hpi.env⟩

/-! ### Effects that commute -/

theorem perm_parts (n : Nat) (tr : List (Nat × Act E)) (h : ∀ x ∈ tr, x.1 < n) : tr.Perm ((List.range n).flatMap (fun i => tr.filter (fun x => x.1 == i))) := by
  induction n generalizing tr with
  | zero =>
    cases tr with
    | nil => simp
    | cons x xs => exact absurd (h x (by simp)) (by omega)
  | succ n ih =>
    rw [List.range_succ, List.flatMap_append]
    have h1 := List.filter_append_perm (fun x : Nat × Act E => decide (x.1 < n)) tr
    refine h1.symm.trans (List.Perm.append ?_ ?_)
    · refine (ih _ (by intro x hx; simpa using (List.mem_filter.1 hx).2)).trans (List.Perm.of_eq ?_)
      apply List.flatMap_congr
      intro i hi
      rw [List.filter_filter]
      apply List.filter_congr
      intro x hx
      have := List.mem_range.1 hi
      by_cases hxi : x.1 = i
      · simp [hxi, this]
      · simp [hxi]
    · simp only [List.flatMap_cons, List.flatMap_nil, List.append_nil]
      refine List.Perm.of_eq (List.filter_congr ?_)
      intro x hx
      have := h x hx
      by_cases hxn : x.1 = n
      · simp [hxn]
      · have : x.1 < n := by omega
        simp [hxn, this]

/-- If the effects commute, every interleaving comes out as one segment after the other. -/
theorem Interleaves.commute {tr : List (Nat × Act E)} {whole : List (List (Act E))} (h : Interleaves tr whole)
    (hc : ∀ g ∈ whole.flatten, ∀ g' ∈ whole.flatten, ∀ e, g (g' e) = g' (g e)) (e : E) : perform (tr.map (·.2)) e = perform whole.flatten e := by
  have hp : (tr.map (·.2)).Perm whole.flatten := by
    refine ((perm_parts _ tr h.1).map _).trans (List.Perm.of_eq ?_)
    rw [List.map_flatMap, List.flatMap_def]
    congr 1
    apply List.ext_getElem (by simp)
    intro i h1 h2
    simpa using h.2 i _ (List.getElem?_eq_getElem h2)
  refine List.Perm.foldl_eq' hp ?_ e
  intro g hg g' hg' z
  exact hc g' (hp.mem_iff.1 hg') g (hp.mem_iff.1 hg) z

namespace Ops

theorem one_calls (e₀ : E) : ∀ {R : Type} (p : Ops E T R), p.Steady → ∀ (x : T) (c : p.stages.Count) (e : E),
    p.stages.one x c e = ((p.calls e₀ x).2, c, perform (p.calls e₀ x).1 e)
  | _, source, _, x, c, e => rfl
  | _, map p f, h, x, c, e => by
    show Stages.one (p.stages.map f) x c e = _
    simp only [Stages.one]
    rw [one_calls e₀ p h.1 x c e, calls_map]
    rcases p.calls e₀ x with ⟨as, _ | v⟩
    · rfl
    · simp [after, mapH, perform, h.2 v _ e₀] <;> rfl
  | _, filter p q, h, x, c, e => by
    show Stages.one (p.stages.filter q) x c e = _
    simp only [Stages.one]
    rw [one_calls e₀ p h.1 x c e, calls_filter]
    rcases p.calls e₀ x with ⟨as, _ | v⟩
    · rfl
    · simp [after, filterH, perform, h.2 v _ e₀] <;> rfl
  | _, skipWhile p q, h, x, c, e => by
    show Stages.one (p.stages.skipWhile q) x c e = _
    simp only [Stages.one]
    rw [one_calls e₀ p h.1 x c e, calls_skipWhile]
    rcases p.calls e₀ x with ⟨as, _ | v⟩
    · rfl
    · simp [after, skipWhileH, perform, h.2 v _ e₀] <;> rfl
  | _, inspect p g, h, x, c, e => by
    show Stages.one (p.stages.inspect g) x c e = _
    simp only [Stages.one]
    rw [one_calls e₀ p h x c e, calls_inspect]
    rcases p.calls e₀ x with ⟨as, _ | v⟩
    · rfl
    · simp [after, inspectH, perform] <;> rfl

theorem open_stages : ∀ {R : Type} (p : Ops E T R) (c : p.stages.Count), p.stages.closed c = false
  | _, source, _ => rfl
  | _, map p _, c => open_stages p c
  | _, filter p _, c => open_stages p c
  | _, skipWhile p _, c => open_stages p c
  | _, inspect p _, c => open_stages p c

/-- The calls and the value of `whole` are those of the sequential pipeline of C129. -/
theorem pass_whole (e₀ : E) (p : Ops E T R) (h : p.Steady) (F : A → R → E → A × E) (hF : ∀ a v e e', (F a v e).1 = (F a v e').1) (xs : List T)
    (c : p.stages.Count) (a : A) (e : E) :
    p.stages.pass F xs c a e = ((p.whole e₀ F a xs).2, c, perform (p.whole e₀ F a xs).1 e) := by
  induction xs generalizing a e with
  | nil => rfl
  | cons x xs ih =>
    rw [Stages.pass, open_stages, whole_cons, one_calls e₀ p h]
    rcases p.calls e₀ x with ⟨as, _ | v⟩
    · simp only [rest, perform_append]
      exact ih _ _
    · simp only [rest, perform_append, hF a v _ e₀]
      exact ih _ _

theorem calls_each {K : Act E → Prop} (e₀ : E) : ∀ {R : Type} (p : Ops E T R), p.Each K → ∀ x, ∀ g ∈ (p.calls e₀ x).1, K g
  | _, source, _, x, g, hg => by simp [calls] at hg
  | _, map p f, h, x, g, hg => by
    rw [calls_map] at hg
    have ih := calls_each e₀ p h.1 x
    generalize p.calls e₀ x = r at hg ih
    rcases r with ⟨as, _ | v⟩
    · exact ih g hg
    · rcases List.mem_append.1 hg with hg | hg
      · exact ih g hg
      · obtain rfl := List.mem_singleton.1 hg; exact h.2 v
  | _, filter p q, h, x, g, hg => by
    rw [calls_filter] at hg
    have ih := calls_each e₀ p h.1 x
    generalize p.calls e₀ x = r at hg ih
    rcases r with ⟨as, _ | v⟩
    · exact ih g hg
    · rcases List.mem_append.1 hg with hg | hg
      · exact ih g hg
      · obtain rfl := List.mem_singleton.1 hg; exact h.2 v
  | _, skipWhile p q, h, x, g, hg => by
    rw [calls_skipWhile] at hg
    have ih := calls_each e₀ p h.1 x
    generalize p.calls e₀ x = r at hg ih
    rcases r with ⟨as, _ | v⟩
    · exact ih g hg
    · rcases List.mem_append.1 hg with hg | hg
      · exact ih g hg
      · obtain rfl := List.mem_singleton.1 hg; exact h.2 v
  | _, inspect p f, h, x, g, hg => by
    rw [calls_inspect] at hg
    have ih := calls_each e₀ p h.1 x
    generalize p.calls e₀ x = r at hg ih
    rcases r with ⟨as, _ | v⟩
    · exact ih g hg
    · rcases List.mem_append.1 hg with hg | hg
      · exact ih g hg
      · obtain rfl := List.mem_singleton.1 hg; exact h.2 v

theorem whole_each {K : Act E → Prop} (e₀ : E) (p : Ops E T R) (h : p.Each K) (F : A → R → E → A × E) (hF : ∀ a v, K (fun e => (F a v e).2))
    (xs : List T) (a : A) : ∀ g ∈ (p.whole e₀ F a xs).1, K g := by
  induction xs generalizing a with
  | nil => simp [whole]
  | cons x xs ih =>
    have hc := calls_each e₀ p h x
    rw [whole_cons]
    generalize p.calls e₀ x = r at hc ⊢
    rcases r with ⟨as, _ | v⟩
    · intro g hg
      rcases List.mem_append.1 hg with hg | hg
      · exact hc g hg
      · exact ih a g hg
    · intro g hg
      rcases List.mem_append.1 hg with hg | hg
      · exact hc g hg
      · rcases List.mem_cons.1 hg with rfl | hg
        · exact hF a v
        · exact ih _ g hg

end Ops

/-- FoldWith, if the effects of all the callbacks commute: the environment is left as if one segment had been processed after
    the other, element by element (the `pass` of C129, from the initial accumulator for each segment). -/
theorem parFold_effects {s : Stm E T} (p : Ops E T R) {k : Nat} (ini : A) (F : A → R → E → A × E) (comb : A → A → A) {segs : List (List T)}
    (hs : Splits s k segs) (hk : segs.length = k) (hp : p.Steady) (hF : ∀ a v e e', (F a v e).1 = (F a v e').1)
    (K : Act E → Prop) (hK : ∀ g g', K g → K g' → ∀ e, g (g' e) = g' (g e)) (hpK : p.Each K) (hFK : ∀ a v, K (fun e => (F a v e).2))
    (l : s.L) (e : E) {n c} (hc : FoldRun s p k ini F comb l e n c) {v} (hv : c.main = .done v) :
    c.pool.e = segs.foldl (fun e xs => (p.stages.pass F xs p.stages.zero ini e).2.2) e ∧
      ∃ rs : List A, rs.Perm (segs.map (fun xs => (p.stages.pass F xs p.stages.zero ini e).1)) ∧ v = rs.foldl comb ini := by
  obtain ⟨N, h0⟩ := parFold_interleaves p ini F comb hs hk hp hF l e
  obtain ⟨-, -, -, h⟩ := h0 n c hc
  obtain ⟨tr, rs, h1, h2, h3, h4⟩ := h v hv
  have hw : ∀ xs e', p.stages.pass F xs p.stages.zero ini e' = ((p.whole e F ini xs).2, p.stages.zero, perform (p.whole e F ini xs).1 e') :=
    fun xs e' => p.pass_whole e hp F hF xs _ ini e'
  refine ⟨?_, rs, by simpa only [hw] using h3, h4⟩
  rw [h2, h1.commute]
  · simp only [hw]
    clear hs hk h0 h h1 h2 h3 h4 hc
    generalize e = e₁ at hw ⊢
    suffices ∀ e', perform (segs.map (fun xs => (p.whole e₁ F ini xs).1)).flatten e' = segs.foldl (fun e xs => perform (p.whole e₁ F ini xs).1 e) e' from this e₁
    induction segs with
    | nil => intro e'; rfl
    | cons xs segs ih => intro e'; rw [List.map_cons, List.flatten_cons, perform_append]; exact ih _
  · intro g hg g' hg' e'
    have hall : ∀ g ∈ (segs.map (fun xs => (p.whole e F ini xs).1)).flatten, K g := by
      intro g hg
      obtain ⟨as, has, hg⟩ := List.mem_flatten.1 hg
      obtain ⟨xs, -, rfl⟩ := List.mem_map.1 has
      exact p.whole_each e hpK F hFK xs ini g hg
    exact hK g g' (hall g hg) (hall g' hg') e'

/-- Collect, likewise: the environment is left as by the sequential pipeline on all the elements. -/
theorem parCollect_effects {s : Stm E T} (p : Ops E T R) {k : Nat} (C : R → E → E) {segs : List (List T)}
    (hs : Splits s k segs) (hp : p.Steady) (K : Act E → Prop) (hK : ∀ g g', K g → K g' → ∀ e, g (g' e) = g' (g e)) (hpK : p.Each K) (hCK : ∀ v, K (C v))
    (l : s.L) (e : E) {n c} (hc : CollectRun s p k C l e n c) (hv : c.main = .done) :
    c.pool.e = (p.stages.pass (fun (_ : Unit) v e => ((), C v e)) segs.flatten p.stages.zero () e).2.2 := by
  obtain ⟨N, h0⟩ := parCollect_interleaves p C hs hp l e
  obtain ⟨-, -, h⟩ := h0 n c hc
  obtain ⟨tr, h1, h2⟩ := h hv
  have hw : ∀ xs e', p.stages.pass (fun (_ : Unit) v e => ((), C v e)) xs p.stages.zero () e' =
      ((p.whole e (fun (_ : Unit) v e => ((), C v e)) () xs).2, p.stages.zero, perform (p.whole e (fun (_ : Unit) v e => ((), C v e)) () xs).1 e') :=
    fun xs e' => p.pass_whole e hp _ (fun _ _ _ _ => rfl) xs _ () e'
  rw [h2, h1.commute]
  · clear hs h0 h h1 h2 hc
    generalize e = e₁ at hw ⊢
    suffices ∀ e', perform (segs.map (fun xs => (p.whole e₁ (fun (_ : Unit) v e => ((), C v e)) () xs).1)).flatten e' =
      (p.stages.pass (fun (_ : Unit) v e => ((), C v e)) segs.flatten p.stages.zero () e').2.2 from this e₁
    induction segs with
    | nil => intro e'; rfl
    | cons xs segs ih =>
      intro e'
      rw [List.map_cons, List.flatten_cons, perform_append, ih, List.flatten_cons, Stages.pass_append, hw xs]
  · intro g hg g' hg' e'
    have hall : ∀ g ∈ (segs.map (fun xs => (p.whole e (fun (_ : Unit) v e => ((), C v e)) () xs).1)).flatten, K g := by
      intro g hg
      obtain ⟨as, has, hg⟩ := List.mem_flatten.1 hg
      obtain ⟨xs, -, rfl⟩ := List.mem_map.1 has
      exact p.whole_each e hpK _ (fun _ v => hCK v) xs () g hg
    exact hK g g' (hall g hg) (hall g' hg') e'

end Gds.Stream
