import Verif.Stream.Terminal

/-! Parallel FoldWith over any number of segments: the exact set of outcomes (C41, C84). -/

namespace Gds.Stream

variable {E T R : Type}

/-- Parallel FoldWith over any number of segments, on every schedule: the returned value combines the folds of exactly `p`
    segments, in some order; the folds of the other segments are lost. -/
theorem parFold_outcome {s : Stm E T} {p : Nat} (ini : R) (f : R → T → R) (comb : R → R → R) {segs : List (List T)}
    (hs : Splits s p segs) (l : s.L) (e : E) (c : FSt s R) (h : FReach s p ini f comb l e c) :
    (c.panicked = true → p < segs.length) ∧
    ∀ v, c.main = .done v → ∃ rs lost : List R, rs.length = p ∧ (rs ++ lost).Perm (segs.map (fun xs => xs.foldl f ini)) ∧ v = rs.foldl comb ini := by
  obtain ⟨rs, i⟩ := h.inv hs
  refine ⟨i.panicked, fun v hv => ?_⟩
  obtain ⟨h1, h2⟩ := i.done v hv
  have hb := i.balance
  rw [hv] at hb
  obtain ⟨lost, hl⟩ := Quot.exists_rep ((c.ws.map (FW.owes f)).sum + (c.chan : Multiset R))
  have hl : (lost : Multiset R) = (c.ws.map (FW.owes f)).sum + (c.chan : Multiset R) := hl
  refine ⟨rs, lost, h2.symm, ?_, h1⟩
  rw [← hl] at hb
  simp only [FM.owes, add_zero, Multiset.coe_add, Multiset.coe_eq_coe] at hb
  exact List.perm_append_comm.trans hb

/-- With fewer segments than `p` no schedule returns. -/
theorem parFold_too_few {s : Stm E T} {p : Nat} (ini : R) (f : R → T → R) (comb : R → R → R) {segs : List (List T)}
    (hs : Splits s p segs) (hp : segs.length < p) (l : s.L) (e : E) (c : FSt s R) (h : FReach s p ini f comb l e c) :
    c.panicked = false ∧ ∀ v, c.main ≠ .done v := by
  obtain ⟨h1, h2⟩ := parFold_outcome ini f comb hs l e c h
  refine ⟨?_, fun v hv => ?_⟩
  · cases hpn : c.panicked with
    | false => rfl
    | true => have := h1 hpn; omega
  · obtain ⟨rs, lost, k1, k2, -⟩ := h2 v hv
    have := k2.length_eq
    simp at this
    omega

/-! ### Every such outcome happens -/

/-- Some schedule leads from `c` to `c'`. -/
inductive FSteps (s : Stm E T) (p : Nat) (ini : R) (f : R → T → R) (comb : R → R → R) : FSt s R → FSt s R → Prop where
  | refl (c) : FSteps s p ini f comb c c
  | head {c c1 c2} : FStep s p ini f comb c c1 → FSteps s p ini f comb c1 c2 → FSteps s p ini f comb c c2

section
variable {s : Stm E T} {p : Nat} {ini : R} {f : R → T → R} {comb : R → R → R}

theorem FSteps.trans {a b c : FSt s R} (h : FSteps s p ini f comb a b) (h' : FSteps s p ini f comb b c) : FSteps s p ini f comb a c := by
  induction h with
  | refl => exact h'
  | head h _ ih => exact .head h (ih h')

theorem FSteps.reach {l : s.L} {e : E} {a b : FSt s R} (h : FSteps s p ini f comb a b) (ha : FReach s p ini f comb l e a) :
    FReach s p ini f comb l e b := by
  induction h with
  | refl => exact ha
  | head h _ ih => exact ih (.step ha h)

/-- A goroutine can run to the point where it sends its result. -/
theorem run_worker {st : s.S} {xs : List T} (h : PureSeg s st xs) : ∀ (acc : R) (c : FSt s R) (pre post), c.ws = pre ++ .run st acc :: post →
    FSteps s p ini f comb c { c with ws := pre ++ .send (xs.foldl f acc) :: post } := by
  induction h with
  | @nil st st' h => exact fun acc c pre post hw => .head (.pullEnd c pre post st acc st' _ _ hw (h _ _)) (.refl _)
  | @cons st st' x xs h r ih =>
    intro acc c pre post hw
    refine .head (.pull c pre post st acc x st' _ _ hw (h _ _)) ?_
    exact ih (f acc x) { c with ws := pre ++ .run st' (f acc x) :: post } pre post rfl

/-- All segments can be handed out before anything else happens. -/
theorem spawn_all {g : s.G} {segs : List (List T)} (h : SegsOf s g segs) : ∀ (c : FSt s R), c.main = .seg g →
    ∃ ws' : List (FW s R), FSteps s p ini f comb c { c with main := .recv ini 0, ws := c.ws ++ ws' } ∧
      (∀ w ∈ ws', ∃ st, w = .run st ini ∧ Good s st) ∧
      (ws'.map (FW.owes f)).sum = ((segs.map (fun xs => xs.foldl f ini) : List R) : Multiset R) := by
  induction h with
  | @nil g h =>
    intro c hm
    obtain ⟨g', hg⟩ := h c.l c.e
    refine ⟨[], ?_, by simp, by simp⟩
    rw [List.append_nil]
    exact .head (.segEnd c g g' _ _ hm hg) (.refl _)
  | @cons g g' st xs segs h hs r ih =>
    intro c hm
    obtain ⟨ws', k1, k2, k3⟩ := ih { c with main := .seg g', ws := c.ws ++ [.run st ini] } rfl
    refine ⟨.run st ini :: ws', .head (.spawn c g st g' _ _ hm (h _ _)) ?_, ?_, ?_⟩
    · simpa using k1
    · rintro w (_ | ⟨_, hw⟩)
      · exact ⟨st, rfl, _, hs⟩
      · exact k2 w hw
    · simp [k3, FW.owes, rem_eq c.l c.e hs]

theorem mem_owes {r : R} {ws : List (FW s R)} (h : r ∈ (ws.map (FW.owes f)).sum) : ∃ w ∈ ws, r ∈ w.owes f := by
  induction ws with
  | nil => simp at h
  | cons w ws ih =>
    simp only [List.map_cons, List.sum_cons, Multiset.mem_add] at h
    rcases h with h | h
    · exact ⟨w, by simp, h⟩
    · obtain ⟨w', h1, h2⟩ := ih h; exact ⟨w', by simp [h1], h2⟩

/-- From the receiving phase on, any choice of goroutines may be the first to deliver. -/
theorem recv_all {l0 : s.L} {e0 : E} (rs : List R) : ∀ (lost : List R) (c : FSt s R) (acc : R) (k : Nat), c.main = .recv acc k → c.chan = [] → c.closed = false →
    (∀ w ∈ c.ws, w = .exit ∨ ∃ st a, w = .run st a ∧ Good s st) →
    (c.ws.map (FW.owes f)).sum = ((rs ++ lost : List R) : Multiset R) → k + rs.length = p →
    ∃ ws', FSteps s p ini f comb c { c with main := .done (rs.foldl comb acc), ws := ws', closed := true } ∧
      (∀ w ∈ ws', w = .exit ∨ ∃ st a, w = .run st a ∧ Good s st) ∧ (ws'.map (FW.owes f)).sum = ((lost : List R) : Multiset R) := by
  induction rs with
  | nil =>
    intro lost c acc k hm hc hcl hw hb hk
    exact ⟨c.ws, .head (.close c acc k hm (by simpa using hk)) (.refl _), hw, hb⟩
  | cons r rs ih =>
    intro lost c acc k hm hc hcl hw hb hk
    have hr : r ∈ (c.ws.map (FW.owes f)).sum := by rw [hb]; simp
    obtain ⟨w, hmem, hro⟩ := mem_owes hr
    obtain ⟨pre, post, hsp⟩ := mem_split hmem
    rcases hw w hmem with rfl | ⟨st, a, rfl, xs, hx⟩
    · simp [FW.owes] at hro
    have er : r = xs.foldl f a := by simpa [FW.owes, rem_eq l0 e0 hx] using hro
    have hb' : ((pre ++ FW.exit :: post).map (FW.owes f)).sum = ((rs ++ lost : List R) : Multiset R) := by
      rw [hsp] at hb
      have hb2 : r ::ₘ ((pre ++ FW.exit :: post).map (FW.owes f)).sum = r ::ₘ ((rs ++ lost : List R) : Multiset R) := by
        rw [show r ::ₘ ((rs ++ lost : List R) : Multiset R) = ((r :: rs ++ lost : List R) : Multiset R) from rfl, ← hb]
        simp only [List.map_append, List.map_cons, List.sum_append, List.sum_cons, FW.owes, rem_eq l0 e0 hx, ← er, ← Multiset.singleton_add]
        abel
      exact (Multiset.cons_inj_right r).1 hb2
    have hlen : k ≠ p := by simp at hk; omega
    obtain ⟨ws', j1, j2, j3⟩ := ih lost { c with main := .recv (comb acc r) (k + 1), ws := pre ++ .exit :: post, chan := [] } (comb acc r) (k + 1) rfl rfl hcl
      (by
        intro w hw'
        simp only [List.mem_append, List.mem_cons] at hw'
        rcases hw' with h | rfl | h
        · exact hw w (by rw [hsp]; simp [h])
        · exact .inl rfl
        · exact hw w (by rw [hsp]; simp [h])) hb' (by simp at hk; omega)
    refine ⟨ws', ?_, j2, j3⟩
    refine (run_worker hx a c pre post hsp).trans (.head (.send _ pre post _ rfl hcl (by simp [hc]; omega)) (.head (.recv _ acc k r [] hm hlen (by simp [hc, er])) ?_))
    have : ({ c with chan := [] } : FSt s R) = c := by rw [← hc]
    simp only [hc] at j1 ⊢
    exact j1

/-- Every outcome of `parFold_outcome` happens: for every choice of `p` of the segments and every order of them, some schedule
    returns the combination of their folds in that order; and if segments are left over, some schedule panics (a goroutine sends
    on the closed channel). -/
theorem parFold_outcome_reached (ini : R) (f : R → T → R) (comb : R → R → R) {segs : List (List T)} (hs : Splits s p segs) (l : s.L) (e : E)
    (rs lost : List R) (hlen : rs.length = p) (hperm : (rs ++ lost).Perm (segs.map (fun xs => xs.foldl f ini))) :
    (∃ c, FReach s p ini f comb l e c ∧ c.main = .done (rs.foldl comb ini)) ∧
    (lost ≠ [] → ∃ c, FReach s p ini f comb l e c ∧ c.main = .done (rs.foldl comb ini) ∧ c.panicked = true) := by
  obtain ⟨ws', h1, h2, h3⟩ := spawn_all (p := p) (ini := ini) (f := f) (comb := comb) hs (.init s R p l e) rfl
  obtain ⟨ws2, k1, k2, k3⟩ := recv_all (p := p) (ini := ini) (f := f) (comb := comb) (l0 := l) (e0 := e) rs lost
    { (FSt.init s R p l e) with main := .recv ini 0, ws := [] ++ ws' } ini 0 rfl rfl rfl
    (fun w hw => by obtain ⟨st, a, b⟩ := h2 w (by simpa using hw); exact .inr ⟨st, ini, a, b⟩)
    (by simp only [List.nil_append]; rw [h3]; exact (Multiset.coe_eq_coe.2 hperm).symm) (by simpa using hlen)
  have hr := (h1.trans k1).reach (l := l) (e := e) .init
  refine ⟨⟨_, hr, rfl⟩, fun hl => ?_⟩
  obtain ⟨r, lost, rfl⟩ := List.exists_cons_of_ne_nil hl
  obtain ⟨w, hmem, hro⟩ := mem_owes (r := r) (by rw [k3]; simp)
  obtain ⟨pre, post, hsp⟩ := mem_split hmem
  rcases k2 w hmem with rfl | ⟨st, a, rfl, xs, hx⟩
  · simp [FW.owes] at hro
  exact ⟨_, ((run_worker (p := p) (ini := ini) (f := f) (comb := comb) hx a _ pre post hsp).trans
    (.head (.sendPanic _ pre post _ rfl rfl) (.refl _))).reach hr, rfl, rfl⟩
end

/-- FoldWith over `s.Stream(p)` when p does not divide len(s) ≥ p ≥ 1: some schedule panics, and the value of some returning
    schedule ignores the last segment. -/
theorem parFold_slice_loses (m : Slice.Mem T) (s : Slice.Hdr) (hs : m.Ok s) (p : Nat) (hp : 1 ≤ p) (hl : p ≤ s.len) (hd : ¬ p ∣ s.len)
    (ini : R) (f : R → T → R) (comb : R → R → R) (e : E) :
    (∃ c, FReach (ofSlice (E := E) m s p) p ini f comb () e c ∧ c.panicked = true) ∧
    ∃ c, FReach (ofSlice (E := E) m s p) p ini f comb () e c ∧
      c.main = .done (((Slice.cuts (s.len / p) (m.view s)).take p).foldl (fun a xs => comb a (xs.foldl f ini)) ini) := by
  have h1 := ofSlice_cuts (E := E) m s hs p hp hl p
  obtain ⟨-, -, h3, h4⟩ := cuts_facts (m.view s) p hp (by simpa using hl)
  rw [show (m.view s).length = s.len by simp] at h3 h4
  generalize hsegs : Slice.cuts (s.len / p) (m.view s) = segs at *
  have hlt : p < segs.length := lt_of_le_of_ne h3 (fun he => hd (h4.1 he.symm))
  obtain ⟨k1, k2⟩ := parFold_outcome_reached ini f comb h1 () e ((segs.take p).map (fun xs => xs.foldl f ini))
    ((segs.drop p).map (fun xs => xs.foldl f ini)) (by simp; omega) (by rw [← List.map_append, List.take_append_drop])
  rw [List.foldl_map] at k1
  refine ⟨?_, k1⟩
  obtain ⟨c, a, -, b⟩ := k2 (by simp; omega)
  exact ⟨c, a, b⟩

theorem cuts_take_flatten {q : Nat} (hq : 0 < q) : ∀ (p : Nat) (xs : List T), ((Slice.cuts q xs).take p).flatten = xs.take (p * q)
  | 0, xs => by simp
  | p + 1, xs => by
    by_cases hx : xs = []
    · subst hx; rw [Slice.cuts_nil]; simp
    · rw [Slice.cuts_cons hq hx, List.take_succ_cons, List.flatten_cons, cuts_take_flatten hq p, Nat.succ_mul, Nat.add_comm (p * q) q, List.take_add]

/-- C41, how it fails: for a commutative monoid and p not dividing len(s) ≥ p ≥ 1, some schedule returns the fold over the first
    p·⌊len(s)/p⌋ elements only, and some schedule panics. -/
theorem parFold_monoid_loses (m : Slice.Mem T) (s : Slice.Hdr) (hs : m.Ok s) (p : Nat) (hp : 1 ≤ p) (hl : p ≤ s.len) (hd : ¬ p ∣ s.len)
    {ini : R} {f : R → T → R} {comb : R → R → R} (hc : ∀ a b, comb a b = comb b a) (ha : ∀ a b c, comb (comb a b) c = comb a (comb b c))
    (hi : ∀ a, comb ini a = a) (hf : ∀ a x, f a x = comb a (f ini x)) (e : E) :
    (∃ c, FReach (ofSlice (E := E) m s p) p ini f comb () e c ∧ c.panicked = true) ∧
    ∃ c, FReach (ofSlice (E := E) m s p) p ini f comb () e c ∧ c.main = .done (((m.view s).take (p * (s.len / p))).foldl f ini) := by
  obtain ⟨h1, c, h2, h3⟩ := parFold_slice_loses m s hs p hp hl hd ini f comb e
  refine ⟨h1, c, h2, ?_⟩
  rw [h3, ← cuts_take_flatten (Nat.div_pos hl (by omega)), ← foldl_comb_eq hc ha hi hf, List.foldl_map]

/-- [1, 2, 3] with p = 2: Sum may return 1 + 2. -/
example : mem123.Ok hdr123 ∧ 2 ≤ hdr123.len ∧ ¬ 2 ∣ hdr123.len ∧ ((mem123.view hdr123).take (2 * (hdr123.len / 2))).foldl (· + ·) 0 = 3 :=
  ⟨⟨by decide, by decide, by decide, by decide⟩, by decide, by decide, by decide +kernel⟩

/-- Every schedule ends, however many segments there are: with at most `p` segments the call returns or hangs for ever. -/
theorem parFold_stops {s : Stm E T} {p : Nat} (ini : R) (f : R → T → R) (comb : R → R → R) {segs : List (List T)} (hs : Splits s p segs)
    (hp : segs.length < p) (l : s.L) (e : E) :
    Inevitably (FStep s p ini f comb) (fun c => (∃ acc k, c.main = .recv acc k) ∧ ∀ c', ¬ FStep s p ini f comb c c') (FSt.init s R p l e) := by
  refine inevitably_of (FReach s p ini f comb l e) (FSt.work p) (fun _ _ h hst => .step h hst) (fun c h => ?_) (fun c c' h hst => ?_) _ .init
  · by_cases hst : ∃ c', FStep s p ini f comb c c'
    · exact .inr hst
    · left
      have hno : ∀ c', ¬ FStep s p ini f comb c c' := fun c' h => hst ⟨c', h⟩
      refine ⟨?_, hno⟩
      obtain ⟨rs, i⟩ := h.inv hs
      cases hm : c.main with
      | seg g =>
        rcases seg_ok (i.seg g hm).1 c.l c.e with ⟨st, g', hq⟩ | ⟨g', hq⟩
        · exact absurd (.spawn c g st g' _ _ hm hq) (hno _)
        · exact absurd (.segEnd c g g' _ _ hm hq) (hno _)
      | recv acc k => exact ⟨acc, k, rfl⟩
      | done v => exact absurd hm ((parFold_too_few ini f comb hs hp l e c h).2 v)
  · obtain ⟨rs, i⟩ := h.inv hs
    have hnp := (parFold_too_few ini f comb hs hp l e c' (.step h hst)).1
    unfold FSt.work
    cases hst with
    | spawn g st g' l' e' hm hq =>
      obtain ⟨_, _, h1, h2, h3⟩ := seg_some (i.seg g hm).1 hq
      rw [hm]; simp [FM.work, FW.work, h3]; omega
    | segEnd g g' l' e' hm hq => rw [hm]; simp [FM.work]; omega
    | pull pre post st acc v st' l' e' hw hq =>
      obtain ⟨_, _, h1, h2⟩ := pull_some (i.good st acc (by rw [hw]; simp)) hq
      rw [hw]; simp [FW.work, h2]
    | pullEnd pre post st acc st' l' e' hw hq => rw [hw]; simp [FW.work]
    | send pre post acc hw hc hl => rw [hw]; simp [FW.work]
    | sendPanic pre post acc hw hc => simp at hnp
    | recv acc k a rest hm hk hc =>
      have := (i.recv acc k hm).2.2
      rw [hm]; simp [FM.work]; omega
    | close acc k hm hk => rw [hm]; simp [FM.work]

end Gds.Stream
