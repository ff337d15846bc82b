import Verif.Stream.ParLemmas
import Mathlib.Algebra.Order.Group.Multiset
import Mathlib.Tactic.Abel

/-! C41 and C39: parallel FoldWith on every schedule. -/

namespace Gds.Stream

variable {E T R : Type}

/-- Result a goroutine still has to hand over. -/
noncomputable def FW.owes {s : Stm E T} (f : R → T → R) : FW s R → Multiset R
  | .run st acc => {(rem s st).foldl f acc}
  | .send a => {a}
  | .exit => 0

/-- Results of segments not handed out yet. -/
noncomputable def FM.owes {s : Stm E T} (ini : R) (f : R → T → R) : FM s R → Multiset R
  | .seg g => ((remG s g).map (fun xs => xs.foldl f ini) : List R)
  | _ => 0

/-- What holds in every reachable state; `rs` are the results received so far. -/
structure FInv (s : Stm E T) (p : Nat) (ini : R) (f : R → T → R) (comb : R → R → R) (segs : List (List T))
    (c : FSt s R) (rs : List R) : Prop where
  seg : ∀ g, c.main = .seg g → GoodG s g ∧ rs = []
  recv : ∀ acc k, c.main = .recv acc k → acc = rs.foldl comb ini ∧ k = rs.length ∧ k ≤ p
  done : ∀ acc, c.main = .done acc → acc = rs.foldl comb ini ∧ p = rs.length
  good : ∀ st acc, FW.run st acc ∈ c.ws → Good s st
  closed : c.closed = true → ∃ acc, c.main = .done acc
  panicked : c.panicked = true → p < segs.length
  balance : (c.ws.map (FW.owes f)).sum + (c.chan : Multiset R) + (rs : Multiset R) + c.main.owes ini f =
    (segs.map (fun xs => xs.foldl f ini) : List R)

theorem FInv.init {s : Stm E T} {p : Nat} (ini : R) (f : R → T → R) (comb : R → R → R) {segs : List (List T)}
    (h : Splits s p segs) (l : s.L) (e : E) : FInv s p ini f comb segs (.init s R p l e) [] where
  seg := by intro g hg; simp [FSt.init] at hg; subst hg; exact ⟨⟨_, h⟩, rfl⟩
  recv := by intro _ _ h; simp [FSt.init] at h
  done := by intro _ h; simp [FSt.init] at h
  good := by intro _ _ h; simp [FSt.init] at h
  closed := by simp [FSt.init]
  panicked := by simp [FSt.init]
  balance := by simp [FSt.init, FM.owes, remG_eq l e h]

theorem FInv.step {s : Stm E T} {p : Nat} {ini : R} {f : R → T → R} {comb : R → R → R} {segs : List (List T)}
    {c c' : FSt s R} {rs : List R} (i : FInv s p ini f comb segs c rs) (h : FStep s p ini f comb c c') :
    ∃ rs', FInv s p ini f comb segs c' rs' := by
  cases h with
  | spawn g st g' l' e' hm hs =>
    obtain ⟨hg, hr⟩ := i.seg g hm
    obtain ⟨_, _, h1, h2, h3⟩ := seg_some hg hs
    refine ⟨rs, ⟨?_, ?_, ?_, ?_, ?_, i.panicked, ?_⟩⟩
    · intro g2 hg2; simp at hg2; subst hg2; exact ⟨h2, hr⟩
    · intro _ _ h; simp at h
    · intro _ h; simp at h
    · intro st1 acc h
      simp only [List.mem_append, List.mem_singleton, FW.run.injEq] at h
      rcases h with h | ⟨rfl, rfl⟩
      · exact i.good _ _ h
      · exact h1
    · intro h; obtain ⟨acc, h'⟩ := i.closed h; rw [hm] at h'; simp at h'
    · have := i.balance
      rw [hm] at this
      simp only [FM.owes, h3, List.map_cons] at this
      rw [← this]
      simp only [FM.owes, FW.owes, ← Multiset.cons_coe, ← Multiset.singleton_add, List.map_append, List.sum_append,
        List.map_cons, List.map_nil, List.sum_cons, List.sum_nil]
      abel
  | segEnd g g' l' e' hm hs =>
    obtain ⟨hg, hr⟩ := i.seg g hm
    obtain ⟨_, _, h1⟩ := seg_none hg hs
    refine ⟨rs, ⟨?_, ?_, ?_, i.good, ?_, i.panicked, ?_⟩⟩
    · intro _ h; simp at h
    · intro acc k h
      simp only [FM.recv.injEq] at h
      obtain ⟨rfl, rfl⟩ := h
      subst hr; simp
    · intro _ h; simp at h
    · intro h; obtain ⟨acc, h'⟩ := i.closed h; rw [hm] at h'; simp at h'
    · have := i.balance
      rw [hm] at this
      simpa [FM.owes, h1] using this
  | pull pre post st acc v st' l' e' hw hs =>
    have hg : Good s st := i.good st acc (by rw [hw]; simp)
    obtain ⟨_, _, h1, h2⟩ := pull_some hg hs
    refine ⟨rs, ⟨i.seg, i.recv, i.done, ?_, i.closed, i.panicked, ?_⟩⟩
    · intro st2 acc2 h
      simp only [List.mem_append, List.mem_cons, FW.run.injEq] at h
      rcases h with h | ⟨rfl, rfl⟩ | h
      · exact i.good _ acc2 (by rw [hw]; simp [h])
      · exact h1
      · exact i.good _ acc2 (by rw [hw]; simp [h])
    · have := i.balance
      rw [hw] at this
      rw [← this]
      simp [FW.owes, h2]
  | pullEnd pre post st acc st' l' e' hw hs =>
    have hg : Good s st := i.good st acc (by rw [hw]; simp)
    obtain ⟨_, _, h2⟩ := pull_none hg hs
    refine ⟨rs, ⟨i.seg, i.recv, i.done, ?_, i.closed, i.panicked, ?_⟩⟩
    · intro st2 acc2 h
      simp only [List.mem_append, List.mem_cons] at h
      rcases h with h | h | h
      · exact i.good _ acc2 (by rw [hw]; simp [h])
      · simp at h
      · exact i.good _ acc2 (by rw [hw]; simp [h])
    · have := i.balance
      rw [hw] at this
      rw [← this]
      simp [FW.owes, h2]
  | send pre post acc hw hc hl =>
    refine ⟨rs, ⟨i.seg, i.recv, i.done, ?_, i.closed, i.panicked, ?_⟩⟩
    · intro st2 acc2 h
      simp only [List.mem_append, List.mem_cons] at h
      rcases h with h | h | h
      · exact i.good _ acc2 (by rw [hw]; simp [h])
      · simp at h
      · exact i.good _ acc2 (by rw [hw]; simp [h])
    · have := i.balance
      rw [hw] at this
      rw [← this]
      simp only [FW.owes, ← Multiset.coe_add, Multiset.coe_singleton, List.map_append, List.sum_append, List.map_cons,
        List.sum_cons]
      abel
  | sendPanic pre post acc hw hc =>
    refine ⟨rs, ⟨i.seg, i.recv, i.done, i.good, i.closed, ?_, i.balance⟩⟩
    intro _
    obtain ⟨a, ha⟩ := i.closed hc
    obtain ⟨_, hk⟩ := i.done a ha
    have := congrArg Multiset.card i.balance
    rw [hw, ha] at this
    simp [FW.owes, FM.owes] at this
    omega
  | recv acc k a rest hm hk hc =>
    obtain ⟨h1, h2, h3⟩ := i.recv acc k hm
    refine ⟨rs ++ [a], ⟨?_, ?_, ?_, i.good, ?_, i.panicked, ?_⟩⟩
    · intro _ h; simp at h
    · intro acc' k' h
      simp only [FM.recv.injEq] at h
      obtain ⟨rfl, rfl⟩ := h
      simp [h1, h2]; omega
    · intro _ h; simp at h
    · intro h; obtain ⟨acc, h'⟩ := i.closed h; rw [hm] at h'; simp at h'
    · have := i.balance
      rw [hc, hm] at this
      rw [← this]
      simp [FM.owes, ← Multiset.coe_add, ← Multiset.cons_coe, ← Multiset.singleton_add]
      abel
  | close acc k hm hk =>
    obtain ⟨h1, h2, h3⟩ := i.recv acc k hm
    refine ⟨rs, ⟨?_, ?_, ?_, i.good, ?_, i.panicked, ?_⟩⟩
    · intro _ h; simp at h
    · intro _ _ h; simp at h
    · intro acc' h
      simp only [FM.done.injEq] at h
      subst h
      exact ⟨h1, by omega⟩
    · intro _; exact ⟨acc, rfl⟩
    · have := i.balance
      rw [hm] at this
      rw [← this]
      simp [FM.owes]

theorem FReach.inv {s : Stm E T} {p : Nat} {ini : R} {f : R → T → R} {comb : R → R → R} {segs : List (List T)}
    (hs : Splits s p segs) {l : s.L} {e : E} {c : FSt s R} (h : FReach s p ini f comb l e c) :
    ∃ rs, FInv s p ini f comb segs c rs := by
  induction h with
  | init => exact ⟨[], FInv.init ini f comb hs l e⟩
  | step _ hst ih => obtain ⟨rs, i⟩ := ih; exact i.step hst

/-! ### Safety -/

/-- Parallel FoldWith over exactly `p` segments, on every schedule: no goroutine panics, and when the
    call returns, the returned value combines the folds of the segments in some order. -/
theorem parFold_result {s : Stm E T} {p : Nat} (ini : R) (f : R → T → R) (comb : R → R → R) {segs : List (List T)}
    (hs : Splits s p segs) (hp : segs.length = p) (l : s.L) (e : E) (c : FSt s R)
    (h : FReach s p ini f comb l e c) :
    c.panicked = false ∧
    ∀ v, c.main = .done v → ∃ rs : List R, rs.Perm (segs.map (fun xs => xs.foldl f ini)) ∧ v = rs.foldl comb ini := by
  obtain ⟨rs, i⟩ := h.inv hs
  refine ⟨?_, ?_⟩
  · cases hpn : c.panicked with
    | false => rfl
    | true => have := i.panicked hpn; omega
  · intro v hv
    obtain ⟨h1, h2⟩ := i.done v hv
    refine ⟨rs, ?_, h1⟩
    have hb := i.balance
    rw [hv] at hb
    have hcard := congrArg Multiset.card hb
    simp only [FM.owes, Multiset.card_add, Multiset.coe_card, List.length_map, Multiset.card_zero] at hcard
    have h0 : (c.ws.map (FW.owes f)).sum + (c.chan : Multiset R) = 0 := by
      rw [← Multiset.card_eq_zero, Multiset.card_add, Multiset.coe_card]; omega
    rw [h0] at hb
    simp [FM.owes] at hb
    exact hb

theorem foldl_comb_eq {op : R → R → R} (hc : ∀ a b, op a b = op b a) (ha : ∀ a b c, op (op a b) c = op a (op b c))
    {ini : R} (hi : ∀ a, op ini a = a) {f : R → T → R} (hf : ∀ a x, f a x = op a (f ini x))
    (segs : List (List T)) (a : R) :
    (segs.map (fun xs => xs.foldl f ini)).foldl op a = segs.flatten.foldl f a := by
  have hi' : ∀ a, op a ini = a := fun a => by rw [hc, hi]
  have key : ∀ (xs : List T) (a : R), xs.foldl f a = op a (xs.foldl f ini) := by
    intro xs
    induction xs with
    | nil => intro a; simp [hi']
    | cons x xs ih =>
      intro a
      simp only [List.foldl_cons]
      rw [ih (f a x), ih (f ini x), hf a x, ha]
  induction segs generalizing a with
  | nil => rfl
  | cons xs segs ih =>
    simp only [List.map_cons, List.foldl_cons, List.flatten_cons, List.foldl_append]
    rw [ih, ← key]

theorem foldl_perm {op : R → R → R} (hc : ∀ a b, op a b = op b a) (ha : ∀ a b c, op (op a b) c = op a (op b c))
    {xs ys : List R} (h : xs.Perm ys) (a : R) : xs.foldl op a = ys.foldl op a := by
  have : RightCommutative op := ⟨fun a b c => by rw [ha, hc b c, ← ha]⟩
  exact h.foldl_eq a

/-- C41, in terms of segments: with a commutative, associative combiner and its identity, the result
    is the sequential fold over all elements, on every schedule. -/
theorem parFold_monoid {s : Stm E T} {p : Nat} {ini : R} {f : R → T → R} {comb : R → R → R} {segs : List (List T)}
    (hs : Splits s p segs) (hp : segs.length = p)
    (hc : ∀ a b, comb a b = comb b a) (ha : ∀ a b c, comb (comb a b) c = comb a (comb b c))
    (hi : ∀ a, comb ini a = a) (hf : ∀ a x, f a x = comb a (f ini x))
    (l : s.L) (e : E) (c : FSt s R) (h : FReach s p ini f comb l e c) :
    c.panicked = false ∧ ∀ v, c.main = .done v → v = segs.flatten.foldl f ini := by
  obtain ⟨h1, h2⟩ := parFold_result ini f comb hs hp l e c h
  refine ⟨h1, fun v hv => ?_⟩
  obtain ⟨rs, hr, rfl⟩ := h2 v hv
  rw [foldl_perm hc ha hr, foldl_comb_eq hc ha hi hf]

/-! ### Progress and termination -/

/-- No schedule deadlocks: until the call has returned, some step is possible. -/
theorem parFold_progress {s : Stm E T} {p : Nat} {ini : R} {f : R → T → R} {comb : R → R → R} {segs : List (List T)}
    (hs : Splits s p segs) (hp : p ≤ segs.length) (l : s.L) (e : E) (c : FSt s R)
    (h : FReach s p ini f comb l e c) :
    (∃ v, c.main = .done v) ∨ ∃ c', FStep s p ini f comb c c' := by
  obtain ⟨rs, i⟩ := h.inv hs
  cases hm : c.main with
  | seg g =>
    right
    obtain ⟨hg, _⟩ := i.seg g hm
    rcases seg_ok hg c.l c.e with ⟨st, g', hq⟩ | ⟨g', hq⟩
    · exact ⟨_, .spawn c g st g' _ _ hm hq⟩
    · exact ⟨_, .segEnd c g g' _ _ hm hq⟩
  | done v => exact .inl ⟨v, rfl⟩
  | recv acc k =>
    right
    obtain ⟨h1, h2, h3⟩ := i.recv acc k hm
    by_cases hk : k = p
    · exact ⟨_, .close c acc k hm hk⟩
    · cases hch : c.chan with
      | cons a rest => exact ⟨_, .recv c acc k a rest hm hk hch⟩
      | nil =>
        have hcl : c.closed = false := by
          cases hcl : c.closed with
          | false => rfl
          | true => obtain ⟨v, hv⟩ := i.closed hcl; rw [hm] at hv; simp at hv
        have hcard := congrArg Multiset.card i.balance
        rw [hm, hch] at hcard
        simp only [FM.owes, Multiset.card_add, Multiset.coe_card, List.length_map, Multiset.card_zero, List.length_nil] at hcard
        have hex : ∃ w ∈ c.ws, w.owes f ≠ 0 := by
          by_contra hno
          push Not at hno
          have : (c.ws.map (FW.owes f)).sum = 0 := by
            clear hcard
            generalize c.ws = ws at hno
            induction ws with
            | nil => rfl
            | cons w ws ih =>
              rw [List.map_cons, List.sum_cons, hno w (by simp), ih (fun w hw => hno w (by simp [hw]))]; rfl
          rw [this] at hcard
          simp at hcard
          omega
        obtain ⟨w, hw, hne⟩ := hex
        obtain ⟨pre, post, hws⟩ := mem_split hw
        cases w with
        | exit => exact (hne rfl).elim
        | send a => exact ⟨_, .send c pre post a hws hcl (by rw [hch]; simp; omega)⟩
        | run st acc =>
          rcases pull_ok (i.good st acc hw) c.l c.e with ⟨v, st', hq⟩ | ⟨st', hq⟩
          · exact ⟨_, .pull c pre post st acc v st' _ _ hws hq⟩
          · exact ⟨_, .pullEnd c pre post st acc st' _ _ hws hq⟩

/-- Work left for a goroutine. -/
noncomputable def FW.work {s : Stm E T} : FW s R → Nat
  | .run st _ => (rem s st).length + 2
  | .send _ => 1
  | .exit => 0

/-- Work left for the caller. -/
noncomputable def FM.work {s : Stm E T} (p : Nat) : FM s R → Nat
  | .seg g => ((remG s g).map (fun xs => xs.length + 3)).sum + p + 2
  | .recv _ k => p - k + 1
  | .done _ => 0

/-- Bound on the number of steps still possible. -/
noncomputable def FSt.work {s : Stm E T} (p : Nat) (c : FSt s R) : Nat := (c.ws.map FW.work).sum + c.main.work p

/-- Every schedule is finite: each step uses up work. -/
theorem parFold_terminates {s : Stm E T} {p : Nat} {ini : R} {f : R → T → R} {comb : R → R → R} {segs : List (List T)}
    (hs : Splits s p segs) (hp : segs.length = p) (l : s.L) (e : E) (c c' : FSt s R)
    (h : FReach s p ini f comb l e c) (hst : FStep s p ini f comb c c') : c'.work p < c.work p := by
  obtain ⟨rs, i⟩ := h.inv hs
  have hnp := (parFold_result ini f comb hs hp l e c' (.step h hst)).1
  unfold FSt.work
  cases hst with
  | spawn g st g' l' e' hm hq =>
    obtain ⟨_, _, h1, h2, h3⟩ := seg_some (i.seg g hm).1 hq
    rw [hm]; simp [FM.work, FW.work, h3]; omega
  | segEnd g g' l' e' hm hq => rw [hm]; simp [FM.work]; omega
  | pull pre post st acc v st' l' e' hw hq =>
    obtain ⟨_, _, h1, h2⟩ := pull_some (i.good st acc (by rw [hw]; simp)) hq
    rw [hw]; simp [FW.work, h2]
  | pullEnd pre post st acc st' l' e' hw hq =>
    rw [hw]; simp [FW.work]
  | send pre post acc hw hc hl => rw [hw]; simp [FW.work]
  | sendPanic pre post acc hw hc => simp at hnp
  | recv acc k a rest hm hk hc =>
    have := (i.recv acc k hm).2.2
    rw [hm]; simp [FM.work]; omega
  | close acc k hm hk => rw [hm]; simp [FM.work]

/-! ### C41 on slices -/

/-- C41 where it holds: FoldWith over `s.Stream(p)` with p dividing len(s) > 0, for a commutative
    monoid, returns the sequential fold on every schedule and never panics; every schedule returns. -/
theorem parFold_slice_partial (m : Slice.Mem T) (s : Slice.Hdr) (hs : m.Ok s) (p : Nat) (hp : 1 ≤ p) (hl : 0 < s.len)
    (hd : p ∣ s.len) {ini : R} {f : R → T → R} {comb : R → R → R}
    (hc : ∀ a b, comb a b = comb b a) (ha : ∀ a b c, comb (comb a b) c = comb a (comb b c))
    (hi : ∀ a, comb ini a = a) (hf : ∀ a x, f a x = comb a (f ini x)) (e : E)
    (c : FSt (ofSlice (E := E) m s p) R) (h : FReach (ofSlice m s p) p ini f comb () e c) :
    c.panicked = false ∧ (∀ v, c.main = .done v → v = (m.view s).foldl f ini) ∧
    ((∃ v, c.main = .done v) ∨ ∃ c', FStep (ofSlice m s p) p ini f comb c c') ∧
    ∀ c', FStep (ofSlice m s p) p ini f comb c c' → c'.work p < c.work p := by
  obtain ⟨segs, h1, h2, _, h3, h4⟩ := ofSlice_splits (E := E) m s hs p hp (Nat.le_of_dvd hl hd) p
  obtain ⟨g1, g2⟩ := parFold_monoid h1 (h4.2 hd) hc ha hi hf () e c h
  rw [h2] at g2
  exact ⟨g1, g2, parFold_progress h1 h3 () e c h, fun c' hst => parFold_terminates h1 (h4.2 hd) () e c c' h hst⟩

/-- The same through Map and Filter. -/
theorem parFold_map_filter_partial {U : Type} (m : Slice.Mem T) (s : Slice.Hdr) (hs : m.Ok s) (p : Nat) (hp : 1 ≤ p)
    (hl : 0 < s.len) (hd : p ∣ s.len) (g : T → U) (q : T → Bool) {ini : R} {f : R → U → R} {comb : R → R → R}
    (hc : ∀ a b, comb a b = comb b a) (ha : ∀ a b c, comb (comb a b) c = comb a (comb b c))
    (hi : ∀ a, comb ini a = a) (hf : ∀ a x, f a x = comb a (f ini x)) (e : E)
    (c : FSt (map (filter (ofSlice (E := E) m s p) q) g) R)
    (h : FReach (map (filter (ofSlice m s p) q) g) p ini f comb () e c) :
    c.panicked = false ∧ ∀ v, c.main = .done v → v = (((m.view s).filter q).map g).foldl f ini := by
  obtain ⟨segs, h1, h2, _, h3, h4⟩ := ofSlice_splits (E := E) m s hs p hp (Nat.le_of_dvd hl hd) p
  have h5 := map_splits g (filter_splits q h1)
  obtain ⟨g1, g2⟩ := parFold_monoid h5 (by simpa using h4.2 hd) hc ha hi hf () e c h
  refine ⟨g1, fun v hv => ?_⟩
  rw [g2 v hv, ← h2]
  congr 1
  rw [← List.map_flatten, ← List.filter_flatten]

/-! ### C39, parallel -/

/-- What `Max`'s and `Min`'s callbacks do: they return one of their arguments, the better one. -/
theorem parMax (s : Stm E Int) {p : Nat} {segs : List (List Int)} (hs : Splits s p segs) (hp : segs.length = p)
    (x0 : Int) (hx : x0 ∈ segs.flatten) (l : s.L) (e : E)
    (c : FSt s Int)
    (h : FReach s p x0 (fun a b => if a > b then a else b) (fun a b => if a > b then a else b) l e c) :
    c.panicked = false ∧ ∀ v, c.main = .done v → v ∈ segs.flatten ∧ ∀ x ∈ segs.flatten, x ≤ v := by
  obtain ⟨h1, h2⟩ := parFold_result x0 _ _ hs hp l e c h
  refine ⟨h1, fun v hv => ?_⟩
  obtain ⟨rs, hr, rfl⟩ := h2 v hv
  have hfm : ∀ (xs : List Int) (a : Int),
      let m := xs.foldl (fun a b => if a > b then a else b) a
      (m = a ∨ m ∈ xs) ∧ a ≤ m ∧ ∀ x ∈ xs, x ≤ m := by
    intro xs
    induction xs with
    | nil => simp
    | cons x xs ih =>
      intro a
      simp only [List.foldl_cons]
      obtain ⟨h1, h2, h3⟩ := ih (if a > x then a else x)
      generalize xs.foldl (fun a b => if a > b then a else b) (if a > x then a else x) = m at *
      split at h1 <;> simp_all <;> grind
  obtain ⟨k1, k2, k3⟩ := hfm rs x0
  constructor
  · rcases k1 with k1 | k1
    · rw [k1]; exact hx
    · rw [hr.mem_iff, List.mem_map] at k1
      obtain ⟨xs, hxs, he⟩ := k1
      obtain ⟨j1, _, _⟩ := hfm xs x0
      rw [← he]
      rcases j1 with j1 | j1
      · simp only [j1]; exact hx
      · exact List.mem_flatten.2 ⟨xs, hxs, j1⟩
  · intro x hxm
    obtain ⟨xs, hxs, hx2⟩ := List.mem_flatten.1 hxm
    obtain ⟨_, _, j3⟩ := hfm xs x0
    have : xs.foldl (fun a b => if a > b then a else b) x0 ∈ rs := by
      rw [hr.mem_iff]; exact List.mem_map_of_mem (f := fun xs => xs.foldl (fun a b => if a > b then a else b) x0) hxs
    exact le_trans (j3 x hx2) (k3 _ this)

theorem parMin (s : Stm E Int) {p : Nat} {segs : List (List Int)} (hs : Splits s p segs) (hp : segs.length = p)
    (x0 : Int) (hx : x0 ∈ segs.flatten) (l : s.L) (e : E)
    (c : FSt s Int)
    (h : FReach s p x0 (fun a b => if a < b then a else b) (fun a b => if a < b then a else b) l e c) :
    c.panicked = false ∧ ∀ v, c.main = .done v → v ∈ segs.flatten ∧ ∀ x ∈ segs.flatten, v ≤ x := by
  obtain ⟨h1, h2⟩ := parFold_result x0 _ _ hs hp l e c h
  refine ⟨h1, fun v hv => ?_⟩
  obtain ⟨rs, hr, rfl⟩ := h2 v hv
  have hfm : ∀ (xs : List Int) (a : Int),
      let m := xs.foldl (fun a b => if a < b then a else b) a
      (m = a ∨ m ∈ xs) ∧ m ≤ a ∧ ∀ x ∈ xs, m ≤ x := by
    intro xs
    induction xs with
    | nil => simp
    | cons x xs ih =>
      intro a
      simp only [List.foldl_cons]
      obtain ⟨h1, h2, h3⟩ := ih (if a < x then a else x)
      generalize xs.foldl (fun a b => if a < b then a else b) (if a < x then a else x) = m at *
      split at h1 <;> simp_all <;> grind
  obtain ⟨k1, k2, k3⟩ := hfm rs x0
  constructor
  · rcases k1 with k1 | k1
    · rw [k1]; exact hx
    · rw [hr.mem_iff, List.mem_map] at k1
      obtain ⟨xs, hxs, he⟩ := k1
      obtain ⟨j1, _, _⟩ := hfm xs x0
      rw [← he]
      rcases j1 with j1 | j1
      · simp only [j1]; exact hx
      · exact List.mem_flatten.2 ⟨xs, hxs, j1⟩
  · intro x hxm
    obtain ⟨xs, hxs, hx2⟩ := List.mem_flatten.1 hxm
    obtain ⟨_, _, j3⟩ := hfm xs x0
    have : xs.foldl (fun a b => if a < b then a else b) x0 ∈ rs := by
      rw [hr.mem_iff]; exact List.mem_map_of_mem (f := fun xs => xs.foldl (fun a b => if a < b then a else b) x0) hxs
    exact le_trans (k3 _ this) (j3 x hx2)

/-- First on a slice stream with p ≤ len: the first element. -/
theorem first_slice (z : T) (m : Slice.Mem T) (s : Slice.Hdr) (hs : m.Ok s) (p : Nat) (hp : 1 ≤ p) (hl : p ≤ s.len) (e : E) :
    ∃ x, (m.view s).head? = some x ∧ first z (ofSlice (E := E) m s p) () e = .ok ((x, true), (), e) := by
  obtain ⟨segs, h1, h2, h3, h4, _⟩ := ofSlice_splits (E := E) m s hs p hp hl p
  unfold Splits at h1
  have hpar : (ofSlice (E := E) m s p).par = p := rfl
  unfold first
  rw [hpar]
  cases h1 with
  | nil h => simp at h4; omega
  | @cons _ g' st xs segs h hsg r =>
    cases hsg with
    | nil h' => exact (h3 [] (by simp) rfl).elim
    | @cons _ st' x xs hp' r' =>
      refine ⟨x, by rw [← h2]; simp, ?_⟩
      simp [h () e, hp' () e]

/-- C39: Max over `s.Stream(p)` with p dividing len(s) > 0, on every schedule: First gives an element
    x0 and the parallel fold started from it returns a largest element. -/
theorem max_parallel (m : Slice.Mem Int) (s : Slice.Hdr) (hs : m.Ok s) (p : Nat) (hp : 1 ≤ p) (hl : 0 < s.len)
    (hd : p ∣ s.len) (e : E) :
    ∃ x0, first 0 (ofSlice (E := E) m s p) () e = .ok ((x0, true), (), e) ∧
    ∀ c, FReach (ofSlice (E := E) m s p) p x0 (fun a b => if a > b then a else b) (fun a b => if a > b then a else b) () e c →
      c.panicked = false ∧ ∀ v, c.main = .done v → v ∈ m.view s ∧ ∀ x ∈ m.view s, x ≤ v := by
  have hle := Nat.le_of_dvd hl hd
  obtain ⟨x0, h0, h1⟩ := first_slice (E := E) 0 m s hs p hp hle e
  refine ⟨x0, h1, fun c hc => ?_⟩
  obtain ⟨segs, g1, g2, _, g3, g4⟩ := ofSlice_splits (E := E) m s hs p hp hle p
  have := parMax _ g1 (g4.2 hd) x0 (by rw [g2]; exact List.mem_of_mem_head? (by simp [h0])) () e c hc
  rwa [g2] at this

/-- C39: Min, likewise. -/
theorem min_parallel (m : Slice.Mem Int) (s : Slice.Hdr) (hs : m.Ok s) (p : Nat) (hp : 1 ≤ p) (hl : 0 < s.len)
    (hd : p ∣ s.len) (e : E) :
    ∃ x0, first 0 (ofSlice (E := E) m s p) () e = .ok ((x0, true), (), e) ∧
    ∀ c, FReach (ofSlice (E := E) m s p) p x0 (fun a b => if a < b then a else b) (fun a b => if a < b then a else b) () e c →
      c.panicked = false ∧ ∀ v, c.main = .done v → v ∈ m.view s ∧ ∀ x ∈ m.view s, v ≤ x := by
  have hle := Nat.le_of_dvd hl hd
  obtain ⟨x0, h0, h1⟩ := first_slice (E := E) 0 m s hs p hp hle e
  refine ⟨x0, h1, fun c hc => ?_⟩
  obtain ⟨segs, g1, g2, _, g3, g4⟩ := ofSlice_splits (E := E) m s hs p hp hle p
  have := parMin _ g1 (g4.2 hd) x0 (by rw [g2]; exact List.mem_of_mem_head? (by simp [h0])) () e c hc
  rwa [g2] at this

/-! ### C41 as stated is false -/

/-- Memory holding the array 1, 2, 3. -/
def mem123 : Slice.Mem Int := { cell := fun _ k => k + 1, size := fun _ => 3, next := 1 }

/-- The slice [1, 2, 3]. -/
def hdr123 : Slice.Hdr := { arr := 0, off := 0, len := 3, cap := 3 }

/-- With p = 2 and three elements there are three segments: only two of the three results are
    combined, and the third goroutine panics by sending on the closed channel. -/
theorem parFold_late_result :
    ∃ c, FReach (ofSlice (E := Unit) mem123 hdr123 2) 2 0 (· + ·) (· + ·) () () c ∧
      c.main = .done 3 ∧ c.panicked = true := by
  let S := ofSlice (E := Unit) mem123 hdr123 2
  have r0 : FReach S 2 0 (· + ·) (· + ·) () () (.init S Int 2 () ()) := .init
  have r1 := r0.step (.spawn _ ((2, 0) : Int × Int) (({ arr := 0, off := 0, len := 1, cap := 3 }, 0) : Slice.Hdr × Nat) ((2, 1) : Int × Int) () () rfl rfl)
  have r2 := r1.step (.spawn _ ((2, 1) : Int × Int) (({ arr := 0, off := 1, len := 1, cap := 2 }, 0) : Slice.Hdr × Nat) ((2, 2) : Int × Int) () () rfl rfl)
  have r3 := r2.step (.spawn _ ((2, 2) : Int × Int) (({ arr := 0, off := 2, len := 1, cap := 1 }, 0) : Slice.Hdr × Nat) ((2, 3) : Int × Int) () () rfl rfl)
  have r4 := r3.step (.segEnd _ ((2, 3) : Int × Int) ((2, 3) : Int × Int) () () rfl rfl)
  have r5 := r4.step (.pull _ [] _ _ _ 1 (({ arr := 0, off := 0, len := 1, cap := 3 }, 1) : Slice.Hdr × Nat) () () rfl rfl)
  have r6 := r5.step (.pull _ [_] _ _ _ 2 (({ arr := 0, off := 1, len := 1, cap := 2 }, 1) : Slice.Hdr × Nat) () () rfl rfl)
  have r7 := r6.step (.pull _ [_, _] _ _ _ 3 (({ arr := 0, off := 2, len := 1, cap := 1 }, 1) : Slice.Hdr × Nat) () () rfl rfl)
  have r8 := r7.step (.pullEnd _ [] _ _ _ (({ arr := 0, off := 0, len := 1, cap := 3 }, 1) : Slice.Hdr × Nat) () () rfl rfl)
  have r9 := r8.step (.pullEnd _ [_] _ _ _ (({ arr := 0, off := 1, len := 1, cap := 2 }, 1) : Slice.Hdr × Nat) () () rfl rfl)
  have r10 := r9.step (.pullEnd _ [_, _] _ _ _ (({ arr := 0, off := 2, len := 1, cap := 1 }, 1) : Slice.Hdr × Nat) () () rfl rfl)
  have r11 := r10.step (.send _ [] _ _ rfl rfl (by decide))
  have r12 := r11.step (.send _ [_] _ _ rfl rfl (by decide))
  have r13 := r12.step (.recv _ _ _ _ _ rfl (by decide) rfl)
  have r14 := r13.step (.recv _ _ _ _ _ rfl (by decide) rfl)
  have r15 := r14.step (.close _ _ _ rfl rfl)
  have r16 := r15.step (.sendPanic _ [_, _] _ _ rfl rfl)
  exact ⟨_, r16, rfl, rfl⟩

/-- C41 without the divisibility condition is false. -/
theorem parFold_refuted :
    ¬ ∀ (m : Slice.Mem Int) (s : Slice.Hdr), m.Ok s → ∀ (p : Nat), 1 ≤ p → p ≤ s.len →
      ∀ c, FReach (ofSlice (E := Unit) m s p) p 0 (· + ·) (· + ·) () () c →
        c.panicked = false ∧ ∀ v, c.main = .done v → v = (m.view s).foldl (· + ·) 0 := by
  intro h
  obtain ⟨c, h1, h2, h3⟩ := parFold_late_result
  have := (h mem123 hdr123 ⟨by decide, by decide, by decide, by decide⟩ 2 (by decide) (by decide) c h1).1
  rw [h3] at this
  simp at this

/-- The hypotheses of C41 are met: [1,2,3] with p = 3 and addition. -/
example : mem123.Ok hdr123 ∧ 0 < hdr123.len ∧ 3 ∣ hdr123.len ∧ ∀ a x : Int, a + x = a + (0 + x) :=
  ⟨⟨by decide, by decide, by decide, by decide⟩, by decide, by decide, by intro a x; omega⟩

end Gds.Stream
