import Verif.Stream.ParLemmas
import Verif.Stream.ParFold

/-! C42: parallel Collect on every schedule. -/

namespace Gds.Stream

variable {E T R : Type}

/-- Elements a goroutine still has to deliver. -/
noncomputable def CW.owes {s : Stm E T} : CW s → Multiset T
  | .run st => (rem s st : List T)
  | .call v st => v ::ₘ (rem s st : List T)
  | .exit => 0

/-- Elements of segments not handed out yet. -/
noncomputable def CM.owes {s : Stm E T} : CM s → Multiset T
  | .seg g => ((remG s g).flatten : List T)
  | _ => 0

/-- The goroutine has not called wg.Done() yet. -/
def CW.live {s : Stm E T} : CW s → Nat
  | .exit => 0
  | _ => 1

/-- Invariant; `calls` are the arguments of the consumer calls so far. -/
structure CInv (s : Stm E T) (c : T → E → E) (segs : List (List T)) (e0 : E) (a : CSt s) (calls : List T) : Prop where
  seg : ∀ g, a.main = .seg g → GoodG s g
  good : ∀ w ∈ a.ws, (∀ st, w = .run st → Good s st) ∧ (∀ v st, w = .call v st → Good s st)
  env : a.e = calls.foldl (fun e x => c x e) e0
  wg : a.wg = (a.ws.map CW.live).sum
  done : a.main = .done → a.wg = 0
  balance : (a.ws.map CW.owes).sum + (calls : Multiset T) + a.main.owes = (segs.flatten : List T)

theorem CInv.init {s : Stm E T} {p : Nat} (c : T → E → E) {segs : List (List T)} (h : Splits s p segs) (l : s.L) (e : E) :
    CInv s c segs e (.init s p l e) [] where
  seg := by intro g hg; simp [CSt.init] at hg; subst hg; exact ⟨_, h⟩
  good := by intro _ h; simp [CSt.init] at h
  env := rfl
  wg := rfl
  done := by simp [CSt.init]
  balance := by simp [CSt.init, CM.owes, remG_eq l e h]

theorem CInv.step {s : Stm E T} {c : T → E → E} {segs : List (List T)} {e0 : E} {a b : CSt s} {calls : List T}
    (i : CInv s c segs e0 a calls) (h : CStep s c a b) : ∃ calls', CInv s c segs e0 b calls' := by
  cases h with
  | spawn g st g' l' e' hm hs =>
    obtain ⟨rfl, rfl, h1, h2, h3⟩ := seg_some (i.seg g hm) hs
    refine ⟨calls, ⟨?_, ?_, i.env, ?_, ?_, ?_⟩⟩
    · intro g2 hg2; simp at hg2; subst hg2; exact h2
    · intro w hw
      simp only [List.mem_append, List.mem_singleton] at hw
      rcases hw with hw | rfl
      · exact i.good w hw
      · exact ⟨fun st' h => by simp at h; subst h; exact h1, fun v st' h => by simp at h⟩
    · simp [CW.live, i.wg]
    · intro h; simp at h
    · have := i.balance
      rw [hm] at this
      simp only [CM.owes, h3, List.flatten_cons] at this
      rw [← this]
      simp only [CM.owes, CW.owes, ← Multiset.coe_add, List.map_append, List.sum_append, List.map_cons, List.map_nil,
        List.sum_cons, List.sum_nil]
      abel
  | segEnd g g' l' e' hm hs =>
    obtain ⟨rfl, rfl, h1⟩ := seg_none (i.seg g hm) hs
    refine ⟨calls, ⟨?_, i.good, i.env, i.wg, ?_, ?_⟩⟩
    · intro _ h; simp at h
    · intro h; simp at h
    · have := i.balance
      rw [hm] at this
      simpa [CM.owes, h1] using this
  | pull pre post st v st' l' e' hw hs =>
    have hg : Good s st := (i.good (.run st) (by rw [hw]; simp)).1 st rfl
    obtain ⟨rfl, rfl, h1, h2⟩ := pull_some hg hs
    refine ⟨calls, ⟨i.seg, ?_, i.env, ?_, i.done, ?_⟩⟩
    · intro w hw'
      simp only [List.mem_append, List.mem_cons] at hw'
      rcases hw' with hw' | rfl | hw'
      · exact i.good w (by rw [hw]; simp [hw'])
      · exact ⟨fun st' h => by simp at h, fun v st' h => by simp at h; obtain ⟨rfl, rfl⟩ := h; exact h1⟩
      · exact i.good w (by rw [hw]; simp [hw'])
    · have := i.wg; rw [hw] at this; simpa [CW.live] using this
    · have := i.balance
      rw [hw] at this
      rw [← this]
      simp [CW.owes, h2]
  | call pre post v st hw =>
    refine ⟨calls ++ [v], ⟨i.seg, ?_, ?_, ?_, i.done, ?_⟩⟩
    · intro w hw'
      simp only [List.mem_append, List.mem_cons] at hw'
      rcases hw' with hw' | rfl | hw'
      · exact i.good w (by rw [hw]; simp [hw'])
      · refine ⟨fun st' h => ?_, fun v st' h => by simp at h⟩
        simp at h; subst h
        exact (i.good (.call v st) (by rw [hw]; simp)).2 v st rfl
      · exact i.good w (by rw [hw]; simp [hw'])
    · simp [i.env]
    · have := i.wg; rw [hw] at this; simpa [CW.live] using this
    · have := i.balance
      rw [hw] at this
      rw [← this]
      simp only [CW.owes, ← Multiset.coe_add, Multiset.coe_singleton, List.map_append, List.sum_append, List.map_cons,
        List.sum_cons, ← Multiset.singleton_add]
      abel
  | pullEnd pre post st st' l' e' hw hs =>
    have hg : Good s st := (i.good (.run st) (by rw [hw]; simp)).1 st rfl
    obtain ⟨rfl, rfl, h2⟩ := pull_none hg hs
    have hwg := i.wg
    rw [hw] at hwg
    simp [CW.live] at hwg
    refine ⟨calls, ⟨i.seg, ?_, i.env, ?_, ?_, ?_⟩⟩
    · intro w hw'
      simp only [List.mem_append, List.mem_cons] at hw'
      rcases hw' with hw' | rfl | hw'
      · exact i.good w (by rw [hw]; simp [hw'])
      · exact ⟨fun st' h => by simp at h, fun v st' h => by simp at h⟩
      · exact i.good w (by rw [hw]; simp [hw'])
    · simp [CW.live]; omega
    · intro h; have := i.done h; simp; omega
    · have := i.balance
      rw [hw] at this
      rw [← this]
      simp [CW.owes, h2]
  | waited hm hz =>
    refine ⟨calls, ⟨?_, i.good, i.env, i.wg, fun _ => hz, ?_⟩⟩
    · intro g h; simp at h
    · have := i.balance
      rw [hm] at this
      rw [← this]
      simp [CM.owes]

theorem CReach.inv {s : Stm E T} {p : Nat} {c : T → E → E} {segs : List (List T)} (hs : Splits s p segs) {l : s.L} {e : E}
    {a : CSt s} (h : CReach s p c l e a) : ∃ calls, CInv s c segs e a calls := by
  induction h with
  | init => exact ⟨[], CInv.init c hs l e⟩
  | step _ hst ih => obtain ⟨_, i⟩ := ih; exact i.step hst

theorem live_zero {s : Stm E T} {ws : List (CW s)} (h : (ws.map CW.live).sum = 0) : ∀ w ∈ ws, w = .exit := by
  induction ws with
  | nil => simp
  | cons w ws ih =>
    simp only [List.map_cons, List.sum_cons] at h
    intro x hx
    simp only [List.mem_cons] at hx
    rcases hx with rfl | hx
    · cases x with
      | exit => rfl
      | run => simp [CW.live] at h
      | call => simp [CW.live] at h
    · exact ih (by omega) x hx

/-- Parallel Collect, on every schedule: the consumer's calls so far are a sub-multiset of the
    elements; when Collect has returned they are exactly the elements, each once, and nothing runs
    any more. -/
theorem parCollect_result {s : Stm E T} {p : Nat} (c : T → E → E) {segs : List (List T)} (hs : Splits s p segs)
    (l : s.L) (e : E) (a : CSt s) (h : CReach s p c l e a) :
    ∃ calls : List T, a.e = calls.foldl (fun e x => c x e) e ∧ (∃ rest, (calls ++ rest).Perm segs.flatten) ∧
      (a.main = .done → calls.Perm segs.flatten ∧ ∀ b, ¬ CStep s c a b) := by
  obtain ⟨calls, i⟩ := h.inv hs
  refine ⟨calls, i.env, ?_, ?_⟩
  · have hb := i.balance
    obtain ⟨r, hr⟩ := Quot.exists_rep ((a.ws.map CW.owes).sum + a.main.owes)
    refine ⟨r, ?_⟩
    have hr' : (r : Multiset T) = (a.ws.map CW.owes).sum + a.main.owes := hr
    have : ((calls ++ r : List T) : Multiset T) = (segs.flatten : List T) := by
      rw [← Multiset.coe_add, hr', ← hb]; abel
    exact Multiset.coe_eq_coe.1 this
  · intro hd
    have hz := i.done hd
    have hall := live_zero (i.wg.symm.trans hz)
    constructor
    · have hb := i.balance
      have h0 : (a.ws.map CW.owes).sum = 0 := by
        clear hb
        generalize a.ws = ws at hall
        induction ws with
        | nil => rfl
        | cons w ws ih =>
          rw [List.map_cons, List.sum_cons, hall w (by simp), ih (fun w hw => hall w (by simp [hw]))]; rfl
      rw [h0, hd] at hb
      simp [CM.owes] at hb
      exact hb
    · intro b hst
      cases hst with
      | spawn g st g' l' e' hm => rw [hd] at hm; simp at hm
      | segEnd g g' l' e' hm => rw [hd] at hm; simp at hm
      | pull pre post st v st' l' e' hw =>
        have := hall (.run st) (by rw [hw]; simp); simp at this
      | call pre post v st hw =>
        have := hall (.call v st) (by rw [hw]; simp); simp at this
      | pullEnd pre post st st' l' e' hw =>
        have := hall (.run st) (by rw [hw]; simp); simp at this
      | waited hm => rw [hd] at hm; simp at hm

/-- No schedule deadlocks. -/
theorem parCollect_progress {s : Stm E T} {p : Nat} {c : T → E → E} {segs : List (List T)} (hs : Splits s p segs)
    (l : s.L) (e : E) (a : CSt s) (h : CReach s p c l e a) : a.main = .done ∨ ∃ b, CStep s c a b := by
  obtain ⟨calls, i⟩ := h.inv hs
  cases hm : a.main with
  | seg g =>
    right
    rcases seg_ok (i.seg g hm) a.l a.e with ⟨st, g', hq⟩ | ⟨g', hq⟩
    · exact ⟨_, .spawn a g st g' _ _ hm hq⟩
    · exact ⟨_, .segEnd a g g' _ _ hm hq⟩
  | done => exact .inl rfl
  | wait =>
    right
    by_cases hz : a.wg = 0
    · exact ⟨_, .waited a hm hz⟩
    · have hex : ∃ w ∈ a.ws, w ≠ .exit := by
        by_contra hno
        push Not at hno
        apply hz
        rw [i.wg]
        clear i
        generalize a.ws = ws at hno
        induction ws with
        | nil => rfl
        | cons w ws ih =>
          rw [List.map_cons, List.sum_cons, hno w (by simp), ih (fun w hw => hno w (by simp [hw]))]; rfl
      obtain ⟨w, hw, hne⟩ := hex
      obtain ⟨pre, post, hws⟩ := mem_split hw
      cases w with
      | exit => exact (hne rfl).elim
      | call v st => exact ⟨_, .call a pre post v st hws⟩
      | run st =>
        rcases pull_ok ((i.good _ hw).1 st rfl) a.l a.e with ⟨v, st', hq⟩ | ⟨st', hq⟩
        · exact ⟨_, .pull a pre post st v st' _ _ hws hq⟩
        · exact ⟨_, .pullEnd a pre post st st' _ _ hws hq⟩

/-- Work left for a goroutine. -/
noncomputable def CW.work {s : Stm E T} : CW s → Nat
  | .run st => 2 * (rem s st).length + 1
  | .call _ st => 2 * (rem s st).length + 2
  | .exit => 0

/-- Work left for the caller. -/
noncomputable def CM.work {s : Stm E T} : CM s → Nat
  | .seg g => ((remG s g).map (fun xs => 2 * xs.length + 2)).sum + 2
  | .wait => 1
  | .done => 0

/-- Bound on the number of steps still possible. -/
noncomputable def CSt.work {s : Stm E T} (a : CSt s) : Nat := (a.ws.map CW.work).sum + a.main.work

/-- Every schedule is finite. -/
theorem parCollect_terminates {s : Stm E T} {p : Nat} {c : T → E → E} {segs : List (List T)} (hs : Splits s p segs)
    (l : s.L) (e : E) (a b : CSt s) (h : CReach s p c l e a) (hst : CStep s c a b) : b.work < a.work := by
  obtain ⟨calls, i⟩ := h.inv hs
  unfold CSt.work
  cases hst with
  | spawn g st g' l' e' hm hq =>
    obtain ⟨_, _, h1, h2, h3⟩ := seg_some (i.seg g hm) hq
    rw [hm]; simp [CM.work, CW.work, h3]; omega
  | segEnd g g' l' e' hm hq => rw [hm]; simp [CM.work]
  | pull pre post st v st' l' e' hw hq =>
    obtain ⟨_, _, h1, h2⟩ := pull_some ((i.good (.run st) (by rw [hw]; simp)).1 st rfl) hq
    rw [hw]; simp [CW.work, h2]; omega
  | call pre post v st hw => rw [hw]; simp [CW.work]
  | pullEnd pre post st st' l' e' hw hq => rw [hw]; simp [CW.work]
  | waited hm hz => rw [hm]; simp [CM.work]

/-- C42: Collect over `s.Stream(p)` through Filter and Map, 1 ≤ p ≤ len(s), on every schedule: when it
    has returned, the consumer has been called exactly once per element and nothing runs any more;
    no schedule deadlocks and every schedule is finite. -/
theorem parCollect_slice {U : Type} (m : Slice.Mem T) (s : Slice.Hdr) (hs : m.Ok s) (p : Nat) (hp : 1 ≤ p) (hl : p ≤ s.len)
    (q : T → Bool) (g : T → U) (c : U → E → E) (e : E) (a : CSt (map (filter (ofSlice (E := E) m s p) q) g))
    (h : CReach (map (filter (ofSlice m s p) q) g) p c () e a) :
    (a.main = .done → ∃ calls : List U, calls.Perm (((m.view s).filter q).map g) ∧
      a.e = calls.foldl (fun e x => c x e) e ∧ ∀ b, ¬ CStep _ c a b) ∧
    (a.main = .done ∨ ∃ b, CStep _ c a b) ∧ (∀ b, CStep _ c a b → b.work < a.work) := by
  obtain ⟨segs, h1, h2, _⟩ := ofSlice_splits (E := E) m s hs p hp hl p
  have h5 := map_splits g (filter_splits q h1)
  obtain ⟨calls, k1, _, k3⟩ := parCollect_result c h5 () e a h
  refine ⟨fun hd => ⟨calls, ?_, k1, (k3 hd).2⟩, parCollect_progress h5 () e a h,
    fun b hst => parCollect_terminates h5 () e a b h hst⟩
  have := (k3 hd).1
  rw [← h2]
  rwa [← List.map_flatten, ← List.filter_flatten] at this

/-- C42 for the bare slice stream. -/
theorem parCollect_bare (m : Slice.Mem T) (s : Slice.Hdr) (hs : m.Ok s) (p : Nat) (hp : 1 ≤ p) (hl : p ≤ s.len)
    (c : T → E → E) (e : E) (a : CSt (ofSlice (E := E) m s p)) (h : CReach (ofSlice m s p) p c () e a)
    (hd : a.main = .done) :
    ∃ calls : List T, calls.Perm (m.view s) ∧ a.e = calls.foldl (fun e x => c x e) e ∧ ∀ b, ¬ CStep _ c a b := by
  obtain ⟨segs, h1, h2, _⟩ := ofSlice_splits (E := E) m s hs p hp hl p
  obtain ⟨calls, k1, _, k3⟩ := parCollect_result c h1 () e a h
  exact ⟨calls, by rw [← h2]; exact (k3 hd).1, k1, (k3 hd).2⟩

/-- The hypotheses are met by a concrete slice. -/
example : mem123.Ok hdr123 ∧ 1 ≤ 2 ∧ 2 ≤ hdr123.len := ⟨⟨by decide, by decide, by decide, by decide⟩, by decide, by decide⟩

end Gds.Stream
