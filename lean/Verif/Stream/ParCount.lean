import Verif.Stream.ParFold

/-! C44 and the parallel part of C36: the counters of Take, Skip and Enumerate on every schedule of a
parallel Collect (first activation). -/

namespace Gds.Stream

variable {E T R : Type}

/-- Elements a goroutine still has in its hands or in its segment. -/
noncomputable def KW.owes {s : Stm E T} : KW s → Multiset T
  | .start st => (rem s st : List T)
  | .loaded st => (rem s st : List T)
  | .got v st => v ::ₘ (rem s st : List T)
  | .deliver _ v st => v ::ₘ (rem s st : List T)
  | .exit => 0

/-- 1 for a goroutine between its load and its add (take.go:22-24). -/
def KW.pend {s : Stm E T} : KW s → Nat
  | .loaded _ => 1
  | .got _ _ => 1
  | _ => 0

/-- 1 for a goroutine between its add and the consumer call. -/
def KW.hold {s : Stm E T} : KW s → Multiset Int
  | .deliver k _ _ => {k}
  | _ => 0

/-- What is known of a single goroutine. -/
def KW.Ok {s : Stm E T} (w : KW s) : Prop :=
  (∀ st, w = .start st → Good s st) ∧ (∀ st, w = .loaded st → Good s st) ∧
  (∀ v st, w = .got v st → Good s st) ∧ (∀ k v st, w = .deliver k v st → Good s st)

/-- Invariant. -/
structure KInv (s : Stm E T) (op : Op) (segs : List (List T)) (a : KSt s) : Prop where
  seg : ∀ g, a.main = .seg g → GoodG s g
  done : a.main ≠ .done
  ws : ∀ w ∈ a.ws, w.Ok
  loaded : ∀ st, .loaded st ∈ a.ws → ∃ n, op = .take n
  count : a.ws.length + (match a.main with | .seg g => (remG s g).length | _ => 0) = segs.length
  /-- elements are neither invented nor lost, except that Take leaves segments once the limit is reached -/
  balance : ∃ lost : Multiset T, (lost = 0 ∨ ∃ n, op = .take n ∧ n ≤ a.curr) ∧
    (a.ws.map KW.owes).sum + (a.out.map (·.2) : List T) + (a.dropped : List T) +
      (match a.main with | .seg g => ((remG s g).flatten : Multiset T) | _ => 0) + lost = (segs.flatten : List T)
  /-- every counter value after the dropped ones has been handed out exactly once -/
  idx : (a.ws.map KW.hold).sum + (a.out.map (·.1) : List Int) =
    ((List.range (a.curr.toNat - a.dropped.length)).map (fun j : Nat => (a.dropped.length + j + 1 : Int)) : List Int)
  curr : (a.dropped.length : Int) ≤ a.curr
  drop : ∀ n, op = .skip n → (a.dropped.length : Int) = Max.max 0 (Min.min (n - 1) a.curr)
  dropEnum : (∀ n, op ≠ .skip n) → a.dropped = []
  take : ∀ n, op = .take n → (1 ≤ n → a.curr + (a.ws.map KW.pend).sum ≤ n - 1 + a.ws.length ∨
      (a.curr = 0 ∧ (a.ws.map KW.pend).sum = 0)) ∧ (n ≤ 0 → a.curr = 0 ∧ (a.ws.map KW.pend).sum = 0)

theorem KInv.init {s : Stm E T} {p : Nat} (op : Op) {segs : List (List T)} (h : Splits s p segs) (l : s.L) (e : E) :
    KInv s op segs (.init s p l e) where
  seg := by intro g hg; simp [KSt.init] at hg; subst hg; exact ⟨_, h⟩
  done := by simp [KSt.init]
  ws := by intro _ h; simp [KSt.init] at h
  loaded := by intro _ h; simp [KSt.init] at h
  count := by simp [KSt.init, remG_eq l e h]
  balance := ⟨0, .inl rfl, by simp [KSt.init, remG_eq l e h]⟩
  idx := by simp [KSt.init]
  curr := by simp [KSt.init]
  drop := by intro n _; simp [KSt.init]
  dropEnum := by intro _; rfl
  take := by intro n _; simp [KSt.init]

theorem kws_replace {s : Stm E T} {P : KW s → Prop} {ws pre post : List (KW s)} {w w' : KW s} (hw : ws = pre ++ w :: post)
    (h : ∀ x ∈ ws, P x) (h' : P w') : ∀ x ∈ pre ++ w' :: post, P x := by
  intro x hx
  simp only [List.mem_append, List.mem_cons] at hx
  rcases hx with hx | rfl | hx
  · exact h x (by rw [hw]; simp [hx])
  · exact h'
  · exact h x (by rw [hw]; simp [hx])

theorem kpend_le {s : Stm E T} (ws : List (KW s)) : (ws.map KW.pend).sum ≤ ws.length := by
  induction ws with
  | nil => simp
  | cons w ws ih =>
    have : w.pend ≤ 1 := by cases w <;> simp [KW.pend]
    simp only [List.map_cons, List.sum_cons, List.length_cons]; omega

/-- A step that replaces one goroutine, leaves counter, output and dropped elements unchanged, and
    keeps what the goroutine owes. -/
theorem KInv.local {s : Stm E T} {op : Op} {segs : List (List T)} {a : KSt s} (i : KInv s op segs a)
    {pre post : List (KW s)} {w w' : KW s} (hw : a.ws = pre ++ w :: post) (hok : w'.Ok)
    (hl : ∀ st, w' = .loaded st → ∃ n, op = .take n)
    (lost : Multiset T) (hlost : lost = 0 ∨ ∃ n, op = .take n ∧ n ≤ a.curr)
    (hb : w.owes = w'.owes + lost) (hh : w.hold = w'.hold)
    (hp : ∀ n, op = .take n → w'.pend ≤ w.pend ∨ (w'.pend = 1 ∧ a.curr < n)) :
    KInv s op segs { a with ws := pre ++ w' :: post } where
  seg := i.seg
  done := i.done
  ws := kws_replace hw i.ws hok
  loaded := by
    intro st hst
    simp only [List.mem_append, List.mem_cons] at hst
    rcases hst with hst | rfl | hst
    · exact i.loaded st (by rw [hw]; simp [hst])
    · exact hl st rfl
    · exact i.loaded st (by rw [hw]; simp [hst])
  count := by have := i.count; rw [hw] at this; simpa using this
  balance := by
    obtain ⟨lost0, h1, h2⟩ := i.balance
    refine ⟨lost0 + lost, ?_, ?_⟩
    · rcases hlost with rfl | h
      · simpa using h1
      · exact .inr h
    · rw [← h2, hw]
      simp only [List.map_append, List.sum_append, List.map_cons, List.sum_cons, hb]
      abel
  idx := by
    have := i.idx
    rw [hw] at this
    simp only [List.map_append, List.sum_append, List.map_cons, List.sum_cons, hh] at this ⊢
    exact this
  curr := i.curr
  drop := i.drop
  dropEnum := i.dropEnum
  take := by
    intro n hn
    have h1 := i.take n hn
    have h2 := hp n hn
    have h3 := kpend_le (pre ++ w' :: post)
    rw [hw] at h1
    simp only [List.map_append, List.sum_append, List.map_cons, List.sum_cons, List.length_append, List.length_cons] at h1 h3 ⊢
    refine ⟨fun hn1 => ?_, fun hn0 => ?_⟩
    · rcases h2 with h2 | h2
      · rcases h1.1 hn1 with h1 | h1
        · left; push_cast at h1 ⊢; omega
        · right; omega
      · left; push_cast at h3 ⊢; omega
    · have := h1.2 hn0
      rcases h2 with h2 | h2
      · omega
      · exfalso; omega

theorem range_snoc_coe (d : Nat) (c : Nat) :
    (((List.range (c + 1)).map (fun j : Nat => (d + j + 1 : Int)) : List Int) : Multiset Int) =
      {(d + c + 1 : Int)} + ((List.range c).map (fun j : Nat => (d + j + 1 : Int)) : List Int) := by
  rw [List.range_succ, List.map_append, ← Multiset.coe_add, add_comm]
  simp

theorem KInv.step {s : Stm E T} {op : Op} {segs : List (List T)} {a b : KSt s}
    (i : KInv s op segs a) (h : KStep s op a b) : KInv s op segs b := by
  cases h with
  | spawn g st g' l' e' hm hs =>
    obtain ⟨rfl, rfl, h1, h2, h3⟩ := seg_some (i.seg g hm) hs
    refine ⟨?_, by simp, ?_, ?_, ?_, ?_, ?_, i.curr, i.drop, i.dropEnum, ?_⟩
    · intro g2 hg2; simp at hg2; subst hg2; exact h2
    · intro w hw
      simp only [List.mem_append, List.mem_singleton] at hw
      rcases hw with hw | rfl
      · exact i.ws w hw
      · exact ⟨fun st' h => by simp at h; subst h; exact h1, by simp, by simp, by simp⟩
    · intro st' h; simp at h; exact i.loaded st' h
    · have := i.count; rw [hm] at this; simp only [h3] at this
      simp only [List.length_append, List.length_cons, List.length_nil] at this ⊢; omega
    · obtain ⟨lost, k1, k2⟩ := i.balance
      refine ⟨lost, k1, ?_⟩
      rw [← k2, hm]
      simp only [h3, List.map_append, List.sum_append, List.map_cons, List.map_nil, List.sum_cons, List.sum_nil, KW.owes,
        List.flatten_cons, ← Multiset.coe_add]
      abel
    · have := i.idx
      simp only [List.map_append, List.sum_append, List.map_cons, List.map_nil, List.sum_cons, List.sum_nil, KW.hold,
        add_zero] at this ⊢
      exact this
    · intro n hn
      have := i.take n hn
      simp only [List.map_append, List.sum_append, List.map_cons, List.map_nil, List.sum_cons, List.sum_nil, KW.pend,
        List.length_append, List.length_cons, List.length_nil] at this ⊢
      refine ⟨fun k => ?_, fun k => this.2 k⟩
      rcases this.1 k with h | h
      · left; push_cast; omega
      · right; exact h
  | segEnd g g' l' e' hm hs =>
    obtain ⟨rfl, rfl, h1⟩ := seg_none (i.seg g hm) hs
    refine ⟨?_, by simp, i.ws, i.loaded, ?_, ?_, i.idx, i.curr, i.drop, i.dropEnum, i.take⟩
    · intro _ h; simp at h
    · have := i.count; rw [hm] at this; simpa [h1] using this
    · obtain ⟨lost, k1, k2⟩ := i.balance
      refine ⟨lost, k1, ?_⟩
      rw [← k2, hm]; simp [h1]
  | load n pre post st hop hw hlt =>
    refine i.local hw ⟨by simp, ?_, by simp, by simp⟩ (fun _ _ => ⟨n, hop⟩) 0 (.inl rfl) (by simp [KW.owes]) rfl ?_
    · intro st' h; simp at h; subst h; exact (i.ws (.start st) (by rw [hw]; simp)).1 st rfl
    · intro n' hn'; rw [hop] at hn'; simp at hn'; subst hn'; exact .inr ⟨rfl, hlt⟩
  | loadStop n pre post st hop hw hle =>
    refine i.local hw ⟨by simp, by simp, by simp, by simp⟩ (by simp) (rem s st) (.inr ⟨n, hop, hle⟩) (by simp [KW.owes]) rfl ?_
    intro n' hn'; exact .inl (by simp [KW.pend])
  | takePull n pre post st v st' l' e' hop hw hs =>
    obtain ⟨rfl, rfl, h1, h2⟩ := pull_some ((i.ws (.loaded st) (by rw [hw]; simp)).2.1 st rfl) hs
    refine i.local hw ⟨by simp, by simp, ?_, by simp⟩ (by simp) 0 (.inl rfl) (by simp [KW.owes, h2]) rfl ?_
    · intro v' st'' h; simp at h; obtain ⟨rfl, rfl⟩ := h; exact h1
    · intro n' hn'; exact .inl (by simp [KW.pend])
  | takeEnd n pre post st st' l' e' hop hw hs =>
    obtain ⟨rfl, rfl, h2⟩ := pull_none ((i.ws (.loaded st) (by rw [hw]; simp)).2.1 st rfl) hs
    refine i.local hw ⟨by simp, by simp, by simp, by simp⟩ (by simp) 0 (.inl rfl) (by simp [KW.owes, h2]) rfl ?_
    intro n' hn'; exact .inl (by simp [KW.pend])
  | pull pre post st v st' l' e' hop hw hs =>
    obtain ⟨rfl, rfl, h1, h2⟩ := pull_some ((i.ws (.start st) (by rw [hw]; simp)).1 st rfl) hs
    refine i.local hw ⟨by simp, by simp, ?_, by simp⟩ (by simp) 0 (.inl rfl) (by simp [KW.owes, h2]) rfl ?_
    · intro v' st'' h; simp at h; obtain ⟨rfl, rfl⟩ := h; exact h1
    · intro n' hn'; exact (hop n' hn').elim
  | pullEnd pre post st st' l' e' hop hw hs =>
    obtain ⟨rfl, rfl, h2⟩ := pull_none ((i.ws (.start st) (by rw [hw]; simp)).1 st rfl) hs
    refine i.local hw ⟨by simp, by simp, by simp, by simp⟩ (by simp) 0 (.inl rfl) (by simp [KW.owes, h2]) rfl ?_
    intro n' hn'; exact .inl (by simp [KW.pend])
  | add pre post v st hw hskip =>
    have hok := (i.ws (.got v st) (by rw [hw]; simp)).2.2.1 v st rfl
    have hcur := i.curr
    refine ⟨i.seg, i.done, kws_replace hw i.ws ⟨by simp, by simp, by simp, ?_⟩, ?_, ?_, ?_, ?_, ?_, ?_, i.dropEnum, ?_⟩
    · intro k v' st'' h; simp at h; obtain ⟨rfl, rfl, rfl⟩ := h; exact hok
    · intro st' hst
      simp only [List.mem_append, List.mem_cons] at hst
      rcases hst with hst | hst | hst
      · exact i.loaded st' (by rw [hw]; simp [hst])
      · simp at hst
      · exact i.loaded st' (by rw [hw]; simp [hst])
    · have := i.count; rw [hw] at this; simpa using this
    · obtain ⟨lost, k1, k2⟩ := i.balance
      refine ⟨lost, ?_, ?_⟩
      · rcases k1 with k1 | ⟨n, k1, k3⟩
        · exact .inl k1
        · exact .inr ⟨n, k1, by simp; omega⟩
      · rw [← k2, hw]
        simp only [List.map_append, List.sum_append, List.map_cons, List.sum_cons, KW.owes]
    · have := i.idx
      rw [hw] at this
      simp only [List.map_append, List.sum_append, List.map_cons, List.sum_cons, KW.hold, zero_add] at this ⊢
      have e1 : (a.curr + 1).toNat - a.dropped.length = (a.curr.toNat - a.dropped.length) + 1 := by omega
      rw [e1, range_snoc_coe, ← this]
      have e2 : ((a.dropped.length : Int) + ((a.curr.toNat - a.dropped.length : Nat) : Int) + 1) = a.curr + 1 := by omega
      rw [e2]
      abel
    · simp; omega
    · intro n hn
      have h1 := i.drop n hn
      have h2 := hskip n hn
      simp only; omega
    · intro n hn
      have h1 := i.take n hn
      rw [hw] at h1
      simp only [List.map_append, List.sum_append, List.map_cons, List.sum_cons, List.length_append, List.length_cons,
        KW.pend] at h1 ⊢
      refine ⟨fun hn1 => ?_, fun hn0 => ?_⟩
      · rcases h1.1 hn1 with h1 | h1
        · left; push_cast at h1 ⊢; omega
        · exfalso; omega
      · have := h1.2 hn0; exfalso; omega
  | addSkip n pre post v st hop hw hlt =>
    have hok := (i.ws (.got v st) (by rw [hw]; simp)).2.2.1 v st rfl
    have hcur := i.curr
    have hd := i.drop n hop
    refine ⟨i.seg, i.done, kws_replace hw i.ws ⟨?_, by simp, by simp, by simp⟩, ?_, ?_, ?_, ?_, ?_, ?_, ?_, ?_⟩
    · intro st'' h; simp at h; obtain rfl := h; exact hok
    · intro st' hst
      simp only [List.mem_append, List.mem_cons] at hst
      rcases hst with hst | hst | hst
      · exact i.loaded st' (by rw [hw]; simp [hst])
      · simp at hst
      · exact i.loaded st' (by rw [hw]; simp [hst])
    · have := i.count; rw [hw] at this; simpa using this
    · obtain ⟨lost, k1, k2⟩ := i.balance
      refine ⟨lost, ?_, ?_⟩
      · rcases k1 with k1 | ⟨n, k1, k3⟩
        · exact .inl k1
        · exact .inr ⟨n, k1, by simp; omega⟩
      · rw [← k2, hw]
        simp only [List.map_append, List.sum_append, List.map_cons, List.sum_cons, KW.owes, ← Multiset.coe_add,
          Multiset.coe_singleton, ← Multiset.singleton_add]
        abel
    · have := i.idx
      rw [hw] at this
      have e0 : a.curr.toNat - a.dropped.length = 0 := by omega
      have e1 : (a.curr + 1).toNat - (a.dropped ++ [v]).length = 0 := by simp; omega
      simp only [List.map_append, List.sum_append, List.map_cons, List.sum_cons, KW.hold, zero_add, e0] at this ⊢
      rw [e1]
      simpa using this
    · simp; omega
    · intro n' hn'
      rw [hop] at hn'; simp at hn'; subst hn'
      simp only [List.length_append, List.length_cons, List.length_nil]; push_cast; omega
    · intro h; exact (h n hop).elim
    · intro n' hn'; rw [hop] at hn'; simp at hn'
  | deliver pre post k v st hw =>
    have hok := (i.ws (.deliver k v st) (by rw [hw]; simp)).2.2.2 k v st rfl
    refine ⟨i.seg, i.done, kws_replace hw i.ws ⟨?_, by simp, by simp, by simp⟩, ?_, ?_, ?_, ?_, i.curr, i.drop, i.dropEnum, ?_⟩
    · intro st'' h; simp at h; obtain rfl := h; exact hok
    · intro st' hst
      simp only [List.mem_append, List.mem_cons] at hst
      rcases hst with hst | hst | hst
      · exact i.loaded st' (by rw [hw]; simp [hst])
      · simp at hst
      · exact i.loaded st' (by rw [hw]; simp [hst])
    · have := i.count; rw [hw] at this; simpa using this
    · obtain ⟨lost, k1, k2⟩ := i.balance
      refine ⟨lost, k1, ?_⟩
      rw [← k2, hw]
      simp only [List.map_append, List.sum_append, List.map_cons, List.map_nil, List.sum_cons, KW.owes, ← Multiset.coe_add,
        Multiset.coe_singleton, ← Multiset.singleton_add]
      abel
    · have := i.idx
      rw [hw] at this
      rw [← this]
      simp only [List.map_append, List.sum_append, List.map_cons, List.map_nil, List.sum_cons, KW.hold, ← Multiset.coe_add,
        Multiset.coe_singleton]
      abel
    · intro n hn
      have h1 := i.take n hn
      rw [hw] at h1
      simpa [KW.pend] using h1

theorem KReach.inv {s : Stm E T} {op : Op} {p : Nat} {segs : List (List T)} (hs : Splits s p segs) {l : s.L} {e : E}
    {a : KSt s} (h : KReach s op p l e a) : KInv s op segs a := by
  induction h with
  | init => exact KInv.init op hs l e
  | step _ hst ih => exact ih.step hst

/-- All goroutines have been started and have returned. -/
def KSt.Quiet {s : Stm E T} (a : KSt s) : Prop := a.main = .wait ∧ ∀ w ∈ a.ws, w = .exit

theorem quiet_sums {s : Stm E T} {ws : List (KW s)} (h : ∀ w ∈ ws, w = .exit) :
    (ws.map KW.owes).sum = 0 ∧ (ws.map KW.hold).sum = 0 ∧ (ws.map KW.pend).sum = 0 := by
  induction ws with
  | nil => simp
  | cons w ws ih =>
    obtain ⟨h1, h2, h3⟩ := ih (fun w hw => h w (by simp [hw]))
    rw [List.map_cons, List.map_cons, List.map_cons, List.sum_cons, List.sum_cons, List.sum_cons, h1, h2, h3, h w (by simp)]
    simp [KW.owes, KW.hold, KW.pend]

/-- Number of elements handed over is at most the counter. -/
theorem KInv.out_len {s : Stm E T} {op : Op} {segs : List (List T)} {a : KSt s} (i : KInv s op segs a) :
    a.out.length ≤ a.curr.toNat - a.dropped.length := by
  have h := congrArg Multiset.card i.idx
  simp at h
  omega

/-- C44 (Skip), general: on every schedule, never more than max(0, n-1) elements are dropped, and when all
    goroutines have returned exactly min(n-1, total) have been, and the others delivered exactly once. -/
theorem parSkip {s : Stm E T} {p : Nat} {segs : List (List T)} (hs : Splits s p segs) (n : Int) (l : s.L) (e : E)
    (a : KSt s) (h : KReach s (.skip n) p l e a) :
    (a.dropped.length : Int) ≤ Max.max 0 (n - 1) ∧
    (a.Quiet → (a.dropped.length : Int) = Max.max 0 (Min.min (n - 1) segs.flatten.length) ∧
      (a.dropped ++ a.out.map (·.2)).Perm segs.flatten) := by
  have i := h.inv hs
  have hd := i.drop n rfl
  refine ⟨by omega, fun ⟨hm, hq⟩ => ?_⟩
  obtain ⟨h1, h2, h3⟩ := quiet_sums hq
  obtain ⟨lost, k1, k2⟩ := i.balance
  have hlost : lost = 0 := by rcases k1 with k1 | ⟨n', k1, _⟩; exact k1; simp at k1
  rw [hm, h1, hlost] at k2
  have k2 : (a.dropped ++ a.out.map (·.2)).Perm segs.flatten := by
    rw [← Multiset.coe_eq_coe, ← k2, ← Multiset.coe_add]
    simp only [zero_add, add_zero]
    exact add_comm _ _
  refine ⟨?_, k2⟩
  have hlen := k2.length_eq
  have hidx := congrArg Multiset.card i.idx
  rw [h2] at hidx
  simp only [zero_add, Multiset.coe_card, List.length_map, List.length_range] at hidx
  simp only [List.length_append, List.length_map] at hlen
  have := i.curr
  omega

/-- C44 (Take), general: on every schedule at most n + k - 1 elements are delivered, where k is the
    number of segments, none if n ≤ 0; they are elements of the source, each delivered at most as
    often as it occurs; and when all goroutines have returned at least min(n, total) have been. -/
theorem parTake {s : Stm E T} {p : Nat} {segs : List (List T)} (hs : Splits s p segs) (n : Int) (l : s.L) (e : E)
    (a : KSt s) (h : KReach s (.take n) p l e a) :
    (1 ≤ n → (a.out.length : Int) ≤ n + segs.length - 1) ∧ (n ≤ 0 → a.out = []) ∧
    (∃ rest, (a.out.map (·.2) ++ rest).Perm segs.flatten) ∧
    (a.Quiet → Min.min n segs.flatten.length ≤ a.out.length) := by
  have i := h.inv hs
  have ht := i.take n rfl
  have hl := i.out_len
  have hd := i.dropEnum (by simp)
  rw [hd] at hl
  simp only [List.length_nil, Nat.sub_zero] at hl
  have hc := i.count
  have hk : a.ws.length ≤ segs.length := by omega
  refine ⟨fun hn => ?_, fun hn => ?_, ?_, fun ⟨hm, hq⟩ => ?_⟩
  · have := ht.1 hn; omega
  · have := ht.2 hn
    rw [this.1] at hl
    exact List.length_eq_zero_iff.1 (by simpa using hl)
  · obtain ⟨lost, k1, k2⟩ := i.balance
    obtain ⟨r, hr⟩ := Quot.exists_rep ((a.ws.map KW.owes).sum + (a.dropped : Multiset T) +
      (match a.main with | .seg g => ((remG s g).flatten : Multiset T) | _ => 0) + lost)
    refine ⟨r, ?_⟩
    have hr' : (r : Multiset T) = _ := hr
    rw [← Multiset.coe_eq_coe, ← Multiset.coe_add, hr', ← k2]
    abel
  · obtain ⟨h1, h2, h3⟩ := quiet_sums hq
    have hidx := congrArg Multiset.card i.idx
    rw [h2, hd] at hidx
    simp only [zero_add, Multiset.coe_card, List.length_map, List.length_range, List.length_nil, Nat.sub_zero] at hidx
    obtain ⟨lost, k1, k2⟩ := i.balance
    rcases k1 with rfl | ⟨n', k1, k3⟩
    · rw [hm, h1, hd] at k2
      have := congrArg Multiset.card k2
      simp only [zero_add, add_zero, Multiset.coe_card, Multiset.card_add, List.length_map, List.length_nil,
        Multiset.card_zero] at this
      omega
    · simp at k1; subst k1
      omega

/-- C36 (Enumerate), general: on every schedule the indices handed out so far are distinct, and when
    all goroutines have returned they are exactly 1..total, each once, with every element
    delivered exactly once. -/
theorem parEnumerate {s : Stm E T} {p : Nat} {segs : List (List T)} (hs : Splits s p segs) (l : s.L) (e : E)
    (a : KSt s) (h : KReach s .enum p l e a) :
    (a.out.map (·.1)).Nodup ∧
    (a.Quiet → (a.out.map (·.1)).Perm ((List.range segs.flatten.length).map (fun j : Nat => (j + 1 : Int))) ∧
      (a.out.map (·.2)).Perm segs.flatten) := by
  have i := h.inv hs
  have hd := i.dropEnum (by simp)
  have hidx := i.idx
  rw [hd] at hidx
  simp only [List.length_nil, Nat.sub_zero, Nat.cast_zero, zero_add] at hidx
  constructor
  · have hn : (((List.range a.curr.toNat).map (fun j : Nat => (j + 1 : Int)) : List Int) : Multiset Int).Nodup := by
      rw [Multiset.coe_nodup]
      refine List.Nodup.map (fun x y hxy => ?_) List.nodup_range
      simp at hxy; exact hxy
    rw [← hidx] at hn
    have := Multiset.nodup_of_le (Multiset.le_add_left _ _) hn
    rwa [Multiset.coe_nodup] at this
  · rintro ⟨hm, hq⟩
    obtain ⟨h1, h2, h3⟩ := quiet_sums hq
    obtain ⟨lost, k1, k2⟩ := i.balance
    have hlost : lost = 0 := by rcases k1 with k1 | ⟨n', k1, _⟩; exact k1; simp at k1
    rw [hm, h1, hlost, hd] at k2
    simp only [zero_add, add_zero, Multiset.coe_nil] at k2
    have k3 := Multiset.coe_eq_coe.1 k2
    have hlen := k3.length_eq
    rw [h2, zero_add] at hidx
    have hc := congrArg Multiset.card hidx
    simp only [Multiset.coe_card, List.length_map, List.length_range] at hc hlen
    rw [← hc, hlen] at hidx
    exact ⟨Multiset.coe_eq_coe.1 hidx, k3⟩

/-- No schedule deadlocks. -/
theorem parCount_progress {s : Stm E T} {op : Op} {p : Nat} {segs : List (List T)} (hs : Splits s p segs) (l : s.L) (e : E)
    (a : KSt s) (h : KReach s op p l e a) : a.Quiet ∨ ∃ b, KStep s op a b := by
  have i := h.inv hs
  cases hm : a.main with
  | done => exact (i.done hm).elim
  | seg g =>
    right
    rcases seg_ok (i.seg g hm) a.l a.e with ⟨st, g', hq⟩ | ⟨g', hq⟩
    · exact ⟨_, .spawn a g st g' _ _ hm hq⟩
    · exact ⟨_, .segEnd a g g' _ _ hm hq⟩
  | wait =>
    by_cases hall : ∀ w ∈ a.ws, w = .exit
    · exact .inl ⟨hm, hall⟩
    right
    push Not at hall
    obtain ⟨w, hw, hne⟩ := hall
    obtain ⟨pre, post, hws⟩ := mem_split hw
    have hok := i.ws w hw
    cases w with
    | exit => exact (hne rfl).elim
    | start st =>
      by_cases hop : ∃ n, op = .take n
      · obtain ⟨n, hop⟩ := hop
        rcases lt_or_ge a.curr n with hlt | hge
        · exact ⟨_, .load a n pre post st hop hws hlt⟩
        · exact ⟨_, .loadStop a n pre post st hop hws hge⟩
      · rcases pull_ok (hok.1 st rfl) a.l a.e with ⟨v, st', hq⟩ | ⟨st', hq⟩
        · exact ⟨_, .pull a pre post st v st' _ _ (fun n h => hop ⟨n, h⟩) hws hq⟩
        · exact ⟨_, .pullEnd a pre post st st' _ _ (fun n h => hop ⟨n, h⟩) hws hq⟩
    | loaded st =>
      obtain ⟨n, hop⟩ := i.loaded st hw
      rcases pull_ok (hok.2.1 st rfl) a.l a.e with ⟨v, st', hq⟩ | ⟨st', hq⟩
      · exact ⟨_, .takePull a n pre post st v st' _ _ hop hws hq⟩
      · exact ⟨_, .takeEnd a n pre post st st' _ _ hop hws hq⟩
    | got v st =>
      by_cases hsk : ∃ n, op = .skip n ∧ a.curr + 1 < n
      · obtain ⟨n, h1, h2⟩ := hsk
        exact ⟨_, .addSkip a n pre post v st h1 hws h2⟩
      · refine ⟨_, .add a pre post v st hws (fun n hn => ?_)⟩
        by_contra hlt
        exact hsk ⟨n, hn, by omega⟩
    | deliver k v st => exact ⟨_, .deliver a pre post k v st hws⟩

/-- Work left for a goroutine. -/
noncomputable def KW.work {s : Stm E T} : KW s → Nat
  | .start st => 4 * (rem s st).length + 2
  | .loaded st => 4 * (rem s st).length + 1
  | .got _ st => 4 * (rem s st).length + 4
  | .deliver _ _ st => 4 * (rem s st).length + 3
  | .exit => 0

/-- Bound on the number of steps still possible. -/
noncomputable def KSt.work {s : Stm E T} (a : KSt s) : Nat := (a.ws.map KW.work).sum +
  (match a.main with | .seg g => ((remG s g).map (fun xs => 4 * xs.length + 3)).sum + 1 | _ => 0)

/-- Every schedule is finite. -/
theorem parCount_terminates {s : Stm E T} {op : Op} {p : Nat} {segs : List (List T)} (hs : Splits s p segs) (l : s.L) (e : E)
    (a b : KSt s) (h : KReach s op p l e a) (hst : KStep s op a b) : b.work < a.work := by
  have i := h.inv hs
  unfold KSt.work
  cases hst with
  | spawn g st g' l' e' hm hq =>
    obtain ⟨_, _, h1, h2, h3⟩ := seg_some (i.seg g hm) hq
    rw [hm]; simp [KW.work, h3]; omega
  | segEnd g g' l' e' hm hq => rw [hm]; simp
  | load n pre post st hop hw => rw [hw]; simp [KW.work]
  | loadStop n pre post st hop hw => rw [hw]; simp [KW.work]
  | takePull n pre post st v st' l' e' hop hw hq =>
    obtain ⟨_, _, h1, h2⟩ := pull_some ((i.ws (.loaded st) (by rw [hw]; simp)).2.1 st rfl) hq
    rw [hw]; simp [KW.work, h2]; omega
  | takeEnd n pre post st st' l' e' hop hw hq => rw [hw]; simp [KW.work]
  | pull pre post st v st' l' e' hop hw hq =>
    obtain ⟨_, _, h1, h2⟩ := pull_some ((i.ws (.start st) (by rw [hw]; simp)).1 st rfl) hq
    rw [hw]; simp [KW.work, h2]; omega
  | pullEnd pre post st st' l' e' hop hw hq => rw [hw]; simp [KW.work]
  | add pre post v st hw => rw [hw]; simp [KW.work]
  | addSkip n pre post v st hop hw => rw [hw]; simp [KW.work]
  | deliver pre post k v st hw => rw [hw]; simp [KW.work]

/-- C44 for slices: Skip over `s.Stream(p)`, 1 ≤ p ≤ len(s). -/
theorem parSkip_slice (m : Slice.Mem T) (s : Slice.Hdr) (hs : m.Ok s) (p : Nat) (hp : 1 ≤ p) (hl : p ≤ s.len) (n : Int)
    (e : E) (a : KSt (ofSlice (E := E) m s p)) (h : KReach (ofSlice m s p) (.skip n) p () e a) :
    (a.Quiet → (a.dropped.length : Int) = Max.max 0 (Min.min (n - 1) s.len) ∧ (a.dropped ++ a.out.map (·.2)).Perm (m.view s)) ∧
    (a.Quiet ∨ ∃ b, KStep _ (.skip n) a b) ∧ (∀ b, KStep _ (.skip n) a b → b.work < a.work) := by
  obtain ⟨segs, h1, h2, _⟩ := ofSlice_splits (E := E) m s hs p hp hl p
  have := (parSkip h1 n () e a h).2
  rw [h2] at this
  exact ⟨fun hq => by simpa using this hq, parCount_progress h1 () e a h, fun b hb => parCount_terminates h1 () e a b h hb⟩

/-- C44 for slices: Take over `s.Stream(p)`, p dividing len(s) > 0: at most n + p - 1 elements. -/
theorem parTake_slice (m : Slice.Mem T) (s : Slice.Hdr) (hs : m.Ok s) (p : Nat) (hp : 1 ≤ p) (hl : 0 < s.len) (hd : p ∣ s.len)
    (n : Int) (hn : 1 ≤ n) (e : E) (a : KSt (ofSlice (E := E) m s p)) (h : KReach (ofSlice m s p) (.take n) p () e a) :
    (a.out.length : Int) ≤ n + p - 1 ∧ (∃ rest, (a.out.map (·.2) ++ rest).Perm (m.view s)) ∧
    (a.Quiet → Min.min n s.len ≤ a.out.length) ∧
    (a.Quiet ∨ ∃ b, KStep _ (.take n) a b) ∧ (∀ b, KStep _ (.take n) a b → b.work < a.work) := by
  obtain ⟨segs, h1, h2, _, _, h5⟩ := ofSlice_splits (E := E) m s hs p hp (Nat.le_of_dvd hl hd) p
  have := parTake h1 n () e a h
  rw [h2, h5.2 hd] at this
  exact ⟨this.1 hn, this.2.2.1, fun hq => by simpa using this.2.2.2 hq, parCount_progress h1 () e a h,
    fun b hb => parCount_terminates h1 () e a b h hb⟩

/-- C36 for slices: Enumerate over `s.Stream(p)`. -/
theorem parEnumerate_slice (m : Slice.Mem T) (s : Slice.Hdr) (hs : m.Ok s) (p : Nat) (hp : 1 ≤ p) (hl : p ≤ s.len)
    (e : E) (a : KSt (ofSlice (E := E) m s p)) (h : KReach (ofSlice m s p) .enum p () e a) :
    (a.out.map (·.1)).Nodup ∧
    (a.Quiet → (a.out.map (·.1)).Perm ((List.range s.len).map (fun j : Nat => (j + 1 : Int))) ∧ (a.out.map (·.2)).Perm (m.view s)) ∧
    (a.Quiet ∨ ∃ b, KStep _ .enum a b) ∧ (∀ b, KStep _ .enum a b → b.work < a.work) := by
  obtain ⟨segs, h1, h2, _⟩ := ofSlice_splits (E := E) m s hs p hp hl p
  have := parEnumerate h1 () e a h
  rw [h2] at this
  exact ⟨this.1, fun hq => by simpa using this.2 hq, parCount_progress h1 () e a h,
    fun b hb => parCount_terminates h1 () e a b h hb⟩

/-- Two goroutines can both pass the test of Take(1): two elements are delivered. -/
theorem parTake_two :
    ∃ a, KReach (ofSlice (E := Unit) mem123 hdr123 3) (.take 1) 3 () () a ∧ a.out.length = 2 := by
  let S := ofSlice (E := Unit) mem123 hdr123 3
  have r0 : KReach S (.take 1) 3 () () (.init S 3 () ()) := .init
  have r1 := r0.step (.spawn _ ((3, 0) : Int × Int) (({ arr := 0, off := 0, len := 1, cap := 3 }, 0) : Slice.Hdr × Nat) ((3, 1) : Int × Int) () () rfl rfl)
  have r2 := r1.step (.spawn _ ((3, 1) : Int × Int) (({ arr := 0, off := 1, len := 1, cap := 2 }, 0) : Slice.Hdr × Nat) ((3, 2) : Int × Int) () () rfl rfl)
  have r3 := r2.step (.load _ 1 [] _ _ rfl rfl (by decide))
  have r4 := r3.step (.load _ 1 [_] _ _ rfl rfl (by decide))
  have r5 := r4.step (.takePull _ 1 [] _ _ 1 (({ arr := 0, off := 0, len := 1, cap := 3 }, 1) : Slice.Hdr × Nat) () () rfl rfl rfl)
  have r6 := r5.step (.takePull _ 1 [_] _ _ 2 (({ arr := 0, off := 1, len := 1, cap := 2 }, 1) : Slice.Hdr × Nat) () () rfl rfl rfl)
  have r7 := r6.step (.add _ [] _ _ _ rfl (by simp))
  have r8 := r7.step (.add _ [_] _ _ _ rfl (by simp))
  have r9 := r8.step (.deliver _ [] _ _ _ _ rfl)
  have r10 := r9.step (.deliver _ [_] _ _ _ _ rfl)
  exact ⟨_, r10, rfl⟩

/-- C44: "at most n" is false of Take. -/
theorem parTake_refuted :
    ¬ ∀ (m : Slice.Mem Int) (s : Slice.Hdr), m.Ok s → ∀ (p : Nat), 1 ≤ p → p ≤ s.len → ∀ n : Int, 1 ≤ n →
      ∀ a, KReach (ofSlice (E := Unit) m s p) (.take n) p () () a → (a.out.length : Int) ≤ n := by
  intro h
  obtain ⟨a, h1, h2⟩ := parTake_two
  have := h mem123 hdr123 ⟨by decide, by decide, by decide, by decide⟩ 3 (by decide) (by decide) 1 (by decide) a h1
  rw [h2] at this
  simp at this

end Gds.Stream
