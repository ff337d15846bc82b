import Verif.DelayQueue.Props
import Mathlib.Data.Finset.Card

/-! The delay queue with several consumers (C109). -/

namespace Gds.DelayQueue

variable {T : Type} {comp : Compare T} {expir : T → Int} {s s' : Sys T}

/-- The goroutine will receive from `wakeupC` or take the sleeping flag back: it is at the select or at the lines 115-117, 180-182. -/
def Pc.awaits : Pc T → Bool
  | .popWait _ _ | .popSwap _ | .popRecv _ => true
  | _ => false

/-- `S` is the set of the goroutines for which `f` holds. -/
def Exact (f : Nat → Bool) (S : Finset Nat) : Prop := ∀ t, t ∈ S ↔ f t = true

theorem Exact.upd {f g : Nat → Bool} {S : Finset Nat} (h : Exact f S) (t : Nat) (hg : ∀ u, u ≠ t → g u = f u) :
    ∃ S', Exact g S' ∧ S'.card + (f t).toNat = S.card + (g t).toNat := by
  cases hf : f t <;> cases hgt : g t
  · refine ⟨S, fun u => ?_, by simp⟩
    by_cases hu : u = t
    · subst hu; rw [h u, hf, hgt]
    · rw [h u, hg u hu]
  · refine ⟨insert t S, fun u => ?_, ?_⟩
    · by_cases hu : u = t
      · subst hu; simp [hgt]
      · simp [hu, h u, hg u hu]
    · rw [Finset.card_insert_of_notMem (by rw [h t, hf]; simp)]; simp
  · refine ⟨S.erase t, fun u => ?_, ?_⟩
    · by_cases hu : u = t
      · subst hu; simp [hgt]
      · simp [hu, h u, hg u hu]
    · have := Finset.card_erase_add_one ((h t).2 hf)
      simpa using this
  · refine ⟨S, fun u => ?_, by simp⟩
    by_cases hu : u = t
    · subst hu; rw [h u, hf, hgt]
    · rw [h u, hg u hu]

/-- There are as many consumers waiting as there are Pushes handing over a wake-up, and one more if the sleeping flag is set. -/
def MInv (s : Sys T) : Prop := ∃ S W, Exact (fun t => (s.pc t).isSend) S ∧ Exact (fun t => (s.pc t).awaits) W ∧
  S.card + s.sleeping.toNat ≤ W.card

theorem MInv.goto (h : MInv s) {t : Nat} {p q : Pc T} (e : s.pc t = q) (hpc : ∀ u, s'.pc u = if u = t then p else s.pc u)
    (hle : p.isSend.toNat + q.awaits.toNat + s'.sleeping.toNat ≤ q.isSend.toNat + p.awaits.toNat + s.sleeping.toNat) : MInv s' := by
  obtain ⟨S, W, hS, hW, hc⟩ := h
  have hne : ∀ u, u ≠ t → s'.pc u = s.pc u := fun u hu => by rw [hpc, if_neg hu]
  obtain ⟨S', hS', cS⟩ := hS.upd (g := fun u => (s'.pc u).isSend) t (fun u hu => by simp only [hne u hu])
  obtain ⟨W', hW', cW⟩ := hW.upd (g := fun u => (s'.pc u).awaits) t (fun u hu => by simp only [hne u hu])
  refine ⟨S', W', hS', hW', ?_⟩
  simp only [hpc t, if_true, e] at cS cW
  omega

theorem MInv.step (h : MInv s) (hn : NoCtx s) (st : Step comp expir s s') : MInv s' := by
  have key : ∀ {t : Nat} {p : Pc T} {s1 : Sys T}, s1.pc = s.pc → (∀ u, (s1.goto t p).pc u = if u = t then p else s.pc u) := by
    intro t p s1 h1 u; simp [Sys.goto, h1]
  cases st with
  | tick d => exact h
  | setClock n hs => exact h
  | cancel k => exact h
  | casOk t e hs => exact h.goto e (key rfl) (by show _ + _ + Bool.toNat false ≤ _; rw [hs]; simp [Pc.isSend, Pc.awaits])
  | rendezvous t u c e e' =>
    have hne : u ≠ t := by rintro rfl; rw [e] at e'; simp [Pc.receiver] at e'
    have hw : (s.pc u).awaits = true := by cases h : s.pc u <;> rw [h] at e' <;> simp [Pc.receiver] at e' <;> rfl
    have hs : (s.pc u).isSend = false := by cases h : s.pc u <;> rw [h] at hw <;> simp [Pc.awaits] at hw <;> rfl
    obtain ⟨S, W, hS, hW, hc⟩ := h
    obtain ⟨S', hS', cS⟩ := hS.upd (g := fun v => ((s.goto t .idle).pc v).isSend) t (fun v hv => by simp [Sys.goto, hv])
    obtain ⟨W', hW', cW⟩ := hW.upd (g := fun v => ((s.goto t .idle).pc v).awaits) t (fun v hv => by simp [Sys.goto, hv])
    obtain ⟨S2, hS2, cS2⟩ := hS'.upd (g := fun v => (((s.goto t .idle).goto u (.popLock c)).pc v).isSend) u (fun v hv => by simp [Sys.goto, hv])
    obtain ⟨W2, hW2, cW2⟩ := hW'.upd (g := fun v => (((s.goto t .idle).goto u (.popLock c)).pc v).awaits) u (fun v hv => by simp [Sys.goto, hv])
    refine ⟨S2, W2, hS2, hW2, ?_⟩
    have k1 : Pc.isSend (.pushSend : Pc T) = true := rfl
    have k2 : Pc.isSend (.idle : Pc T) = false := rfl
    have k3 : Pc.awaits (.pushSend : Pc T) = false := rfl
    have k4 : Pc.awaits (.idle : Pc T) = false := rfl
    have k5 : Pc.isSend (.popLock c : Pc T) = false := rfl
    have k6 : Pc.awaits (.popLock c : Pc T) = false := rfl
    simp [Sys.goto, e, hne, hw, hs, k1, k2, k3, k4, k5, k6] at cS cW cS2 cW2
    show S2.card + s.sleeping.toNat ≤ W2.card
    omega
  | popStore t c o e => exact h.goto e (key rfl) (by show _ + _ + Bool.toNat true ≤ _; cases s.sleeping <;> simp [Pc.isSend, Pc.awaits])
  | swapSleeping t c e hs => exact h.goto e (key rfl) (by show _ + _ + Bool.toNat false ≤ _; rw [hs]; simp [Pc.isSend, Pc.awaits])
  | popCancel t k o e _ => exact absurd (by rw [e]; rfl) (hn t k)
  | popExit t c e =>
    exact h.goto e (key rfl) (by show _ + _ + Bool.toNat false ≤ _; simp [Pc.isSend, Pc.awaits])
  | _ => exact h.goto (by assumption) (key rfl) (by simp [Pc.isSend, Pc.awaits, Sys.goto])

theorem ReachNoCtx.minv (h : ReachNoCtx comp expir s) : MInv s := by
  induction h with
  | init z size pq clock skewed done e =>
    exact ⟨∅, ∅, fun t => by simp [Sys.init, Pc.isSend], fun t => by simp [Sys.init, Pc.awaits], by simp [Sys.init]⟩
  | step h st _ ih => exact ih.step h.lost.2 st

theorem awaits_cases {p : Pc T} (h : p.awaits = true) : p.receiver ≠ none ∨ ∃ c, p = .popSwap c := by
  cases p <;> simp [Pc.awaits, Pc.receiver] at h ⊢

/-- C25 for any number of consumers calling Pop: a Push that waits to hand over the wake-up can always do so; it wakes a consumer. -/
theorem push_returns_many (h : ReachNoCtx comp expir s) {t : Nat} (ht : s.pc t = .pushSend) :
    ∃ s', Steps comp expir s s' ∧ s'.pc t = .idle ∧ ∃ u, (s.pc u).awaits = true ∧ s'.pc u = .popLock none := by
  have hn := h.lost.2
  have recvNone : ∀ {s : Sys T} {u c}, NoCtx s → (s.pc u).receiver = some c → c = none := by
    intro s u c hn hr
    cases c with
    | none => rfl
    | some k => exact absurd (by cases e : s.pc u <;> rw [e] at hr <;> simp [Pc.receiver] at hr <;> subst hr <;> rfl) (hn u k)
  have fin : ∀ {s : Sys T} {u}, NoCtx s → s.pc t = .pushSend → (s.pc u).receiver ≠ none → ∃ s', Steps comp expir s s' ∧ s'.pc t = .idle ∧ s'.pc u = .popLock none := by
    intro s u hn e hr
    obtain ⟨c, hc⟩ := Option.ne_none_iff_exists'.1 hr
    have hne : u ≠ t := by rintro rfl; rw [e] at hc; simp [Pc.receiver] at hc
    cases recvNone hn hc
    exact ⟨_, .one (.rendezvous s t u none e hc), by simp [Sys.goto, hne.symm], by simp [Sys.goto]⟩
  -- with the flag clear
  have low : ∀ {s : Sys T} {u}, NoCtx s → s.pc t = .pushSend → s.sleeping = false → (s.pc u).awaits = true →
      ∃ s', Steps comp expir s s' ∧ s'.pc t = .idle ∧ s'.pc u = .popLock none := by
    intro s u hn e hs hu
    rcases awaits_cases hu with hr | ⟨c, hc⟩
    · exact fin hn e hr
    · have hne : t ≠ u := by rintro rfl; rw [e] at hc; cases hc
      have hcn : c = none := by
        cases c with
        | none => rfl
        | some k => exact absurd (by rw [hc]; rfl) (hn u k)
      subst hcn
      have hn' : NoCtx (s.goto u (.popRecv none)) := by
        intro v k
        by_cases hv : v = u
        · simp [Sys.goto, hv, Pc.consumer]
        · simpa [Sys.goto, hv] using hn v k
      obtain ⟨s', p, q1, q2⟩ := fin (s := s.goto u (.popRecv none)) (u := u) hn' (by simp [Sys.goto, hne, e]) (by simp [Sys.goto, Pc.receiver])
      exact ⟨s', .step (.swapAwake s u none hc hs) p, q1, q2⟩
  obtain ⟨S, W, hS, hW, hc⟩ := h.minv
  have hSpos : 1 ≤ S.card := Finset.card_pos.2 ⟨t, (hS t).2 (by simp [ht, Pc.isSend])⟩
  obtain ⟨u, hu⟩ : W.Nonempty := Finset.card_pos.1 (by omega)
  have hu := (hW u).1 hu
  cases hs : s.sleeping with
  | false => obtain ⟨s', p, q1, q2⟩ := low hn ht hs hu; exact ⟨s', p, q1, u, hu, q2⟩
  | true =>
    rcases awaits_cases hu with hr | ⟨c, hcu⟩
    · obtain ⟨s', p, q1, q2⟩ := fin hn ht hr; exact ⟨s', p, q1, u, hu, q2⟩
    · have hcn : c = none := by
        cases c with
        | none => rfl
        | some k => exact absurd (by rw [hcu]; rfl) (hn u k)
      subst hcn
      have hne : t ≠ u := by rintro rfl; rw [ht] at hcu; cases hcu
      have st := Step.swapSleeping (comp := comp) (expir := expir) s u none hcu hs
      obtain ⟨v, hv, hvu⟩ : ∃ v ∈ W, v ≠ u := by
        rw [hs] at hc
        exact Finset.exists_mem_ne (by simp at hc; omega) u
      have hv := (hW v).1 hv
      have hn' : NoCtx (({ s with sleeping := false } : Sys T).goto u (.popLock none)) := by
        intro w k
        by_cases hw : w = u
        · simp [Sys.goto, hw, Pc.consumer]
        · simpa [Sys.goto, hw] using hn w k
      obtain ⟨s', p, q1, q2⟩ := low (s := ({ s with sleeping := false } : Sys T).goto u (.popLock none)) (u := v) hn' (by simp [Sys.goto, hne, ht]) rfl
        (by simpa [Sys.goto, hvu] using hv)
      exact ⟨s', .step st p, q1, v, hv, q2⟩

/-- C24 for any number of consumers calling Pop: if the sleeping flag is set when a Push that found its element at the head tests it, the
    Push wakes a waiting consumer and returns. -/
theorem wakeup_many (h : ReachNoCtx comp expir s) (hs : s.sleeping = true) {t : Nat} (ht : s.pc t = .pushCas) :
    ∃ s', Steps comp expir s s' ∧ s'.pc t = .idle ∧ ∃ u, (s.pc u).awaits = true ∧ s'.pc u = .popLock none := by
  have st := Step.casOk (comp := comp) (expir := expir) s t ht hs
  have hn : NoCtx (({ s with sleeping := false } : Sys T).goto t .pushSend) := by
    intro v k
    by_cases hv : v = t
    · simp [Sys.goto, hv, Pc.consumer]
    · simpa [Sys.goto, hv] using h.lost.2 v k
  obtain ⟨s', p, q1, u, q2, q3⟩ := push_returns_many (h.step st hn) (t := t) (by simp [Sys.goto])
  refine ⟨s', .step st p, q1, u, ?_, q3⟩
  by_cases hu : u = t
  · subst hu; simp [Sys.goto, Pc.awaits] at q2
  · simpa [Sys.goto, hu] using q2

/-! ### Consumers that nothing wakes -/

/-- Goroutine `t` is blocked in Pop, without a timer, the sleeping flag is clear, and nobody else consumes or hands over a wake-up. -/
def Deaf (s : Sys T) (t : Nat) : Prop := (s.pc t = .popWait none none ∨ s.pc t = .popRecv none) ∧ s.sleeping = false ∧
  ∀ u, u ≠ t → (s.pc u).consumer = none ∧ s.pc u ≠ .pushSend

/-- A step that brings no other goroutine into Pop or PopWithCtx leaves a deaf consumer where it is, and removes nothing. -/
theorem deaf_step {t : Nat} (h : Deaf s t) (st : Step comp expir s s') (hq : ∀ u, u ≠ t → (s'.pc u).consumer = none) :
    Deaf s' t ∧ s'.pc t = s.pc t ∧ s'.takes = s.takes ∧ s'.delivered = s.delivered := by
  obtain ⟨ha, hs, hb⟩ := h
  have go : ∀ {u : Nat} {p : Pc T} {s1 : Sys T}, s1.pc = s.pc → s1.sleeping = false → s1.takes = s.takes → s1.delivered = s.delivered →
      (∀ v, v ≠ t → ((s1.goto u p).pc v).consumer = none) → u ≠ t → p ≠ .pushSend →
      Deaf (s1.goto u p) t ∧ (s1.goto u p).pc t = s.pc t ∧ (s1.goto u p).takes = s.takes ∧ (s1.goto u p).delivered = s.delivered := by
    intro u p s1 h1 h2 h3 h4 h5 h6 h7
    have ht : (s1.goto u p).pc t = s.pc t := by simp [Sys.goto, h6.symm, h1]
    refine ⟨⟨by rw [ht]; exact ha, h2, fun v hv => ⟨h5 v hv, ?_⟩⟩, ht, h3, h4⟩
    by_cases hvu : v = u
    · simpa [Sys.goto, hvu] using h7
    · simpa [Sys.goto, hvu, h1] using (hb v hv).2
  have ne : ∀ {u : Nat} {p : Pc T}, s.pc u = p → p ≠ .popWait none none → p ≠ .popRecv none → u ≠ t := by
    rintro u p e h1 h2 rfl
    rcases ha with ha | ha <;> rw [ha] at e
    · exact h1 e.symm
    · exact h2 e.symm
  have noc : ∀ {u : Nat} {p : Pc T}, s.pc u = p → p ≠ .popWait none none → p ≠ .popRecv none → p.consumer ≠ none → False := by
    intro u p e h1 h2 h3
    exact h3 (by rw [← e]; exact (hb u (ne e h1 h2)).1)
  cases st with
  | tick d => exact ⟨⟨ha, hs, hb⟩, rfl, rfl, rfl⟩
  | setClock n _ => exact ⟨⟨ha, hs, hb⟩, rfl, rfl, rfl⟩
  | cancel k => exact ⟨⟨ha, hs, hb⟩, rfl, rfl, rfl⟩
  | casOk u e hf => rw [hs] at hf; simp at hf
  | rendezvous u v c e e' =>
    have hu : u ≠ t := ne e (by simp) (by simp)
    exact ((hb u hu).2 e).elim
  | startPop u c e =>
    have hu : u ≠ t := ne e (by simp) (by simp)
    have := hq u hu
    simp [Sys.goto, Pc.consumer] at this
  | startPush u x e => exact go rfl hs rfl rfl hq (ne e (by simp) (by simp)) (by simp)
  | pushLock u x e _ => exact go rfl hs rfl rfl hq (ne e (by simp) (by simp)) (by simp)
  | pushBody u x q d e _ _ => exact go rfl hs rfl rfl hq (ne e (by simp) (by simp)) (by simp)
  | pushUnlock u x d e => exact go rfl hs rfl rfl hq (ne e (by simp) (by simp)) (by simp)
  | pushSame u x d e _ => exact go rfl hs rfl rfl hq (ne e (by simp) (by simp)) (by simp)
  | pushOther u x d e _ => exact go rfl hs rfl rfl hq (ne e (by simp) (by simp)) (by simp)
  | casFail u e _ => exact go rfl hs rfl rfl hq (ne e (by simp) (by simp)) (by simp)
  | startPoll u e => exact go rfl hs rfl rfl hq (ne e (by simp) (by simp)) (by simp)
  | pollLock u e _ => exact go rfl hs rfl rfl hq (ne e (by simp) (by simp)) (by simp)
  | pollEmpty u e _ => exact go rfl hs rfl rfl hq (ne e (by simp) (by simp)) (by simp)
  | pollUndue u d e _ _ => exact go rfl hs rfl rfl hq (ne e (by simp) (by simp)) (by simp)
  | pollDue u d e _ _ => exact go rfl hs rfl rfl hq (ne e (by simp) (by simp)) (by simp)
  | pollUnlock u v ok e => exact go rfl hs rfl rfl hq (ne e (by simp) (by simp)) (by simp)
  | _ => exact (noc (by assumption) (by simp) (by simp) (by simp [Pc.consumer])).elim

/-- Steps during which no goroutine but `t` is in Pop or PopWithCtx. -/
inductive StepsAlone (comp : Compare T) (expir : T → Int) (t : Nat) : Sys T → Sys T → Prop where
  | refl (s : Sys T) : StepsAlone comp expir t s s
  | step {s s' s'' : Sys T} : Step comp expir s s' → (∀ u, u ≠ t → (s'.pc u).consumer = none) → StepsAlone comp expir t s' s'' → StepsAlone comp expir t s s''

/-- A deaf consumer stays blocked, whatever is pushed, however long it waits: nothing is removed until another goroutine calls Pop or
    PopWithCtx. -/
theorem deaf_for_ever {t : Nat} (h : Deaf s t) (st : StepsAlone comp expir t s s') :
    s'.pc t = s.pc t ∧ s'.takes = s.takes ∧ s'.delivered = s.delivered := by
  induction st with
  | refl => exact ⟨rfl, rfl, rfl⟩
  | step st hq _ ih =>
    obtain ⟨a, b, c, d⟩ := deaf_step h st hq
    obtain ⟨b', c', d'⟩ := ih a
    exact ⟨b'.trans b, c'.trans c, d'.trans d⟩

theorem NoCtx.goto (h : NoCtx s) (t : Nat) {p : Pc T} (hp : ∀ k, p.consumer ≠ some (some k)) : NoCtx (s.goto t p) := by
  intro v k
  by_cases hv : v = t
  · simpa [Sys.goto, hv] using hp k
  · simpa [Sys.goto, hv] using h v k

theorem peek_empty (h : Reach comp expir s) (hs : s.stored = []) : PQ.peek s.pq = .ok none := by
  obtain ⟨r, hr⟩ := peek_total h.inv.pq
  cases r with
  | none => exact hr
  | some d =>
    have := (peek_some h.inv.pq hr).2.2.1
    have : d.1 ∈ s.stored := List.mem_map_of_mem this
    rw [hs] at this; simp at this

/-- Goroutine `t` calls Pop on an empty queue and goes to sleep. -/
theorem sleep_run (h : ReachNoCtx comp expir s) (t : Nat) (h0 : s.pc t = .idle) (hl : s.locked = false) (he : s.stored = []) :
    ReachNoCtx comp expir (({ s with sleeping := true } : Sys T).goto t (.popWait none none)) := by
  have self : ∀ (s : Sys T) (p : Pc T), (s.goto t p).pc t = p := fun s p => by simp [Sys.goto]
  have n0 := h.lost.2
  have r1 := h.step (.startPop s t none h0) (n0.goto t (by simp [Pc.consumer]))
  have r2 := r1.step (.popLock _ t none (self _ _) hl) (r1.lost.2.goto t (by simp [Pc.consumer]))
  have r3 := r2.step (.popEmpty _ t none (self _ _) (peek_empty r2.reach he)) (r2.lost.2.goto t (by simp [Pc.consumer]))
  have r4 := r3.step (.popUnlockEmpty _ t none (self _ _)) (r3.lost.2.goto t (by simp [Pc.consumer]))
  have r5 := r4.step (.popStore _ t none none (self _ _)) (r4.lost.2.goto t (by simp [Pc.consumer]))
  convert r5 using 1
  simp only [Sys.goto]
  congr 1
  funext u; by_cases hu : u = t <;> simp [hu]

/-- Two consumers call Pop on an empty queue and go to sleep; then an element that is due is pushed, and delivered to one of them.  All
    calls but the two Pops have come and gone one after the other; the remaining consumer is deaf from now on. -/
theorem two_consumers_refuted (x : T) (hx : comp x x = 0) (n : Int) (hn : expir x ≤ n) :
    ∃ s : Sys T, ReachNoCtx comp expir s ∧ s.skewed = false ∧ Deaf s 0 ∧ (∀ u, u ≠ 0 → s.pc u = .idle) ∧ s.locked = false ∧
      s.stored = [] ∧ s.pushed = [x] ∧ s.delivered = [(1, x)] ∧ s.clock = n := by
  obtain ⟨s, -, -, h, hk, h1, h2, h3, h4, h5, h6, h7, h8, h9⟩ := fresh (comp := comp) (expir := expir) x n (fun _ => true)
  have self : ∀ (s : Sys T) (t : Nat) (p : Pc T), (s.goto t p).pc t = p := fun s t p => by simp [Sys.goto]
  have a0 := sleep_run h 0 (h1 0) h2 h4
  have a1 := sleep_run a0 1 (by simp [Sys.goto, h1]) h2 h4
  obtain ⟨q, e1, hI, hs, hperm⟩ := PQ.push_spec ecmp_lawful s.pq (x, expir x) h.reach.inv.pq
  have hel : q.elems = [(x, expir x)] := by
    have : s.pq.elems = [] := by simpa [Sys.stored] using h4
    rw [this] at hperm; exact List.perm_singleton.1 hperm
  have hpk : PQ.peek q = .ok (some (x, expir x)) := by
    have h1 : 0 < q.size := by omega
    have h2 := peek_pos hI h1
    have h3 := (peek_some hI h2).2.2.1
    rw [hel] at h3
    rw [h2, List.mem_singleton.1 h3]
  obtain ⟨q', e2, -, hsz, hperm'⟩ := PQ.pop_spec ecmp_lawful q hI (by omega)
  have hq' : q'.elems = [] := by
    have h1 : q.elems.length = 1 := by rw [hel]; rfl
    have := hperm'.length_eq
    rw [h1] at this
    exact List.length_eq_zero_iff.1 (by simpa using this.symm)
  have b1 := a1.step (.startPush _ 2 x (by simp [Sys.goto, h1])) (a1.lost.2.goto 2 (by simp [Pc.consumer]))
  have b2 := b1.step (.pushLock _ 2 x (self _ _ _) h2) (b1.lost.2.goto 2 (by simp [Pc.consumer]))
  have b3 := b2.step (.pushBody _ 2 x q (x, expir x) (self _ _ _) e1 hpk) (b2.lost.2.goto 2 (by simp [Pc.consumer]))
  have b4 := b3.step (.pushUnlock _ 2 x x (self _ _ _)) (b3.lost.2.goto 2 (by simp [Pc.consumer]))
  have b5 := b4.step (.pushSame _ 2 x x (self _ _ _) hx) (b4.lost.2.goto 2 (by simp [Pc.consumer]))
  have b6 := b5.step (.casOk _ 2 (self _ _ _) rfl) (b5.lost.2.goto 2 (by simp [Pc.consumer]))
  have b7 := b6.step (.rendezvous _ 2 1 none (self _ _ _) (by simp [Sys.goto, Pc.receiver]))
    ((b6.lost.2.goto 2 (by simp [Pc.consumer])).goto 1 (by simp [Pc.consumer]))
  have b8 := b7.step (.popLock _ 1 none (self _ _ _) rfl) (b7.lost.2.goto 1 (by simp [Pc.consumer]))
  have b9 := b8.step (.popDue _ 1 none (x, expir x) _ q' (self _ _ _) hpk (by show ¬ expir x > s.clock; omega) e2) (b8.lost.2.goto 1 (by simp [Pc.consumer]))
  have b10 := b9.step (.popUnlockDue _ 1 none x (self _ _ _)) (b9.lost.2.goto 1 (by simp [Pc.consumer]))
  have b11 := b10.step (.gotPop _ 1 x (self _ _ _)) (b10.lost.2.goto 1 (by simp [Pc.consumer]))
  refine ⟨_, b11, hk, ⟨.inl (by simp [Sys.goto]), rfl, ?_⟩, ?_, rfl, ?_, ?_, ?_, h5⟩
  · intro u hu
    by_cases hu1 : u = 1
    · simp [Sys.goto, hu1, Pc.consumer]
    by_cases hu2 : u = 2
    · simp [Sys.goto, hu2, Pc.consumer]
    simp [Sys.goto, hu, hu1, hu2, h1, Pc.consumer]
  · intro u hu
    by_cases hu1 : u = 1
    · simp [Sys.goto, hu1]
    by_cases hu2 : u = 2
    · simp [Sys.goto, hu2]
    simp [Sys.goto, hu, hu1, hu2, h1]
  · show q'.elems.map (·.1) = []; rw [hq']; rfl
  · show s.pushed ++ [x] = [x]; rw [h7]; rfl
  · show s.delivered ++ [(1, x)] = [(1, x)]; rw [h9]; rfl

/-- Then a second element is pushed: it is due, a consumer waits in Pop, nobody else is in a call, and nobody is woken. -/
theorem two_consumers_stranded (x y : T) (hx : comp x x = 0) (hy : comp y y = 0) (n : Int) (hn : expir x ≤ n) (hn' : expir y ≤ n) :
    ∃ s : Sys T, Reach comp expir s ∧ s.skewed = false ∧ Deaf s 0 ∧ (∀ u, u ≠ 0 → s.pc u = .idle) ∧ s.stored = [y] ∧ expir y ≤ s.clock ∧
      s.pushed = [x, y] ∧ s.delivered = [(1, x)] := by
  obtain ⟨s, h, hk, hd, hi, hl, he, hp, hdl, hc⟩ := two_consumers_refuted (comp := comp) (expir := expir) x hx n hn
  obtain ⟨s', p, q1, q2, q3, q4, q5, q6, q7, q8, q9⟩ := push_run h.reach 1 y hy (hi 1 (by decide)) hl hd.2.1 he
  refine ⟨s', h.reach.steps p, by rw [p.skewed, hk], ⟨by rw [q1]; exact hd.1, q3, fun u hu => by rw [q1]; exact hd.2.2 u hu⟩,
    fun u hu => by rw [q1]; exact hi u hu, q4, by rw [q5, hc]; exact hn', by rw [q7, hp]; rfl, by rw [q9, hdl]⟩

/-- The same without any Push after the start: two consumers wait for one element that is not due yet.  When it is due both timers fire,
    one consumer takes the element, and the other waits for a wake-up that nobody will send. -/
theorem two_timers_refuted (x : T) (hx : comp x x = 0) :
    ∃ s : Sys T, Reach comp expir s ∧ s.skewed = false ∧ Deaf s 0 ∧ (∀ u, u ≠ 0 → s.pc u = .idle) ∧ s.stored = [] ∧ s.pushed = [x] ∧
      s.delivered = [(1, x)] := by
  obtain ⟨s, h, hk, h1, h2, h3, h4, h5, h6, h7, h8, h9⟩ := one_stored (comp := comp) (expir := expir) x hx (expir x - 1) (fun _ => true)
  have self : ∀ (s : Sys T) (t : Nat) (p : Pc T), (s.goto t p).pc t = p := fun s t p => by simp [Sys.goto]
  have hpk := peek_one h h4
  have hpos := (peek_some h.inv.pq hpk).1
  obtain ⟨q, e1, -, hsz, hperm⟩ := PQ.pop_spec ecmp_lawful s.pq h.inv.pq hpos
  have hq : q.elems = [] := by
    have h1 : s.pq.elems.length = 1 := by
      have : (s.stored).length = 1 := by rw [h4]; rfl
      simpa [Sys.stored] using this
    have := hperm.length_eq
    rw [h1] at this
    exact List.length_eq_zero_iff.1 (by simpa using this.symm)
  have hlt : expir x > s.clock := by omega
  have a1 := ((((h.step (.startPop s 0 none (h1 0))).step (.popLock _ 0 none (self _ _ _) h2)).step (.popUndue _ 0 none (x, expir x) (self _ _ _) hpk hlt)).step
    (.popUnlockUndue _ 0 none (expir x) (self _ _ _))).step (.popStore _ 0 none (some (expir x)) (self _ _ _))
  have a2 := ((((a1.step (.startPop _ 1 none (by simp [Sys.goto, h1]))).step (.popLock _ 1 none (self _ _ _) rfl)).step
    (.popUndue _ 1 none (x, expir x) (self _ _ _) hpk hlt)).step (.popUnlockUndue _ 1 none (expir x) (self _ _ _))).step
    (.popStore _ 1 none (some (expir x)) (self _ _ _))
  obtain ⟨s3, a3, g1, g2, g3, g4, g5, g6, g7, g8, g9, g10⟩ : ∃ s3, Reach comp expir s3 ∧ s3.pq = s.pq ∧ s3.clock = expir x ∧ s3.locked = false ∧
      s3.sleeping = true ∧ s3.pc 0 = .popWait none (some (expir x)) ∧ s3.pc 1 = .popWait none (some (expir x)) ∧
      (∀ u, u ≠ 0 → u ≠ 1 → s3.pc u = .idle) ∧ s3.pushed = [x] ∧ s3.delivered = [] ∧ s3.skewed = false := by
    refine ⟨_, a2.step (.tick _ 1), rfl, by show s.clock + (1 : Nat) = expir x; omega, rfl, rfl, by simp [Sys.goto], by simp [Sys.goto], ?_, h7, h9, hk⟩
    intro u h0 h1'
    simp [Sys.goto, h0, h1', h1]
  clear a1 a2
  rw [← g1] at hpk e1
  have a4 := (a3.step (.popTimer _ 1 none (expir x) g6 g2.ge)).step (.swapSleeping _ 1 none (self _ _ _) g4)
  have a5 := ((a4.step (.popLock _ 1 none (self _ _ _) g3)).step (.popDue _ 1 none (x, expir x) _ q (self _ _ _) hpk
    (by show ¬ expir x > s3.clock; omega) e1)).step (.popUnlockDue _ 1 none x (self _ _ _))
  have a6 := a5.step (.gotPop _ 1 x (self _ _ _))
  have a7 := (a6.step (.popTimer _ 0 none (expir x) (by simp [Sys.goto, g5]) g2.ge)).step
    (.swapAwake _ 0 none (self _ _ _) rfl)
  refine ⟨_, a7, g10, ⟨.inr (by simp [Sys.goto]), rfl, ?_⟩, ?_, ?_, g8, ?_⟩
  · intro u hu
    by_cases hu1 : u = 1
    · simp [Sys.goto, hu1, Pc.consumer]
    simp [Sys.goto, hu, hu1, g7 u hu hu1, Pc.consumer]
  · intro u hu
    by_cases hu1 : u = 1
    · simp [Sys.goto, hu1]
    simp [Sys.goto, hu, hu1, g7 u hu hu1]
  · show q.elems.map (·.1) = []; rw [hq]; rfl
  · show s3.delivered ++ [(1, x)] = [(1, x)]; rw [g9]; rfl

/-- The hypotheses of `wakeup_many` and `push_returns_many` are met: two consumers are asleep and a Push is about to test the flag. -/
example (x : T) (hx : comp x x = 0) : ∃ s : Sys T, ReachNoCtx comp expir s ∧ s.sleeping = true ∧ s.pc 2 = .pushCas ∧ s.pc 0 = .popWait none none ∧
    s.pc 1 = .popWait none none := by
  obtain ⟨s, -, -, h, hk, h1, h2, h3, h4, h5, h6, h7, h8, h9⟩ := fresh (comp := comp) (expir := expir) x 0 (fun _ => true)
  have self : ∀ (s : Sys T) (t : Nat) (p : Pc T), (s.goto t p).pc t = p := fun s t p => by simp [Sys.goto]
  have a1 := sleep_run (sleep_run h 0 (h1 0) h2 h4) 1 (by simp [Sys.goto, h1]) h2 h4
  obtain ⟨q, e1, hI, hs, hperm⟩ := PQ.push_spec ecmp_lawful s.pq (x, expir x) h.reach.inv.pq
  have hel : q.elems = [(x, expir x)] := by
    have : s.pq.elems = [] := by simpa [Sys.stored] using h4
    rw [this] at hperm; exact List.perm_singleton.1 hperm
  have hpk : PQ.peek q = .ok (some (x, expir x)) := by
    have h2 := peek_pos hI (by omega)
    have h3 := (peek_some hI h2).2.2.1
    rw [hel] at h3
    rw [h2, List.mem_singleton.1 h3]
  have b1 := a1.step (.startPush _ 2 x (by simp [Sys.goto, h1])) (a1.lost.2.goto 2 (by simp [Pc.consumer]))
  have b2 := b1.step (.pushLock _ 2 x (self _ _ _) h2) (b1.lost.2.goto 2 (by simp [Pc.consumer]))
  have b3 := b2.step (.pushBody _ 2 x q (x, expir x) (self _ _ _) e1 hpk) (b2.lost.2.goto 2 (by simp [Pc.consumer]))
  have b4 := b3.step (.pushUnlock _ 2 x x (self _ _ _)) (b3.lost.2.goto 2 (by simp [Pc.consumer]))
  have b5 := b4.step (.pushSame _ 2 x x (self _ _ _) hx) (b4.lost.2.goto 2 (by simp [Pc.consumer]))
  exact ⟨_, b5, rfl, self _ _ _, by simp [Sys.goto], by simp [Sys.goto]⟩

end Gds.DelayQueue
