import Verif.DelayQueue.Model

namespace Gds.DelayQueue

variable {T : Type}

theorem ecmp_lawful : (ecmp : Compare (T × Int)).Lawful := by
  constructor
  · intro a b; unfold ecmp; grind
  · intro a b c; unfold ecmp; grind

theorem ecmp_le {a b : T × Int} (h : ecmp a b ≤ 0) : a.2 ≤ b.2 := by
  unfold ecmp at h; grind

/-- An element a Pop call has removed and not returned yet. -/
def held : Pc T → List T
  | .popUnlock _ (.due x) => [x]
  | .popGot _ x => [x]
  | _ => []

/-- What goroutine `t` has removed. -/
def Sys.takesOf (s : Sys T) (t : Nat) : List T := (s.takes.filter (fun k => k.tid = t)).map (·.elem)

/-- The entries of goroutine `t` in a log. -/
def ofT (t : Nat) (l : List (Nat × T)) : List T := (l.filter (fun k => k.1 = t)).map (·.2)

/-- What `Poll` answers. -/
def PollOk (expir : T → Int) (p : PollRec T) : Prop :=
  (p.stored = [] ∧ p.val = none ∧ p.ok = false) ∨
  (∃ x ∈ p.stored, (∀ y ∈ p.stored, expir x ≤ expir y) ∧
    ((sub64 (expir x) p.now > 0 ∧ p.val = none ∧ p.ok = true) ∨ (¬ sub64 (expir x) p.now > 0 ∧ p.val = some x ∧ p.ok = true)))

/-- For a clock after 1970 the wrapped difference is positive iff the expiration is in the future, or so far in the past that it wraps around. -/
theorem sub64_pos {a b : Int} (ha : -2 ^ 63 ≤ a) (ha' : a < 2 ^ 63) (hb : 0 ≤ b) (hb' : b < 2 ^ 63) : sub64 a b > 0 ↔ b < a ∨ a < b - 2 ^ 63 := by
  unfold sub64
  rw [BitVec.toInt_ofInt, Int.bmod_def]
  omega

structure Inv (expir : T → Int) (s : Sys T) : Prop where
  pq : PQ.Inv ecmp s.pq
  exp : ∀ e ∈ s.pq.elems, e.2 = expir e.1
  bal : s.pushed.Perm (s.stored ++ s.takes.map (·.elem))
  thr : ∀ t, (s.takesOf t).Perm (ofT t s.delivered ++ ofT t s.lost ++ held (s.pc t))
  take : ∀ k ∈ s.takes, expir k.elem ≤ k.now ∧ (s.skewed = false → k.now ≤ s.clock) ∧ k.elem ∈ k.stored ∧ ∀ y ∈ k.stored, expir k.elem ≤ expir y
  poll : ∀ p ∈ s.polls, PollOk expir p

theorem peek_some {q : PQ.Queue (T × Int)} {d : T × Int} (h : PQ.Inv ecmp q) (hp : PQ.peek q = .ok (some d)) :
    0 < q.size ∧ d = q.cell 0 ∧ d ∈ q.elems ∧ ∀ e ∈ q.elems, d.2 ≤ e.2 := by
  unfold PQ.peek at hp
  by_cases h0 : q.size > 0
  · have hg : q.get 0 = .ok (q.cell 0) := by simp only [PQ.Queue.get]; rw [if_pos (by have := h.fits; omega)]
    simp only [if_pos h0, hg, Res.bind_ok, Res.pure_eq, Res.ok.injEq, Option.some.injEq] at hp
    subst hp
    refine ⟨h0, rfl, ?_, fun e he => ecmp_le (PQ.root_min ecmp_lawful q h e he)⟩
    simp only [PQ.Queue.elems, List.mem_map, List.mem_range]; exact ⟨0, h0, rfl⟩
  · simp [if_neg h0] at hp

theorem peek_none {q : PQ.Queue (T × Int)} (h : PQ.Inv ecmp q) (hp : PQ.peek q = .ok none) : q.size = 0 := by
  unfold PQ.peek at hp
  by_cases h0 : q.size > 0
  · have hg : q.get 0 = .ok (q.cell 0) := by simp only [PQ.Queue.get]; rw [if_pos (by have := h.fits; omega)]
    simp [if_pos h0, hg] at hp
  · omega

theorem peek_total {q : PQ.Queue (T × Int)} (h : PQ.Inv ecmp q) : ∃ r, PQ.peek q = .ok r := by
  unfold PQ.peek
  by_cases h0 : q.size > 0
  · have hg : q.get 0 = .ok (q.cell 0) := by simp only [PQ.Queue.get]; rw [if_pos (by have := h.fits; omega)]
    exact ⟨_, by rw [if_pos h0, hg]; rfl⟩
  · exact ⟨none, by rw [if_neg h0]; rfl⟩

theorem peek_pos {q : PQ.Queue (T × Int)} (h : PQ.Inv ecmp q) (hp : 0 < q.size) : PQ.peek q = .ok (some (q.cell 0)) := by
  unfold PQ.peek
  have hg : q.get 0 = .ok (q.cell 0) := by simp only [PQ.Queue.get]; rw [if_pos (by have := h.fits; omega)]
  rw [if_pos hp, hg]; rfl

section
variable {expir : T → Int} {s : Sys T}

theorem Inv.goto (h : Inv expir s) (t : Nat) (p : Pc T) (hh : held p = held (s.pc t)) : Inv expir (s.goto t p) := by
  refine ⟨h.pq, h.exp, h.bal, ?_, h.take, h.poll⟩
  intro u
  have := h.thr u
  by_cases hu : u = t
  · subst hu
    show (s.takesOf u).Perm (ofT u s.delivered ++ ofT u s.lost ++ held (if u = u then p else s.pc u))
    rw [if_pos rfl, hh]; exact this
  · show (s.takesOf u).Perm (ofT u s.delivered ++ ofT u s.lost ++ held (if u = t then p else s.pc u))
    rw [if_neg hu]; exact this

theorem Inv.lock (h : Inv expir s) (b : Bool) : Inv expir { s with locked := b } := ⟨h.pq, h.exp, h.bal, h.thr, h.take, h.poll⟩
theorem Inv.sleep (h : Inv expir s) (b : Bool) : Inv expir { s with sleeping := b } := ⟨h.pq, h.exp, h.bal, h.thr, h.take, h.poll⟩

theorem Inv.polled (h : Inv expir s) (p : PollRec T) (hp : PollOk expir p) : Inv expir { s with polls := s.polls ++ [p] } := by
  refine ⟨h.pq, h.exp, h.bal, h.thr, h.take, ?_⟩
  intro k hk
  rcases List.mem_append.1 hk with hk | hk
  · exact h.poll k hk
  · rw [List.mem_singleton.1 hk]; exact hp

theorem ofT_snoc (t u : Nat) (x : T) (l : List (Nat × T)) : ofT t (l ++ [(u, x)]) = ofT t l ++ if u = t then [x] else [] := by
  unfold ofT; by_cases h : u = t <;> simp [h, List.filter_append]

theorem stored_mem {x : T} (h : x ∈ s.stored) : ∃ e ∈ s.pq.elems, e.1 = x := by
  simpa [Sys.stored] using h

theorem Inv.step {comp : Compare T} {s' : Sys T} (h : Inv expir s) (st : Step comp expir s s') : Inv expir s' := by
  have idle : ∀ {t : Nat} {p q : Pc T}, s.pc t = p → held q = held p → held q = held (s.pc t) := by
    intro t p q e hq; rw [e]; exact hq
  cases st with
  | startPush t x e => exact h.goto t _ (idle e rfl)
  | pushLock t x e hl => exact (h.lock true).goto t _ (idle e rfl)
  | pushBody t x q d e hp hk =>
    obtain ⟨q', e1, hI, -, hperm⟩ := PQ.push_spec ecmp_lawful s.pq (x, expir x) h.pq
    rw [hp] at e1; cases e1
    refine Inv.goto (s := { s with pq := q, pushed := s.pushed ++ [x] }) ⟨hI, ?_, ?_, h.thr, h.take, h.poll⟩ t _ (idle e rfl)
    · intro y hy
      rcases List.mem_cons.1 (hperm.mem_iff.1 hy) with rfl | hy
      · rfl
      · exact h.exp y hy
    · have h1 : (q.elems.map (·.1)).Perm (x :: s.stored) := by simpa [Sys.stored] using hperm.map (·.1)
      show (s.pushed ++ [x]).Perm (q.elems.map (·.1) ++ _)
      refine (List.perm_append_singleton _ _).trans ?_
      exact ((h.bal.cons x).trans (List.Perm.append_right _ h1.symm))
  | pushUnlock t x d e => exact (h.lock false).goto t _ (idle e rfl)
  | pushSame t x d e _ => exact h.goto t _ (idle e rfl)
  | pushOther t x d e _ => exact h.goto t _ (idle e rfl)
  | casOk t e _ => exact (h.sleep false).goto t _ (idle e rfl)
  | casFail t e _ => exact h.goto t _ (idle e rfl)
  | rendezvous t u c e e' =>
    have h1 := h.goto t .idle (idle e rfl)
    refine h1.goto u _ ?_
    have hne : u ≠ t := by rintro rfl; rw [e] at e'; simp [Pc.receiver] at e'
    show held (.popLock c) = held (if u = t then .idle else s.pc u)
    rw [if_neg hne]
    cases hc : s.pc u <;> rw [hc] at e' <;> simp [Pc.receiver] at e' <;> rfl
  | startPop t c e => exact h.goto t _ (idle e rfl)
  | popLock t c e _ => exact (h.lock true).goto t _ (idle e rfl)
  | popEmpty t c e _ => exact h.goto t _ (idle e rfl)
  | popUndue t c d e _ _ => exact h.goto t _ (idle e rfl)
  | popDue t c d r q e hk hd hp =>
    obtain ⟨h0, hd0, hmem, hmin⟩ := peek_some h.pq hk
    obtain ⟨q', e1, hI, -, hperm⟩ := PQ.pop_spec ecmp_lawful s.pq h.pq h0
    rw [hp] at e1
    simp only [Res.ok.injEq, Prod.mk.injEq] at e1
    obtain ⟨-, rfl⟩ := e1
    rw [← hd0] at hperm
    have hst : s.stored.Perm (d.1 :: q.elems.map (·.1)) := by simpa [Sys.stored] using hperm.map (·.1)
    have hde : d.2 = expir d.1 := h.exp d hmem
    refine ⟨hI, ?_, ?_, ?_, ?_, h.poll⟩
    · intro y hy; exact h.exp y (hperm.mem_iff.2 (List.mem_cons_of_mem _ hy))
    · show s.pushed.Perm (q.elems.map (·.1) ++ (s.takes ++ [_]).map Take.elem)
      rw [List.map_append]
      refine h.bal.trans ?_
      refine (hst.append_right _).trans ?_
      rw [List.map_singleton, ← List.append_assoc]
      exact (List.perm_append_singleton _ _).symm
    · intro u
      show (((s.takes ++ [_]).filter (fun k : Take T => decide (k.tid = u))).map Take.elem).Perm
        (ofT u s.delivered ++ ofT u s.lost ++ held (if u = t then _ else s.pc u))
      have := h.thr u
      rw [List.filter_append, List.map_append]
      by_cases hu : u = t
      · subst hu
        rw [e] at this
        simp only [if_true, held, List.append_nil] at this ⊢
        simpa [Sys.takesOf] using this.append_right [d.1]
      · have hu' : ¬ t = u := fun h => hu h.symm
        simp only [if_neg hu]
        simpa [Sys.takesOf, hu'] using this
    · intro k hk
      rcases List.mem_append.1 hk with hk | hk
      · exact h.take k hk
      · rw [List.mem_singleton.1 hk]
        refine ⟨by simp only; omega, fun _ => Int.le_refl _, hst.mem_iff.2 (by simp), ?_⟩
        intro y hy
        obtain ⟨z, hz, rfl⟩ := stored_mem hy
        have := hmin z hz
        rw [h.exp z hz] at this
        simp only; omega
  | popUnlockDue t c x e => exact (h.lock false).goto t _ (idle e rfl)
  | popUnlockEmpty t c e => exact (h.lock false).goto t _ (idle e rfl)
  | popUnlockUndue t c d e => exact (h.lock false).goto t _ (idle e rfl)
  | popStore t c o e => exact (h.sleep true).goto t _ (idle e rfl)
  | popTimer t c o e _ => exact h.goto t _ (idle e rfl)
  | popTimerEarly t c o e _ => exact h.goto t _ (idle e rfl)
  | popCancel t k o e _ => exact h.goto t _ (idle e rfl)
  | swapSleeping t c e _ => exact (h.sleep false).goto t _ (idle e rfl)
  | swapAwake t c e _ => exact h.goto t _ (idle e rfl)
  | gotPop t x e =>
    refine ⟨h.pq, h.exp, h.bal, ?_, h.take, h.poll⟩
    intro u
    show (s.takesOf u).Perm (ofT u (s.delivered ++ [(t, x)]) ++ ofT u s.lost ++ held (if u = t then _ else s.pc u))
    have := h.thr u
    rw [ofT_snoc]
    by_cases hu : u = t
    · subst hu
      rw [e] at this
      simp only [if_true, held, List.append_nil] at this ⊢
      refine this.trans ?_
      rw [List.append_assoc, List.append_assoc]
      exact List.Perm.append_left _ List.perm_append_comm
    · have hu' : ¬ t = u := fun h => hu h.symm
      simpa [hu, hu'] using this
  | gotCtx t k x e _ =>
    refine ⟨h.pq, h.exp, h.bal, ?_, h.take, h.poll⟩
    intro u
    show (s.takesOf u).Perm (ofT u (s.delivered ++ [(t, x)]) ++ ofT u s.lost ++ held (if u = t then _ else s.pc u))
    have := h.thr u
    rw [ofT_snoc]
    by_cases hu : u = t
    · subst hu
      rw [e] at this
      simp only [if_true, held, List.append_nil] at this ⊢
      refine this.trans ?_
      rw [List.append_assoc, List.append_assoc]
      exact List.Perm.append_left _ List.perm_append_comm
    · have hu' : ¬ t = u := fun h => hu h.symm
      simpa [hu, hu'] using this
  | gotCancelled t k x e _ =>
    refine ⟨h.pq, h.exp, h.bal, ?_, h.take, h.poll⟩
    intro u
    show (s.takesOf u).Perm (ofT u s.delivered ++ ofT u (s.lost ++ [(t, x)]) ++ held (if u = t then _ else s.pc u))
    have := h.thr u
    rw [ofT_snoc]
    by_cases hu : u = t
    · subst hu
      rw [e] at this
      simp only [if_true, held, List.append_nil] at this ⊢
      simpa [List.append_assoc] using this
    · have hu' : ¬ t = u := fun h => hu h.symm
      simpa [hu, hu'] using this
  | popExit t c e => exact (h.sleep false).goto t _ (idle e rfl)
  | startPoll t e => exact h.goto t _ (idle e rfl)
  | pollLock t e _ => exact (h.lock true).goto t _ (idle e rfl)
  | pollEmpty t e hk =>
    refine (h.polled _ (.inl ⟨?_, rfl, rfl⟩)).goto t _ (idle e rfl)
    have := peek_none h.pq hk
    simp [Sys.stored, PQ.elems_nil _ this]
  | pollUndue t d e hk hd =>
    obtain ⟨h0, hd0, hmem, hmin⟩ := peek_some h.pq hk
    have hde : d.2 = expir d.1 := h.exp d hmem
    refine (h.polled _ (.inr ⟨d.1, List.mem_map_of_mem hmem, ?_, .inl ⟨by rw [← hde]; exact hd, rfl, rfl⟩⟩)).goto t _ (idle e rfl)
    intro y hy
    obtain ⟨z, hz, rfl⟩ := stored_mem hy
    have := hmin z hz
    rw [h.exp z hz] at this
    omega
  | pollDue t d e hk hd =>
    obtain ⟨h0, hd0, hmem, hmin⟩ := peek_some h.pq hk
    have hde : d.2 = expir d.1 := h.exp d hmem
    refine (h.polled _ (.inr ⟨d.1, List.mem_map_of_mem hmem, ?_, .inr ⟨by rw [← hde]; exact hd, rfl, rfl⟩⟩)).goto t _ (idle e rfl)
    intro y hy
    obtain ⟨z, hz, rfl⟩ := stored_mem hy
    have := hmin z hz
    rw [h.exp z hz] at this
    omega
  | pollUnlock t v ok e => exact (h.lock false).goto t _ (idle e rfl)
  | tick d =>
    refine ⟨h.pq, h.exp, h.bal, h.thr, ?_, h.poll⟩
    intro k hk
    have := h.take k hk
    refine ⟨this.1, fun hs => ?_, this.2.2⟩
    have := this.2.1 hs
    simp only; omega
  | setClock n hs =>
    refine ⟨h.pq, h.exp, h.bal, h.thr, ?_, h.poll⟩
    intro k hk
    have := h.take k hk
    exact ⟨this.1, fun hf => by rw [show s.skewed = false from hf] at hs; simp at hs, this.2.2⟩
  | cancel k => exact ⟨h.pq, h.exp, h.bal, h.thr, h.take, h.poll⟩

theorem new_inv (z : T × Int) (size : Int) {pq : PQ.Queue (T × Int)} (h : PQ.new z [size] = .ok pq) :
    PQ.Inv ecmp pq ∧ pq.elems = [] ∧ pq.size = 0 := by
  obtain ⟨q, e, h1, h2, h3⟩ := PQ.new_sized_partial z size []
  rw [h] at e; cases e
  have h0 : pq.size = 0 := h2
  exact ⟨⟨by omega, fun k h1 h2 => by omega⟩, h1, h0⟩

theorem Reach.inv {comp : Compare T} {s : Sys T} (h : Reach comp expir s) : Inv expir s := by
  induction h with
  | init z size pq clock skewed done e =>
    obtain ⟨h1, h2, -⟩ := new_inv z size e
    refine ⟨h1, ?_, ?_, ?_, by simp [Sys.init], by simp [Sys.init]⟩
    · intro y hy; simp only [Sys.init] at hy; rw [h2] at hy; simp at hy
    · simp [Sys.init, Sys.stored, h2]
    · intro t; simp [Sys.init, Sys.takesOf, ofT, held]
  | step _ st ih => exact ih.step st

end

/-! ### One consumer -/

/-- The goroutine is inside Pop or PopWithCtx; with the context. -/
def Pc.consumer : Pc T → Option (Option Nat)
  | .popLock c | .popBody c | .popUnlock c _ | .popStore c _ | .popWait c _ | .popSwap c | .popRecv c | .popGot c _ | .popExit c => some c
  | _ => none

/-- Only goroutine 0 consumes, and only with `Pop`. -/
def Solo (s : Sys T) : Prop := ∀ t c, (s.pc t).consumer = some c → t = 0 ∧ c = none

/-- Reachable with a single consumer calling `Pop` all along; any number of goroutines push and poll. -/
inductive ReachSolo (comp : Compare T) (expir : T → Int) : Sys T → Prop where
  | init (z : T × Int) (size : Int) (pq clock skewed done) : PQ.new z [size] = .ok pq → ReachSolo comp expir (Sys.init pq clock skewed done)
  | step {s s'} : ReachSolo comp expir s → Step comp expir s s' → Solo s' → ReachSolo comp expir s'

def Pc.isWait : Pc T → Bool
  | .popWait _ _ | .popSwap _ => true
  | _ => false
def Pc.isRecv : Pc T → Bool
  | .popRecv _ => true
  | _ => false
def Pc.isSend : Pc T → Bool
  | .pushSend => true
  | _ => false

structure SInv (s : Sys T) : Prop where
  a : s.sleeping = true → (s.pc 0).isWait = true
  b : ∀ t, (s.pc t).isSend = true → s.sleeping = false ∧ ((s.pc 0).isWait = true ∨ (s.pc 0).isRecv = true)
  c : ((s.pc 0).isWait = true ∧ s.sleeping = false) ∨ (s.pc 0).isRecv = true → ∃ t, (s.pc t).isSend = true
  d : ∀ t t', (s.pc t).isSend = true → (s.pc t').isSend = true → t = t'

theorem goto_pc (s : Sys T) (t u : Nat) (p : Pc T) : (s.goto t p).pc u = if u = t then p else s.pc u := rfl

theorem SInv.same {s s' : Sys T} (h : SInv s) (h0 : s'.sleeping = s.sleeping)
    (hf : ∀ u, (s'.pc u).isWait = (s.pc u).isWait ∧ (s'.pc u).isRecv = (s.pc u).isRecv ∧ (s'.pc u).isSend = (s.pc u).isSend) : SInv s' := by
  refine ⟨?_, ?_, ?_, ?_⟩
  · rw [h0, (hf 0).1]; exact h.a
  · intro t; rw [h0, (hf 0).1, (hf 0).2.1, (hf t).2.2]; exact h.b t
  · rw [h0, (hf 0).1, (hf 0).2.1]
    intro hc; obtain ⟨t, ht⟩ := h.c hc; exact ⟨t, by rw [(hf t).2.2]; exact ht⟩
  · intro t t'; rw [(hf t).2.2, (hf t').2.2]; exact h.d t t'

theorem SInv.goto {s s' : Sys T} (h : SInv s) {t : Nat} {p q : Pc T} (e : s.pc t = q) (h0 : s'.sleeping = s.sleeping)
    (hpc : ∀ u, s'.pc u = if u = t then p else s.pc u) (h1 : p.isWait = q.isWait) (h2 : p.isRecv = q.isRecv) (h3 : p.isSend = q.isSend) :
    SInv s' := by
  refine h.same h0 ?_
  intro u
  rw [hpc u]
  by_cases hu : u = t
  · subst hu; rw [if_pos rfl, e]; exact ⟨h1, h2, h3⟩
  · rw [if_neg hu]; exact ⟨rfl, rfl, rfl⟩

theorem SInv.step {comp : Compare T} {expir : T → Int} {s s' : Sys T} (h : SInv s) (so : Solo s) (st : Step comp expir s s') : SInv s' := by
  cases st with
  | startPush t x e => exact h.goto e rfl (fun u => rfl) rfl rfl rfl
  | pushLock t x e hl => exact h.goto e rfl (fun u => rfl) rfl rfl rfl
  | pushBody t x q d e hp hk => exact h.goto e rfl (fun u => rfl) rfl rfl rfl
  | pushUnlock t x d e => exact h.goto e rfl (fun u => rfl) rfl rfl rfl
  | pushSame t x d e _ => exact h.goto e rfl (fun u => rfl) rfl rfl rfl
  | pushOther t x d e _ => exact h.goto e rfl (fun u => rfl) rfl rfl rfl
  | casOk t e hs =>
    have hw := h.a hs
    have ht0 : t ≠ 0 := by rintro rfl; rw [e] at hw; simp [Pc.isWait] at hw
    have hno : ∀ u, (s.pc u).isSend = false := by
      intro u
      by_contra hu
      have := (h.b u (by simpa using hu)).1
      rw [hs] at this; simp at this
    refine ⟨by simp [Sys.goto], ?_, ?_, ?_⟩
    · intro u _
      refine ⟨rfl, .inl ?_⟩
      rw [goto_pc, if_neg (fun h => ht0 h.symm)]; exact hw
    · intro _; exact ⟨t, by rw [goto_pc, if_pos rfl]; rfl⟩
    · intro u u' hu hu'
      rw [goto_pc] at hu hu'
      simp only [hno] at hu hu'
      grind
  | casFail t e _ => exact h.goto e rfl (fun u => rfl) rfl rfl rfl
  | rendezvous t u c e e' =>
    have hu0 : u = 0 := by
      have : (s.pc u).consumer = some c := by
        cases hc : s.pc u <;> rw [hc] at e' <;> simp [Pc.receiver] at e' <;> simp [Pc.consumer, e']
      exact (so u c this).1
    subst hu0
    have hs : s.sleeping = false := (h.b t (by rw [e]; rfl)).1
    have hno : ∀ v, v ≠ t → (s.pc v).isSend = false := by
      intro v hv
      by_contra hc
      exact hv (h.d v t (by simpa using hc) (by rw [e]; rfl))
    have hns : ∀ v, (((s.goto t .idle).goto 0 (.popLock c)).pc v).isSend = false := by
      intro v
      rw [goto_pc, goto_pc]
      by_cases h0 : v = 0
      · rw [if_pos h0]; rfl
      · rw [if_neg h0]
        by_cases h1 : v = t
        · rw [if_pos h1]; rfl
        · rw [if_neg h1]; exact hno v h1
    refine ⟨?_, ?_, ?_, ?_⟩
    · intro hc; have : s.sleeping = true := hc; rw [hs] at this; simp at this
    · intro v hv; rw [hns v] at hv; simp at hv
    · intro hc; rw [goto_pc, if_pos rfl] at hc; simp [Pc.isWait, Pc.isRecv] at hc
    · intro v v' hv; rw [hns v] at hv; simp at hv
  | startPop t c e => exact h.goto e rfl (fun u => rfl) rfl rfl rfl
  | popLock t c e _ => exact h.goto e rfl (fun u => rfl) rfl rfl rfl
  | popEmpty t c e _ => exact h.goto e rfl (fun u => rfl) rfl rfl rfl
  | popUndue t c d e _ _ => exact h.goto e rfl (fun u => rfl) rfl rfl rfl
  | popDue t c d r q e hk hd hp => exact h.goto e rfl (fun u => rfl) rfl rfl rfl
  | popUnlockDue t c x e => exact h.goto e rfl (fun u => rfl) rfl rfl rfl
  | popUnlockEmpty t c e => exact h.goto e rfl (fun u => rfl) rfl rfl rfl
  | popUnlockUndue t c d e => exact h.goto e rfl (fun u => rfl) rfl rfl rfl
  | popStore t c o e =>
    obtain ⟨rfl, rfl⟩ := so t c (by rw [e]; rfl)
    have hno : ∀ u, (s.pc u).isSend = false := by
      intro u
      by_contra hu
      have := (h.b u (by simpa using hu)).2
      rw [e] at this; simp [Pc.isWait, Pc.isRecv] at this
    have hns : ∀ u, ((({ s with sleeping := true } : Sys T).goto 0 (.popWait none o)).pc u).isSend = false := by
      intro u; rw [goto_pc]
      by_cases h0 : u = 0
      · rw [if_pos h0]; rfl
      · rw [if_neg h0]; exact hno u
    refine ⟨fun _ => by rw [goto_pc, if_pos rfl]; rfl, ?_, ?_, ?_⟩
    · intro v hv; rw [hns v] at hv; simp at hv
    · rintro (⟨-, hc⟩ | hc)
      · simp [Sys.goto] at hc
      · rw [goto_pc, if_pos rfl] at hc; simp [Pc.isRecv] at hc
    · intro v v' hv; rw [hns v] at hv; simp at hv
  | popTimer t c o e _ => exact h.goto e rfl (fun u => rfl) rfl rfl rfl
  | popTimerEarly t c o e _ => exact h.goto e rfl (fun u => rfl) rfl rfl rfl
  | popCancel t k o e _ => obtain ⟨-, h⟩ := so t (some k) (by rw [e]; rfl); simp at h
  | swapSleeping t c e hs =>
    obtain ⟨rfl, rfl⟩ := so t c (by rw [e]; rfl)
    have hns : ∀ u, ((({ s with sleeping := false } : Sys T).goto 0 (.popLock none)).pc u).isSend = false := by
      intro u; rw [goto_pc]
      by_cases h0 : u = 0
      · rw [if_pos h0]; rfl
      · rw [if_neg h0]
        by_contra hu
        have := (h.b u (by simpa using hu)).1
        rw [hs] at this; simp at this
    refine ⟨by simp [Sys.goto], ?_, ?_, ?_⟩
    · intro v hv; rw [hns v] at hv; simp at hv
    · intro hc; rw [goto_pc, if_pos rfl] at hc; simp [Pc.isWait, Pc.isRecv] at hc
    · intro v v' hv; rw [hns v] at hv; simp at hv
  | swapAwake t c e hs =>
    obtain ⟨rfl, rfl⟩ := so t c (by rw [e]; rfl)
    obtain ⟨u, hu⟩ := h.c (.inl ⟨by rw [e]; rfl, hs⟩)
    have hsd : ∀ v, ((s.goto 0 (.popRecv none)).pc v).isSend = (s.pc v).isSend := by
      intro v; rw [goto_pc]
      by_cases h0 : v = 0
      · rw [if_pos h0, h0, e]; rfl
      · rw [if_neg h0]
    refine ⟨?_, ?_, ?_, ?_⟩
    · intro hc; have : s.sleeping = true := hc; rw [hs] at this; simp at this
    · intro v _; exact ⟨hs, .inr (by rw [goto_pc, if_pos rfl]; rfl)⟩
    · intro _; exact ⟨u, by rw [hsd]; exact hu⟩
    · intro v v' hv hv'; rw [hsd] at hv hv'; exact h.d v v' hv hv'
  | gotPop t x e => exact h.goto e rfl (fun u => rfl) rfl rfl rfl
  | gotCtx t k x e _ => exact h.goto e rfl (fun u => rfl) rfl rfl rfl
  | gotCancelled t k x e _ => exact h.goto e rfl (fun u => rfl) rfl rfl rfl
  | popExit t c e =>
    obtain ⟨rfl, rfl⟩ := so t c (by rw [e]; rfl)
    have hs : s.sleeping = false := by
      by_contra hc
      have := h.a (by simpa using hc)
      rw [e] at this; simp [Pc.isWait] at this
    exact h.goto e hs.symm (fun u => rfl) rfl rfl rfl
  | startPoll t e => exact h.goto e rfl (fun u => rfl) rfl rfl rfl
  | pollLock t e _ => exact h.goto e rfl (fun u => rfl) rfl rfl rfl
  | pollEmpty t e hk => exact h.goto e rfl (fun u => rfl) rfl rfl rfl
  | pollUndue t d e hk hd => exact h.goto e rfl (fun u => rfl) rfl rfl rfl
  | pollDue t d e hk hd => exact h.goto e rfl (fun u => rfl) rfl rfl rfl
  | pollUnlock t v ok e => exact h.goto e rfl (fun u => rfl) rfl rfl rfl
  | tick d => exact h.same rfl (fun u => ⟨rfl, rfl, rfl⟩)
  | setClock n _ => exact h.same rfl (fun u => ⟨rfl, rfl, rfl⟩)
  | cancel k => exact h.same rfl (fun u => ⟨rfl, rfl, rfl⟩)

theorem ReachSolo.reach {comp : Compare T} {expir : T → Int} {s : Sys T} (h : ReachSolo comp expir s) : Reach comp expir s := by
  induction h with
  | init z size pq clock skewed done e => exact .init z size pq clock skewed done e
  | step _ st _ ih => exact .step ih st

theorem ReachSolo.solo {comp : Compare T} {expir : T → Int} {s : Sys T} (h : ReachSolo comp expir s) : Solo s := by
  cases h with
  | init z size pq clock skewed done e => intro t c h; simp [Sys.init, Pc.consumer] at h
  | step _ _ h => exact h

theorem ReachSolo.sinv {comp : Compare T} {expir : T → Int} {s : Sys T} (h : ReachSolo comp expir s) : SInv s := by
  induction h with
  | init z size pq clock skewed done e =>
    refine ⟨by simp [Sys.init], by simp [Sys.init, Pc.isSend], by simp [Sys.init, Pc.isWait, Pc.isRecv], by simp [Sys.init, Pc.isSend]⟩
  | step r st _ ih => exact ih.step r.solo st

end Gds.DelayQueue
