import Verif.LockFree.Props
import Verif.LockFree.Examples
import Mathlib.Data.Nat.Pairing
import Mathlib.Data.List.Nodup

/-! The lock-free skip list when the comparator panics and the caller recovers (collections/lockfreeskiplist/lockfree_skiplist.go:136-151:
`less` and `equals` call the comparator; nothing in the package recovers or cleans up).  The comparator has the answers of one `cmp`
whenever it does not panic. -/

namespace Gds.LockFree
variable {T : Type _}

/-- A step of the model of `Verif.LockFree.Model`, or a panic of the comparator in a call of goroutine `t`. -/
inductive RLabel (T : Type _) where
  | of (l : Label T)
  | raise (t : Nat)

/-- The comparator is called in `less` and `equals` (lockfree_skiplist.go:136-151, from 173, 211, 244, 252), after the load of
    line 233, 241, 162, 170, 200 or 208 has found that the node is not marked, if it is not the head or the tail; its panic ends the call
    and touches no field of the list.  The goroutine whose caller recovers can make further calls. -/
inductive RStep (cmp : Compare T) : St T → RLabel T → St T → Prop where
  | keep {s l s'} : Step cmp s l s' → RStep cmp s (.of l) s'
  | raise (s : St T) (t : Nat) (op : Op T) (f : Frame T) (k : Cont) (n : Ptr) : s.pc t = .run op (.find f k) → f.ph = .loadNext →
      loadNext s.mem f.cur f.level = .ok n → isMarked n = false → f.cur ≠ ref headA → f.cur ≠ ref tailA →
      RStep cmp s (.raise t) (s.goto s.mem t .idle)

/-- A run of `n` steps from the empty list, with panics. -/
structure IsRRun (cmp : Compare T) (zero : T) (tr : Nat → St T) (lab : Nat → RLabel T) (n : Nat) : Prop where
  start : tr 0 = St.init zero
  step : ∀ k, k < n → RStep cmp (tr k) (lab k) (tr (k + 1))

/-- The call made at step `i` by `t` ends at step `r` of the first `n` steps: it returns, or a panic of the comparator leaves it. -/
structure Ended (lab : Nat → RLabel T) (n i t r : Nat) : Prop where
  lt : i < r
  le : r < n
  ends : (∃ o, lab r = .of (.ret t o)) ∨ lab r = .raise t
  first : ∀ x, i < x → x < r → (∀ o, lab x ≠ .of (.ret t o)) ∧ lab x ≠ .raise t

/-- Herlihy and Wing's definition with panics: one sequential history explains the run; it contains every call that has returned,
    with its result, and possibly some of the calls that a panic has left or that are still in progress, each once; a call that has
    ended, in whatever way, before another was made does not come after it. -/
structure RLinearization (cmp : Compare T) (zero : T) (lab : Nat → RLabel T) (n : Nat) (L : List (Entry T)) (s : T → Prop) : Prop where
  calls : ∀ e ∈ L, e.call < n ∧ ∃ t, lab e.call = .of (.call t e.op) ∧ ∀ o r, Ended lab n e.call t r → lab r = .of (.ret t o) → e.out = o
  once : (L.map Entry.call).Nodup
  all : ∀ i t op o r, lab i = .of (.call t op) → op.isSet → Ended lab n i t r → lab r = .of (.ret t o) → ⟨i, op, o⟩ ∈ L
  order : L.Pairwise fun e e' => ∀ t r, lab e'.call = .of (.call t e'.op) → Ended lab n e'.call t r → ¬ r < e.call
  legal : Legal cmp zero (fun _ => False) (L.map fun e => (e.op, e.out)) s

/-! ### A run with panics is a run of more goroutines in which some calls stop for ever -/

/-- The number of panics of `t` before instant `k`. -/
def raises (lab : Nat → RLabel T) (t : Nat) : Nat → Nat
  | 0 => 0
  | k + 1 => raises lab t k + match lab k with
    | .raise u => if u = t then 1 else 0
    | .of _ => 0

/-- The number of steps before instant `k` that are not panics. -/
def idx (lab : Nat → RLabel T) : Nat → Nat
  | 0 => 0
  | k + 1 => idx lab k + match lab k with
    | .raise _ => 0
    | .of _ => 1

/-- The goroutine that plays `t` at instant `k`. -/
def vid (lab : Nat → RLabel T) (t k : Nat) : Nat := Nat.pair t (raises lab t k)

/-- The same step by another goroutine. -/
def Label.to (v : Nat) : Label T → Label T
  | .call _ op => .call v op
  | .tau _ => .tau v
  | .ret _ o => .ret v o

variable {cmp : Compare T} {zero : T} {tr : Nat → St T} {lab : Nat → RLabel T} {n : Nat}

theorem idx_of {k : Nat} {l : Label T} (h : lab k = .of l) : idx lab (k + 1) = idx lab k + 1 := by simp [idx, h]
theorem idx_raise {k t : Nat} (h : lab k = .raise t) : idx lab (k + 1) = idx lab k := by simp [idx, h]
theorem raises_of {k t : Nat} {l : Label T} (h : lab k = .of l) : raises lab t (k + 1) = raises lab t k := by simp [raises, h]
theorem raises_ne {k t u : Nat} (h : lab k = .raise u) (hu : u ≠ t) : raises lab t (k + 1) = raises lab t k := by simp [raises, h, hu]
theorem raises_same {k t : Nat} (h : lab k = .raise t) : raises lab t (k + 1) = raises lab t k + 1 := by simp [raises, h]

theorem idx_mono {i k : Nat} (h : i ≤ k) : idx lab i ≤ idx lab k := by
  induction h with
  | refl => exact Nat.le_refl _
  | step _ ih => exact Nat.le_trans ih (Nat.le_add_right _ _)

theorem idx_lt {i k : Nat} {l : Label T} (h : i < k) (hl : lab i = .of l) : idx lab i < idx lab k := by
  have := idx_mono (lab := lab) (i := i + 1) (k := k) h
  rw [idx_of hl] at this; omega

theorem raises_mono {t i k : Nat} (h : i ≤ k) : raises lab t i ≤ raises lab t k := by
  induction h with
  | refl => exact Nat.le_refl _
  | step _ ih => exact Nat.le_trans ih (Nat.le_add_right _ _)

theorem raises_eq {t i k : Nat} (h : i ≤ k) (hn : ∀ x, i ≤ x → x < k → lab x ≠ .raise t) : raises lab t k = raises lab t i := by
  induction h with
  | refl => rfl
  | @step m h ih =>
    have h1 := ih fun x g1 g2 => hn x g1 (by omega)
    have h2 := hn m h (by omega)
    cases e : lab m with
    | of l => rw [raises_of e, h1]
    | raise u => rw [raises_ne e (fun eu => h2 (by rw [e, eu])), h1]

theorem raises_lt {t i k : Nat} (h : i < k) (hl : lab i = .raise t) : raises lab t i < raises lab t k := by
  have := raises_mono (lab := lab) (t := t) (i := i + 1) (k := k) h
  rw [raises_same hl] at this; omega

/-- Every step that is not a panic is a step of the run without panics, and there are no others. -/
theorem idx_surj {j : Nat} : ∀ n, j < idx lab n → ∃ k l, k < n ∧ idx lab k = j ∧ lab k = .of l
  | 0, h => by simp [idx] at h
  | n + 1, h => by
    cases e : lab n with
    | raise t =>
      rw [idx_raise e] at h
      obtain ⟨k, l, h1, h2⟩ := idx_surj (j := j) n h
      exact ⟨k, l, by omega, h2⟩
    | of l =>
      rw [idx_of e] at h
      by_cases hj : j = idx lab n
      · exact ⟨n, l, by omega, hj.symm, e⟩
      · obtain ⟨k, l, h1, h2⟩ := idx_surj (j := j) n (by omega)
        exact ⟨k, l, by omega, h2⟩

theorem idx_inj {i k : Nat} {l l' : Label T} (h : idx lab i = idx lab k) (hi : lab i = .of l) (hk : lab k = .of l') : i = k := by
  rcases Nat.lt_trichotomy i k with g | g | g
  · have := idx_lt g hi; omega
  · exact g
  · have := idx_lt g hk; omega

/-- The step of a goroutine can be made by another one that stands where the first one stands. -/
theorem Step.to {s s' s0 : St T} {l : Label T} (h : Step cmp s l s') (hm : s0.mem = s.mem) (v : Nat) (hv : s0.pc v = s.pc l.tid) :
    Step cmp s0 (l.to v) (s0.goto s'.mem v (s'.pc l.tid)) ∧ ∀ u, u ≠ l.tid → s'.pc u = s.pc u := by
  cases h with
  | call t op e =>
    refine ⟨?_, fun u hu => goto_pc_ne _ _ _ hu⟩
    have : (s.goto s.mem t (.run op op.enter)).pc t = .run op op.enter := goto_pc_same _ _ _ _
    show Step cmp s0 (.call v op) (s0.goto s.mem v ((s.goto s.mem t (.run op op.enter)).pc t))
    rw [this, ← hm]
    exact .call s0 v op (hv.trans e)
  | tau t op c coin e h1 h2 =>
    refine ⟨?_, fun u hu => goto_pc_ne _ _ _ hu⟩
    show Step cmp s0 (.tau v) (s0.goto (exec cmp coin s.mem c).1 v ((s.goto (exec cmp coin s.mem c).1 t (.run op (exec cmp coin s.mem c).2)).pc t))
    rw [goto_pc_same, ← hm]
    exact .tau s0 v op c coin (hv.trans e) h1 h2
  | ret t op o e =>
    refine ⟨?_, fun u hu => goto_pc_ne _ _ _ hu⟩
    show Step cmp s0 (.ret v o) (s0.goto s.mem v ((s.goto s.mem t .idle).pc t))
    rw [goto_pc_same, ← hm]
    exact .ret s0 v op o (hv.trans e)

/-- The run without panics that goes with a run with panics. -/
structure Sim (cmp : Compare T) (zero : T) (tr : Nat → St T) (lab : Nat → RLabel T) (n : Nat) (tr0 : Nat → St T) (lab0 : Nat → Label T) : Prop where
  run : IsRun cmp zero tr0 lab0 (idx lab n)
  mem : ∀ k, k ≤ n → (tr0 (idx lab k)).mem = (tr k).mem
  pc : ∀ k, k ≤ n → ∀ t, (tr0 (idx lab k)).pc (vid lab t k) = (tr k).pc t
  idle : ∀ k, k ≤ n → ∀ t c, raises lab t k < c → (tr0 (idx lab k)).pc (Nat.pair t c) = .idle
  lab : ∀ k l, k < n → lab k = .of l → lab0 (idx lab k) = l.to (vid lab l.tid k)

theorem sim_exists (n : Nat) (hr : IsRRun cmp zero tr lab n) : ∃ tr0 lab0, Sim cmp zero tr lab n tr0 lab0 := by
  induction n with
  | zero =>
    refine ⟨tr, fun _ => .tau 0, ⟨hr.start, fun k hk => absurd hk (by simp [idx])⟩, ?_, ?_, ?_, ?_⟩
    · intro k hk; obtain rfl : k = 0 := by omega
      rfl
    · intro k hk t; obtain rfl : k = 0 := by omega
      show (tr 0).pc _ = (tr 0).pc _
      rw [hr.start]; rfl
    · intro k hk t c _; obtain rfl : k = 0 := by omega
      show (tr 0).pc _ = _
      rw [hr.start]; rfl
    · intro k l hk; omega
  | succ n ih =>
    obtain ⟨tr0, lab0, h⟩ := ih ⟨hr.start, fun k hk => hr.step k (by omega)⟩
    have hs := hr.step n (by omega)
    cases e : lab n with
    | raise t =>
      rw [e] at hs
      generalize hs2 : tr (n + 1) = s2 at hs
      cases hs with
      | raise _ op f kk p hpc _ _ _ _ _ =>
      refine ⟨tr0, lab0, by rw [idx_raise e]; exact h.run, ?_, ?_, ?_, ?_⟩
      · intro k hk
        by_cases hk' : k = n + 1
        · subst hk'; rw [idx_raise e, hs2, h.mem n (by omega)]; rfl
        · exact h.mem k (by omega)
      · intro k hk u
        by_cases hk' : k = n + 1
        · subst hk'
          rw [idx_raise e, hs2]
          by_cases hu : u = t
          · subst hu
            rw [goto_pc_same, vid, raises_same e]
            exact h.idle n (by omega) u _ (Nat.lt_succ_self _)
          · rw [goto_pc_ne _ _ _ hu, vid, raises_ne e (Ne.symm hu)]
            exact h.pc n (by omega) u
        · exact h.pc k (by omega) u
      · intro k hk u c hc
        by_cases hk' : k = n + 1
        · subst hk'
          rw [idx_raise e]
          exact h.idle n (by omega) u c (Nat.lt_of_le_of_lt (raises_mono (by omega)) hc)
        · exact h.idle k (by omega) u c hc
      · intro k l hk hl
        by_cases hk' : k = n
        · subst hk'; rw [e] at hl; cases hl
        · exact h.lab k l (by omega) hl
    | of l =>
      rw [e] at hs
      generalize hs2 : tr (n + 1) = s2 at hs
      cases hs with
      | keep st =>
      obtain ⟨st0, oth⟩ := st.to (h.mem n (by omega)) (vid lab l.tid n) (h.pc n (by omega) l.tid)
      have hi : ∀ k, k ≤ n → idx lab k ≤ idx lab n := fun k hk => idx_mono hk
      refine ⟨fun j => if j ≤ idx lab n then tr0 j else (tr0 (idx lab n)).goto s2.mem (vid lab l.tid n) (s2.pc l.tid),
        fun j => if j < idx lab n then lab0 j else l.to (vid lab l.tid n), ⟨?_, ?_⟩, ?_, ?_, ?_, ?_⟩
      · simp only [Nat.zero_le, if_true]; exact h.run.start
      · intro j hj
        rw [idx_of e] at hj
        by_cases hj' : j < idx lab n
        · simp only [hj', if_true, Nat.le_of_lt hj', Nat.succ_le_of_lt hj']
          exact h.run.step j hj'
        · obtain rfl : j = idx lab n := by omega
          simp only [Nat.lt_irrefl, if_false, Nat.le_refl, if_true, Nat.not_succ_le_self]
          exact st0
      · intro k hk
        by_cases hk' : k = n + 1
        · subst hk'
          simp only [idx_of e, Nat.not_succ_le_self, if_false, hs2]; rfl
        · simp only [hi k (by omega), if_true]; exact h.mem k (by omega)
      · intro k hk u
        by_cases hk' : k = n + 1
        · subst hk'
          simp only [idx_of e, Nat.not_succ_le_self, if_false, hs2]
          rw [show vid lab u (n + 1) = vid lab u n by rw [vid, raises_of e, vid]]
          by_cases hu : u = l.tid
          · subst hu; rw [goto_pc_same]
          · have hne : vid lab u n ≠ vid lab l.tid n := fun hh => hu (Nat.pair_eq_pair.1 hh).1
            rw [goto_pc_ne _ _ _ hne, oth u hu]
            exact h.pc n (by omega) u
        · simp only [hi k (by omega), if_true]; exact h.pc k (by omega) u
      · intro k hk u c hc
        by_cases hk' : k = n + 1
        · subst hk'
          rw [raises_of e] at hc
          simp only [idx_of e, Nat.not_succ_le_self, if_false]
          rw [goto_pc_ne _ _ _ (fun hh => by
            obtain ⟨h1, h2⟩ := Nat.pair_eq_pair.1 hh
            subst h1; omega)]
          exact h.idle n (by omega) u c hc
        · simp only [hi k (by omega), if_true]; exact h.idle k (by omega) u c hc
      · intro k l' hk hl
        by_cases hk' : k = n
        · subst hk'
          rw [e] at hl; cases hl
          simp only [Nat.lt_irrefl, if_false]
        · simp only [idx_lt (lab := lab) (show k < n by omega) hl, if_true]; exact h.lab k l' (by omega) hl

/-- In the history of `linearization`: a call of a goroutine that makes no step from instant `r` on does not come after a call made
at `r` or later. -/
theorem stopped (hc : cmp.Lawful) {tr : Nat → St T} {lab : Nat → Label T} (hr : IsRun cmp zero tr lab n) :
    (seqs cmp tr lab n (2 * n + 1)).Pairwise fun e e' => ∀ t r, lab e'.call = .call t e'.op →
      (∀ x, r ≤ x → x < n → (lab x).tid ≠ t) → ¬ r ≤ e.call := by
  have key : ∀ q e q' e', e ∈ slot cmp tr lab n q → e' ∈ slot cmp tr lab n q' → q ≤ q' →
      ∀ t r, lab e'.call = .call t e'.op → (∀ x, r ≤ x → x < n → (lab x).tid ≠ t) → ¬ r ≤ e.call := by
    intro q e q' e' he he' hqq t r hl hx hle
    obtain ⟨-, hp⟩ := lp_some (mem_slot.1 he).2
    obtain ⟨-, hp'⟩ := lp_some (mem_slot.1 he').2
    have h1 := (point_start hp).1
    obtain ⟨t', g, hp'⟩ := hp'
    rw [hl] at g
    injection g with g1 _
    subst g1
    rcases hp' with ⟨r', p, g1, g2, g3, g4, -⟩ | ⟨k, g1, g2, g3, g4, g5, -⟩
    · have : ¬ r ≤ r' := fun hh => hx r' hh g1.le (by rw [g1.ret]; rfl)
      omega
    · have : ¬ r ≤ k := fun hh => hx k hh g2 (by rw [g3]; rfl)
      omega
  generalize 2 * n + 1 = N
  induction N with
  | zero => exact .nil
  | succ q ih =>
    simp only [seqs]
    refine List.pairwise_append.2 ⟨ih, slot_pairwise q _ fun e he e' he' => key q e q e' he he' (Nat.le_refl _), ?_⟩
    intro e he e' he'
    obtain ⟨q', h1, h2⟩ := mem_seqs.1 he
    exact key q' e q e' h2 he' (by omega)

theorem vid_eq {t i k : Nat} (h : i ≤ k) (hn : ∀ x, i ≤ x → x < k → lab x ≠ .raise t) : vid lab t k = vid lab t i := by
  rw [vid, raises_eq h hn, vid]

theorem to_tid (l : Label T) (v : Nat) : (l.to v).tid = v := by cases l <;> rfl

section
variable {tr0 : Nat → St T} {lab0 : Nat → Label T} (h : Sim cmp zero tr lab n tr0 lab0)
include h

/-- A call that returned returned in the run without panics. -/
theorem Sim.returned {i t r : Nat} {op : Op T} {o : Out T} (hi : lab i = .of (.call t op)) (he : Ended lab n i t r) (ho : lab r = .of (.ret t o)) :
    Returned lab0 (idx lab n) (idx lab i) (vid lab t i) o (idx lab r) := by
  have hlt := he.lt
  have hv : ∀ k, i ≤ k → k ≤ r → vid lab t k = vid lab t i := fun k h1 h2 => vid_eq h1 fun x g1 g2 e => by
    by_cases hx : x = i
    · subst hx; rw [hi] at e; cases e
    · exact (he.first x (by omega) (by omega)).2 e
  refine ⟨idx_lt he.lt hi, idx_lt he.le ho, ?_, ?_⟩
  · rw [h.lab r _ he.le ho]
    show Label.ret (vid lab t r) o = _
    rw [hv r (by omega) (Nat.le_refl _)]
  · intro x h1 h2 o' e
    obtain ⟨k, l, g1, g2, g3⟩ := idx_surj (j := x) (lab := lab) n (Nat.lt_trans h2 (idx_lt he.le ho))
    subst g2
    have hik : i < k := by by_contra hh; have := idx_mono (lab := lab) (show k ≤ i by omega); omega
    have hkr : k < r := by by_contra hh; have := idx_mono (lab := lab) (show r ≤ k by omega); omega
    rw [h.lab k l g1 g3] at e
    cases l with
    | call u op' => cases e
    | tau u => cases e
    | ret u o'' =>
      injection e with e1 e2
      have : u = t := (Nat.pair_eq_pair.1 e1).1
      subst this
      exact (he.first k hik hkr).1 o'' g3

/-- After a panic in a call its goroutine makes no step in the run without panics. -/
theorem Sim.raised {i t r : Nat} (he : Ended lab n i t r) (ho : lab r = .raise t) {x : Nat} (h1 : idx lab r ≤ x) (h2 : x < idx lab n) :
    (lab0 x).tid ≠ vid lab t i := by
  obtain ⟨k, l, g1, g2, g3⟩ := idx_surj (j := x) (lab := lab) n h2
  subst g2
  rw [h.lab k l g1 g3, to_tid]
  intro e
  obtain ⟨e1, e2⟩ := Nat.pair_eq_pair.1 e
  rw [e1] at e2
  have hrk : r < k := by
    rcases Nat.lt_trichotomy r k with g | g | g
    · exact g
    · subst g; rw [ho] at g3; cases g3
    · have := idx_lt g g3; omega
  have hlt := he.lt
  have a := raises_lt hrk ho
  have b := raises_mono (lab := lab) (t := t) (show i ≤ r by omega)
  omega

end

open Classical in
/-- The step of the run with panics that is step `j` of the run without. -/
noncomputable def unidx (lab : Nat → RLabel T) (n j : Nat) : Nat := if h : j < idx lab n then (idx_surj (lab := lab) n h).choose else 0

theorem unidx_spec {j : Nat} (h : j < idx lab n) : unidx lab n j < n ∧ idx lab (unidx lab n j) = j ∧ ∃ l, lab (unidx lab n j) = .of l := by
  unfold unidx
  rw [dif_pos h]
  obtain ⟨l, h1, h2, h3⟩ := (idx_surj (lab := lab) n h).choose_spec
  exact ⟨h1, h2, l, h3⟩

/-- The list is linearizable whatever calls a panic of the comparator leaves: a call that has panicked has taken effect at one instant
of the call, or not at all. -/
theorem raised_linearizable (hc : cmp.Lawful) (hr : IsRRun cmp zero tr lab n) : ∃ L s, RLinearization cmp zero lab n L s ∧
    ∀ v, s v ↔ Contains cmp (tr n).mem v := by
  obtain ⟨tr0, lab0, h⟩ := sim_exists n hr
  have hL := linearization hc h.run
  have hS := stopped hc h.run
  generalize seqs cmp tr0 lab0 (idx lab n) (2 * idx lab n + 1) = L0 at hL hS
  have hcall : ∀ e ∈ L0, ∃ i t, i < n ∧ idx lab i = e.call ∧ unidx lab n e.call = i ∧ lab i = .of (.call t e.op) ∧
      lab0 e.call = .call (vid lab t i) e.op := by
    intro e he
    obtain ⟨h1, v, h2, -⟩ := hL.calls e he
    obtain ⟨g1, g2, l, g3⟩ := unidx_spec h1
    have h3 := h.lab _ _ g1 g3
    rw [g2, h2] at h3
    cases l with
    | call t op =>
      injection h3 with e1 e2
      subst e2
      exact ⟨_, t, g1, g2, rfl, g3, by rw [h2, e1]; rfl⟩
    | tau t => cases h3
    | ret t o => cases h3
  refine ⟨L0.map fun e => ⟨unidx lab n e.call, e.op, e.out⟩, _, ?_, fun v => by rw [← h.mem n (Nat.le_refl _)]⟩
  refine ⟨?_, ?_, ?_, ?_, ?_⟩
  · intro e' he'
    obtain ⟨e, he, rfl⟩ := List.mem_map.1 he'
    obtain ⟨i, t, h1, h2, h3, h4, h5⟩ := hcall e he
    show unidx lab n e.call < n ∧ _
    rw [h3]
    refine ⟨h1, t, h4, fun o r hE ho => ?_⟩
    obtain ⟨-, u, g2, g3⟩ := hL.calls e he
    refine g3 o (idx lab r) ?_
    rw [h5] at g2
    injection g2 with g4 _
    rw [← g4, ← h2]
    exact h.returned h4 hE ho
  · rw [List.map_map]
    refine List.Nodup.of_map (idx lab) ?_
    rw [List.map_map]
    convert hL.once using 1
    refine List.map_congr_left fun e he => ?_
    obtain ⟨i, t, h1, h2, h3, -⟩ := hcall e he
    show idx lab (unidx lab n e.call) = e.call
    rw [h3, h2]
  · intro i t op o r hi hs hE ho
    have hret := h.returned hi hE ho
    have hin : i < n := Nat.lt_trans hE.lt hE.le
    have hm := hL.all (idx lab i) (vid lab t i) op o (idx lab r) (h.lab i _ hin hi) hs hret
    refine List.mem_map.2 ⟨_, hm, ?_⟩
    obtain ⟨i', t', h1, h2, h3, h4, -⟩ := hcall _ hm
    have : i' = i := idx_inj h2 h4 hi
    subst this
    show (⟨unidx lab n (idx lab i'), op, o⟩ : Entry T) = _
    simp only at h3
    rw [h3]
  · refine List.pairwise_map.2 ((hL.order.and hS).imp_of_mem fun {e e'} he he' hp => ?_)
    obtain ⟨i, t, h1, h2, h3, h4, h5⟩ := hcall e he
    obtain ⟨i', t', h1', h2', h3', h4', h5'⟩ := hcall e' he'
    intro u r hu hE hlt
    simp only [h3, h3'] at hu hE hlt
    rw [h4'] at hu
    injection hu with hu
    injection hu with hu _
    subst hu
    rcases hE.ends with ⟨o, ho⟩ | ho
    · refine hp.1 (vid lab t' i') o (idx lab r) h5' (by rw [← h2']; exact h.returned h4' hE ho) ?_
      rw [← h2]; exact idx_lt hlt ho
    · refine hp.2 (vid lab t' i') (idx lab r) h5' (fun x g1 g2 => h.raised hE ho g1 g2) ?_
      rw [← h2]; exact idx_mono (Nat.le_of_lt hlt)
  · have := hL.legal
    rw [List.map_map]
    exact this

theorem IsRRun.le {k : Nat} (hr : IsRRun cmp zero tr lab n) (hk : k ≤ n) : IsRRun cmp zero tr lab k :=
  ⟨hr.start, fun j hj => hr.step j (by omega)⟩

/-- At every instant the elements form a finite set without duplicates. -/
theorem raised_elements (hc : cmp.Lawful) (hr : IsRRun cmp zero tr lab n) {k : Nat} (hk : k ≤ n) : ∃ l, Elements cmp (tr k).mem l := by
  obtain ⟨tr0, lab0, h⟩ := sim_exists n hr
  rw [← h.mem k hk]
  exact elements hc h.run (idx_mono hk)

/-- At every instant every level leads from the head to the tail through allocated nodes with non-decreasing values. -/
theorem raised_levels_sorted (hc : cmp.Lawful) (hr : IsRRun cmp zero tr lab n) {k : Nat} (hk : k ≤ n) {l : Nat} (hl : l < 20) :
    ∃ P : List Nat, Walk (tr k).mem l headA P tailA ∧ P.Nodup ∧ (P.map (tr k).mem.val).Pairwise (fun a b => cmp a b ≤ 0) ∧
      ∀ x ∈ P, x < (tr k).mem.alloc ∧ x ≠ headA ∧ x ≠ tailA := by
  obtain ⟨tr0, lab0, h⟩ := sim_exists n hr
  rw [← h.mem k hk]
  exact levels_sorted hc h.run (idx_mono hk) hl

/-- No call panics except by a panic of the comparator, whatever calls have panicked before. -/
theorem raised_never_panics (hc : cmp.Lawful) (hr : IsRRun cmp zero tr lab n) {k : Nat} (hk : k ≤ n) (t : Nat) (op : Op T) (e : Panic) :
    (tr k).pc t ≠ .run op (.panicked e) := by
  obtain ⟨tr0, lab0, h⟩ := sim_exists n hr
  rw [← h.pc k hk t]
  exact never_panics hc h.run (idx_mono hk) _ op e

/-- Nobody ever waits for a call that has panicked: a goroutine inside a method always has a next step. -/
theorem raised_never_blocks (hc : cmp.Lawful) (hr : IsRRun cmp zero tr lab n) {k : Nat} (hk : k ≤ n) {t : Nat} {op : Op T} {c : Ctl T}
    (h : (tr k).pc t = .run op c) : ∃ l s, l.tid = t ∧ Step cmp (tr k) l s := by
  by_cases hret : ∃ o, c = .ret o
  · obtain ⟨o, rfl⟩ := hret
    exact ⟨.ret t o, _, rfl, .ret _ t op o h⟩
  · refine ⟨.tau t, _, rfl, .tau (tr k) t op c (fun _ => false) h (fun o e => hret ⟨o, e⟩) fun e he => ?_⟩
    subst he
    exact raised_never_panics hc hr hk t op e h

/-- Only steps of `Add(v)` and `Del(v)` calls that have not ended change the set, by exactly `v`; a panic does not change it. -/
theorem raised_set_changes (hc : cmp.Lawful) (hr : IsRRun cmp zero tr lab n) {k : Nat} (hk : k < n) :
    (∀ w, Contains cmp (tr (k + 1)).mem w ↔ Contains cmp (tr k).mem w) ∨
    ∃ i t v, i < k ∧ lab k = .of (.tau t) ∧ (∀ x, i < x → x < k → (∀ o, lab x ≠ .of (.ret t o)) ∧ lab x ≠ .raise t) ∧
      ((lab i = .of (.call t (.add v)) ∧ ¬ Contains cmp (tr k).mem v ∧
          ∀ w, Contains cmp (tr (k + 1)).mem w ↔ Contains cmp (tr k).mem w ∨ cmp v w = 0) ∨
       (lab i = .of (.call t (.del v)) ∧ Contains cmp (tr k).mem v ∧
          ∀ w, Contains cmp (tr (k + 1)).mem w ↔ Contains cmp (tr k).mem w ∧ cmp v w ≠ 0)) := by
  obtain ⟨tr0, lab0, h⟩ := sim_exists n hr
  have hm := h.mem k (by omega)
  have hm' := h.mem (k + 1) (by omega)
  cases e : lab k with
  | raise t => left; rw [← hm, ← hm', idx_raise e]; exact fun _ => Iff.rfl
  | of l =>
    have hkn : idx lab k < idx lab n := idx_lt hk e
    rw [← hm, ← hm', idx_of e]
    have prog : ∀ {i0 t0 : Nat} {op : Op T}, lab0 (idx lab k) = .tau t0 → InProgress lab0 (idx lab k) i0 t0 op →
        ∃ i t, i < k ∧ l = .tau t ∧ (∀ x, i < x → x < k → (∀ o, lab x ≠ .of (.ret t o)) ∧ lab x ≠ .raise t) ∧ lab i = .of (.call t op) := by
      intro i0 t0 op h1 h2
      obtain ⟨i, l', g1, g2, g3⟩ := idx_surj (j := i0) (lab := lab) n (Nat.lt_trans h2.lt hkn)
      subst g2
      have hik : i < k := by
        by_contra hh
        have := idx_mono (lab := lab) (show k ≤ i by omega)
        have := h2.lt; omega
      have a := h.lab k l hk e
      rw [h1] at a
      have b := h.lab i l' g1 g3
      rw [h2.call] at b
      cases l' with
      | tau u => cases b
      | ret u o => cases b
      | call u op' =>
        injection b with b1 b2
        subst b2
        cases l with
        | call u' o => cases a
        | ret u' o => cases a
        | tau t =>
          injection a with a1
          have hv : vid lab u i = vid lab t k := b1.symm.trans a1
          obtain ⟨v1, v2⟩ := Nat.pair_eq_pair.1 hv
          subst v1
          have hno : ∀ x, i < x → x < k → lab x ≠ .raise u := by
            intro x x1 x2 ex
            have c1 := raises_lt x2 ex
            have c2 := raises_mono (lab := lab) (t := u) (show i ≤ x by omega)
            omega
          refine ⟨i, u, hik, rfl, fun x x1 x2 => ⟨fun o eo => ?_, hno x x1 x2⟩, g3⟩
          refine h2.open_ (idx lab x) (idx_lt x1 g3) (idx_lt x2 eo) o ?_
          rw [h.lab x _ (by omega) eo, b1]
          show Label.ret (vid lab u x) o = _
          rw [vid_eq (i := i) (k := x) (by omega) (fun y y1 y2 ey => by
            by_cases hy : y = i
            · subst hy; rw [g3] at ey; cases ey
            · exact hno y (by omega) (by omega) ey)]
          rfl
    rcases set_changes hc h.run hkn with g | ⟨i0, t0, v, g1, ⟨g2, g3⟩ | ⟨g2, g3⟩⟩
    · exact .inl g
    · obtain ⟨i, t, f1, f2, f3, f4⟩ := prog g1 g2
      exact .inr ⟨i, t, v, f1, by rw [f2], f3, .inl ⟨f4, g3⟩⟩
    · obtain ⟨i, t, f1, f2, f3, f4⟩ := prog g1 g2
      exact .inr ⟨i, t, v, f1, by rw [f2], f3, .inr ⟨f4, g3⟩⟩

/-! ### Len -/

/-- The call made at step `i` by `t` has not returned at instant `k`: it is in progress, or a panic has left it. -/
structure Unreturned (lab : Nat → RLabel T) (k i t : Nat) : Prop where
  lt : i < k
  open_ : ∀ r o, Ended lab k i t r → lab r ≠ .of (.ret t o)

/-- The counter is at most behind by the number of calls of `Add` that are in progress or that a panic has left, and at most ahead by
the number of such calls of `Del`. -/
theorem raised_size_bounds (hc : cmp.Lawful) (hr : IsRRun cmp zero tr lab n) {k : Nat} (hk : k ≤ n) {l : List T} {LA LD : List Nat}
    (hl : Elements cmp (tr k).mem l) (hA : ∀ i t v, lab i = .of (.call t (.add v)) → Unreturned lab k i t → i ∈ LA)
    (hD : ∀ i t v, lab i = .of (.call t (.del v)) → Unreturned lab k i t → i ∈ LD) (hbig : l.length + LA.length + LD.length < 2 ^ 31) :
    (l.length : Int) - LA.length ≤ (tr k).mem.size.toInt ∧ (tr k).mem.size.toInt ≤ l.length + LD.length := by
  obtain ⟨tr0, lab0, h⟩ := sim_exists k (hr.le hk)
  rw [← h.mem k (Nat.le_refl _)] at hl ⊢
  have key : ∀ i0 t0 op, InProgress lab0 (idx lab k) i0 t0 op → ∃ i t, lab i = .of (.call t op) ∧ Unreturned lab k i t ∧ t0 = vid lab t i := by
    intro i0 t0 op h2
    obtain ⟨i, l', g1, g2, g3⟩ := idx_surj (j := i0) (lab := lab) k h2.lt
    subst g2
    have b := h.lab i l' g1 g3
    rw [h2.call] at b
    cases l' with
    | tau u => cases b
    | ret u o => cases b
    | call u op' =>
      injection b with b1 b2
      subst b2
      refine ⟨i, u, g3, ⟨g1, fun r o hE ho => ?_⟩, b1⟩
      have hret := h.returned g3 hE ho
      exact h2.open_ (idx lab r) hret.lt hret.le o (by rw [hret.ret, b1]; rfl)
  let f : Nat → Nat := fun i => match lab i with
    | .of l => vid lab l.tid i
    | .raise _ => 0
  have hf : ∀ {i t : Nat} {op : Op T}, lab i = .of (.call t op) → f i = vid lab t i := by
    intro i t op e
    simp only [f, e, Label.tid]
  have := size_bounds hc h.run (k := idx lab k) (Nat.le_refl _) hl (LA := LA.map f) (LD := LD.map f)
    (fun i0 t0 v g => by
      obtain ⟨i, t, g1, g2, g3⟩ := key i0 t0 _ g
      rw [g3, ← hf g1]; exact List.mem_map_of_mem (hA i t v g1 g2))
    (fun i0 t0 v g => by
      obtain ⟨i, t, g1, g2, g3⟩ := key i0 t0 _ g
      rw [g3, ← hf g1]; exact List.mem_map_of_mem (hD i t v g1 g2)) (by simpa using hbig)
  simpa using this

/-- A goroutine that never does anything is idle. -/
theorem untouched {tr : Nat → St T} {lab : Nat → Label T} (hr : IsRun cmp zero tr lab n) {t : Nat} : ∀ k, k ≤ n →
    (∀ j, j < k → (lab j).tid ≠ t) → (tr k).pc t = .idle
  | 0, _, _ => by rw [hr.start]; rfl
  | k + 1, hk, h => by
    have ih := untouched hr k (by omega) fun j hj => h j (by omega)
    have st := hr.step k (by omega)
    have hne := h k (by omega)
    rw [← ih]
    exact (st.to rfl 0 (s0 := { (tr k) with pc := fun _ => (tr k).pc (lab k).tid }) rfl).2 t (Ne.symm hne)

/-- A run without panics, and then one. -/
theorem then_raise {tr : Nat → St T} {lab : Nat → Label T} (hr : IsRun cmp zero tr lab n) {t : Nat} {s : St T} (hs : RStep cmp (tr n) (.raise t) s) :
    IsRRun cmp zero (fun k => if k ≤ n then tr k else s) (fun k => if k < n then .of (lab k) else .raise t) (n + 1) where
  start := by simp only [Nat.zero_le, if_true]; exact hr.start
  step k hk := by
    by_cases h : k < n
    · simp only [h, Nat.le_of_lt h, Nat.succ_le_of_lt h, if_true]
      exact .keep (hr.step k h)
    · obtain rfl : k = n := by omega
      simp only [Nat.lt_irrefl, Nat.le_refl, Nat.not_succ_le_self, if_true, if_false]
      exact hs

/-- Goroutine 0 adds 5 with height 2 and has linked it on the bottom level; goroutine 1 adds 3 with height 2; goroutine 0 finds the
upper level changed and searches again, and the comparator is called with 3 and 5. -/
def lostSchedule : List (Act Nat) := partOf 0 (.add 5) 42 2 ++ wholeOf 1 (.add 3) 44 2 ++ List.replicate 38 (.step 0 2)

set_option maxRecDepth 8000 in
theorem lostSchedule_run : IsRun Fn.comp 0 (trOf 0 Fn.comp lostSchedule) (labOf 0 Fn.comp lostSchedule) 127 :=
  runOf_isRun (as := lostSchedule) (by decide +kernel)

/-- The state in which the comparator is called with 3 and 5. -/
theorem lost_raise : RStep Fn.comp (trOf 0 Fn.comp lostSchedule 127) (.raise 0)
    ((trOf 0 Fn.comp lostSchedule 127).goto (trOf 0 Fn.comp lostSchedule 127).mem 0 .idle) := by
  have h : ∃ op f k n, (trOf 0 Fn.comp lostSchedule 127).pc 0 = .run op (.find f k) ∧ f.ph = .loadNext ∧
      loadNext (trOf 0 Fn.comp lostSchedule 127).mem f.cur f.level = .ok n ∧ isMarked n = false ∧ f.cur ≠ ref headA ∧ f.cur ≠ ref tailA := by
    have hb : (match (trOf 0 Fn.comp lostSchedule 127).pc 0 with
      | .run _ (.find f _) => match loadNext (trOf 0 Fn.comp lostSchedule 127).mem f.cur f.level with
        | .ok n => decide (f.ph = .loadNext) && !isMarked n && decide (f.cur ≠ ref headA) && decide (f.cur ≠ ref tailA)
        | _ => false
      | _ => false) = true := by decide +kernel
    split at hb
    · rename_i op f k e
      split at hb
      · rename_i n e'
        simp only [Bool.and_eq_true, decide_eq_true_eq, Bool.not_eq_true'] at hb
        exact ⟨op, f, k, n, e, hb.1.1.1, e', hb.1.1.2, hb.1.2, hb.2⟩
      · cases hb
    · cases hb
  obtain ⟨op, f, k, n, h1, h2, h3, h4, h5, h6⟩ := h
  exact .raise _ 0 op f k n h1 h2 h3 h4 h5 h6

theorem goto_mem (s : St T) (m : Mem T) (t : Nat) (p : Pc T) : (s.goto m t p).mem = m := rfl

theorem lost_notRet (j : Nat) (o : Out Nat) (hj : j < 127) : labOf 0 Fn.comp lostSchedule j ≠ .ret 0 o := by
  have hb : ∀ j, j < 127 → (labOf 0 Fn.comp lostSchedule j).isRetOf 0 = false := by decide +kernel
  have := hb j hj
  generalize labOf 0 Fn.comp lostSchedule j = l at this
  rintro rfl
  simp [Label.isRetOf] at this

theorem ended_raise {lab : Nat → Label T} {t : Nat} (h : ∀ j o, j < n → lab j ≠ .ret t o) (hn : 0 < n) :
    Ended (fun k => if k < n then .of (lab k) else .raise t) (n + 1) 0 t n := by
  refine ⟨hn, by omega, .inr (by simp), fun x h1 h2 => ?_⟩
  simp only [h2, if_true]
  exact ⟨fun o e => h x o h2 (by injection e), by simp⟩

/-- The claim that fails: after one panic in `Add(5)`, recovered, with nobody in a call, the set holds 3 and 5 and the counter, which is
what `Len` returns, is 1. -/
theorem raised_len_refuted : ∃ tr lab, IsRRun Fn.comp (0 : Nat) tr lab 128 ∧ (∀ t, (tr 128).pc t = .idle) ∧ Elements Fn.comp (tr 128).mem [3, 5] ∧
    (tr 128).mem.size = 1 ∧ lab 0 = .of (.call 0 (.add 5)) ∧ Ended lab 128 0 0 127 ∧ lab 127 = .raise 0 := by
  refine ⟨_, _, then_raise lostSchedule_run lost_raise, ?_, ?_, ?_, ?_, ?_, ?_⟩
  · intro t
    simp only [Nat.reduceLeDiff, if_false]
    by_cases h0 : t = 0
    · subst h0; exact goto_pc_same _ _ _ _
    · rw [goto_pc_ne _ _ _ h0]
      by_cases h1 : t = 1
      · subst h1
        have hb : (match (trOf 0 Fn.comp lostSchedule 127).pc 1 with
          | .idle => true
          | _ => false) = true := by decide +kernel
        split at hb
        · assumption
        · cases hb
      · have hb : ∀ j, j < 127 → (labOf 0 Fn.comp lostSchedule j).tid < 2 := by decide +kernel
        exact untouched lostSchedule_run 127 (Nat.le_refl _) fun j hj e => by have := hb j hj; omega
  · simp only [Nat.reduceLeDiff, if_false]
    have hl := elements_of_walk (P := [3, 2]) Fn.comp_strict.toLawful lostSchedule_run (k := 127) (by decide) (by decide +kernel) (by decide +kernel)
      (by decide +kernel)
    have e : [3, 2].map (trOf 0 Fn.comp lostSchedule 127).mem.val = [3, 5] := by decide +kernel
    rw [e] at hl
    rw [goto_mem]
    exact hl
  · simp only [Nat.reduceLeDiff, if_false]
    rw [goto_mem]
    decide +kernel
  · simp only [Nat.reduceLT, if_true]
    have : labOf 0 Fn.comp lostSchedule 0 = .call 0 (.add 5) := by decide +kernel
    rw [this]
  · exact ended_raise lost_notRet (by decide)
  · simp only [Nat.lt_irrefl, if_false]

end Gds.LockFree
