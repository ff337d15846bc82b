import Verif.Queue.Lemmas

/-! C20: the linked queue under every interleaving (collections/queue/queue.go:35-75). -/

namespace Gds.Queue
variable {T : Type _}

/-! ### Specification: a FIFO list, operations applied one after another in lock-acquisition order -/

/-- One operation on a list. -/
def lfifo : List T → LOp T → List T × LOut T
  | q, .push v => (q ++ [v], .unit)
  | [], .pop => ([], .panic)
  | v :: q, .pop => (q, .val v)
  | [], .peek => ([], .panic)
  | v :: q, .peek => (v :: q, .val v)

/-- Final contents and results (with the goroutine they go to) of a sequence of operations. -/
def lfifoRun : List T → List (Nat × LOp T) → List T × List (Nat × LOut T)
  | q, [] => (q, [])
  | q, (t, op) :: rest =>
    let r := lfifoRun (lfifo q op).1 rest
    (r.1, (t, (lfifo q op).2) :: r.2)

/-- The results of goroutine `t`, in order. -/
def resultsOf (t : Nat) (l : List (Nat × LOut T)) : List (LOut T) :=
  (l.filter (fun x => x.1 = t)).map (·.2)

/-- The goroutine is between acquiring and releasing the mutex. -/
def Pc.inCS : Pc T → Bool
  | .pushTest _ | .pushHead _ | .pushTailNext _ | .pushTail _ | .pushCount | .pushUnlock
  | .popRead | .popNext _ | .popHead _ _ | .popTest _ | .popTail _ | .popCount _ | .popUnlock _ | .popPanic
  | .peekRead | .peekUnlock _ => true
  | _ => false

/-! ### Invariant -/

theorem lfifoRun_snoc (q : List T) (l : List (Nat × LOp T)) (t : Nat) (op : LOp T) :
    lfifoRun q (l ++ [(t, op)]) =
      ((lfifo (lfifoRun q l).1 op).1, (lfifoRun q l).2 ++ [(t, (lfifo (lfifoRun q l).1 op).2)]) := by
  induction l generalizing q with
  | nil => rfl
  | cons x l ih => obtain ⟨a, b⟩ := x; simp [lfifoRun, ih]

theorem resultsOf_snoc (t u : Nat) (l : List (Nat × LOut T)) (o : LOut T) :
    resultsOf t (l ++ [(u, o)]) = resultsOf t l ++ if u = t then [o] else [] := by
  unfold resultsOf
  by_cases h : u = t <;> simp [h, List.filter_append]

def outOf (sh : St T) : Option Nat → LOut T
  | none => .panic
  | some n => .val (sh.heap n).val

/-- Result the goroutine has been assigned by the specification but has not returned yet. -/
def pend (sh : St T) : Pc T → List (LOut T)
  | .pushTest _ | .pushHead _ | .pushTailNext _ | .pushTail _ | .pushCount | .pushUnlock => [.unit]
  | .popRead | .peekRead => [outOf sh sh.head]
  | .popNext n | .peekUnlock n | .peekValue n => [outOf sh n]
  | .popHead n _ | .popTest n | .popTail n | .popCount n | .popUnlock n | .popValue n => [.val (sh.heap n).val]
  | .popPanic => [.panic]
  | _ => []

structure Fresh (sh : St T) (node : Nat) (old : List Nat) : Prop where
  lt : node < sh.alloc
  nil : (sh.heap node).next = none
  notin : node ∉ old

/-- Shape of the shared fields while the lock holder is at a given line; `ids` is the node list the operation
    is going to leave behind. -/
def Shape (sh : St T) (ids : List Nat) : Pc T → Prop
  | .pushTest node => ∃ old, ids = old ++ [node] ∧ Good sh old ∧ Fresh sh node old
  | .pushHead node => ids = [node] ∧ Good sh [] ∧ Fresh sh node []
  | .pushTailNext node => ∃ old, ids = old ++ [node] ∧ old ≠ [] ∧ Good sh old ∧ Fresh sh node old
  | .pushTail node => ids.getLast? = some node ∧ Path sh.heap sh.head ids ∧ sh.count + 1 = ids.length
  | .pushCount => Path sh.heap sh.head ids ∧ sh.tail = ids.getLast? ∧ sh.count + 1 = ids.length
  | .pushUnlock => Good sh ids
  | .popRead => ∃ old, ids = old.tail ∧ Good sh old
  | .popNext n => ∃ old, ids = old.tail ∧ Good sh old ∧ n = old.head?
  | .popHead n nn => Good sh (n :: ids) ∧ nn = (sh.heap n).next
  | .popTest n => Path sh.heap sh.head ids ∧ sh.tail = (n :: ids).getLast? ∧ sh.count = ids.length + 1 ∧ n < sh.alloc
  | .popTail n => ids = [] ∧ sh.head = none ∧ sh.count = 1 ∧ n < sh.alloc
  | .popCount n => Path sh.heap sh.head ids ∧ sh.tail = ids.getLast? ∧ sh.count = ids.length + 1 ∧ n < sh.alloc
  | .popUnlock n => Good sh ids ∧ n < sh.alloc
  | .popPanic => Good sh ids
  | .peekRead => Good sh ids
  | .peekUnlock n => Good sh ids ∧ n = ids.head?
  | _ => True

structure Inv (s : Sys T) (ids : List Nat) : Prop where
  out : ∀ t, resultsOf t (lfifoRun [] s.acqs).2 = resultsOf t s.rets ++ pend s.sh (s.pc t)
  uniq : ∀ t t', (s.pc t).inCS = true → (s.pc t').inCS = true → t = t'
  lock : s.sh.locked = false → ∀ t, (s.pc t).inCS = false
  held : s.sh.locked = true → ∃ t, (s.pc t).inCS = true
  vals : Gds.Queue.vals s.sh ids = (lfifoRun [] s.acqs).1
  shape : ∀ t, (s.pc t).inCS = true → Shape s.sh ids (s.pc t)
  free : s.sh.locked = false → Good s.sh ids
  wait : ∀ t node, s.pc t = .pushLock node → Fresh s.sh node ids
  dist : ∀ t t' node, s.pc t = .pushLock node → s.pc t' = .pushLock node → t = t'
  bound : ∀ t n, (s.pc t = .popValue n ∨ s.pc t = .peekValue (some n)) → n < s.sh.alloc
  nodup : ids.Nodup
  alloc : ∀ n ∈ ids, n < s.sh.alloc

theorem inv_init (heap : Nat → Node T) (alloc : Nat) : Inv (Sys.init heap alloc) [] := by
  constructor <;> simp [Sys.init, St.new, Pc.inCS, pend, resultsOf, lfifoRun, Gds.Queue.vals]
  exact good_new heap alloc

theorem inCS_not_wait {p : Pc T} (h : p.inCS = true) :
    (∀ n, p ≠ .pushLock n) ∧ (∀ n, p ≠ .popValue n) ∧ (∀ n, p ≠ .peekValue n) := by
  refine ⟨?_, ?_, ?_⟩ <;> (intro n e; subst e; simp [Pc.inCS] at h)

/-- The assigned result of a goroutine does not change when values of allocated nodes and (if it is inside) the
    head stay. -/
theorem pend_congr {s : Sys T} {ids : List Nat} (h : Inv s ids) {sh' : St T} (t : Nat)
    (hv : ∀ k, k < s.sh.alloc → (sh'.heap k).val = (s.sh.heap k).val)
    (hh : (s.pc t).inCS = true → sh'.head = s.sh.head) : pend sh' (s.pc t) = pend s.sh (s.pc t) := by
  have hs := h.shape t
  have hb := h.bound t
  have halloc := h.alloc
  have hmem : ∀ (old : List Nat) n, Good s.sh old → old.head? = some n → n < s.sh.alloc := by
    intro old n g e
    apply g.alloc
    exact List.mem_of_mem_head? e
  have hmem' : ∀ (old : List Nat) n, Good s.sh old → s.sh.head = some n → n < s.sh.alloc := by
    intro old n g e
    exact hmem old n g (by rw [← e, path_head g.path])
  cases hp : s.pc t <;> simp only [hp, Pc.inCS, Shape, forall_const, true_implies] at hs hb hh ⊢ <;> simp only [pend]
  case popRead =>
    obtain ⟨old, -, g⟩ := hs
    rw [hh]
    cases he : s.sh.head with
    | none => rfl
    | some n => simp [outOf, hv n (hmem' old n g he)]
  case peekRead =>
    rw [hh]
    cases he : s.sh.head with
    | none => rfl
    | some n => simp [outOf, hv n (hmem' _ n hs he)]
  case popNext n =>
    obtain ⟨old, -, g, e⟩ := hs
    cases n with
    | none => rfl
    | some n => simp [outOf, hv n (hmem old n g e.symm)]
  case peekUnlock n =>
    obtain ⟨g, e⟩ := hs
    cases n with
    | none => rfl
    | some n => simp [outOf, hv n (hmem _ n g e.symm)]
  case peekValue n =>
    cases n with
    | none => rfl
    | some n => simp [outOf, hv n (hb n (Or.inr rfl))]
  case popHead n nn => simp [hv n (hs.1.alloc n (by simp))]
  case popTest n => simp [hv n hs.2.2.2]
  case popTail n => simp [hv n hs.2.2.2]
  case popCount n => simp [hv n hs.2.2.2]
  case popUnlock n => simp [hv n hs.2]
  case popValue n => simp [hv n (hb n (Or.inl rfl))]

/-- A step inside the critical section. -/
theorem cs_step {s : Sys T} {ids : List Nat} (h : Inv s ids) {t : Nat} {p : Pc T} {sh' : St T}
    (hin : (s.pc t).inCS = true) (hp : p.inCS = true) (hl : sh'.locked = s.sh.locked)
    (ha : sh'.alloc = s.sh.alloc) (hv : ∀ k, (sh'.heap k).val = (s.sh.heap k).val)
    (hnx : ∀ k, k ∉ ids → (sh'.heap k).next = (s.sh.heap k).next)
    (hpend : pend sh' p = pend s.sh (s.pc t)) (hshape : Shape sh' ids p) :
    Inv ({ s with sh := sh' }.goto t p) ids := by
  have hlk : s.sh.locked = true := by
    by_contra hc
    have := h.lock (by simpa using hc) t
    simp [this] at hin
  have hpc := inCS_not_wait hp
  refine ⟨?_, ?_, ?_, ?_, ?_, ?_, ?_, ?_, ?_, ?_, h.nodup, ?_⟩ <;> simp only [Sys.goto]
  · intro u
    rw [h.out u]
    split
    · next e => subst e; rw [hpend]
    · next e =>
      rw [pend_congr h u (fun k _ => hv k)]
      intro hu; exact absurd (h.uniq _ _ hu hin) e
  · intro a b
    split <;> split
    · intros; omega
    · intro _ hb; have := h.uniq _ _ hb hin; omega
    · intro ha _; have := h.uniq _ _ ha hin; omega
    · exact h.uniq a b
  · intro hc; rw [hl, hlk] at hc; cases hc
  · intro _; exact ⟨t, by simpa using hp⟩
  · rw [← h.vals]; simp [Gds.Queue.vals, hv]
  · intro u
    split
    · intro _; exact hshape
    · next e => intro hu; exact absurd (h.uniq _ _ hu hin) e
  · intro hc; rw [hl, hlk] at hc; cases hc
  · intro u node
    split
    · intro e; exact absurd e (hpc.1 node)
    · intro e
      have f := h.wait u node e
      exact ⟨by rw [ha]; exact f.lt, by rw [hnx node f.notin]; exact f.nil, f.notin⟩
  · intro a b node
    split
    · intro e; exact absurd e (hpc.1 node)
    · split
      · intro _ e; exact absurd e (hpc.1 node)
      · exact h.dist a b node
  · intro u n
    rw [ha]
    split
    · rintro (e | e)
      · exact absurd e (hpc.2.1 n)
      · exact absurd e (hpc.2.2 _)
    · exact h.bound u n
  · rw [ha]; exact h.alloc

/-- Taking the free mutex. -/
theorem acquire_step {s : Sys T} {ids ids' : List Nat} (h : Inv s ids) {t : Nat} {p : Pc T} {op : LOp T}
    (hl : s.sh.locked = false) (hp : p.inCS = true)
    (hpend0 : pend s.sh (s.pc t) = [])
    (hpend : pend { s.sh with locked := true } p = [(lfifo (Gds.Queue.vals s.sh ids) op).2])
    (hvals : Gds.Queue.vals s.sh ids' = (lfifo (Gds.Queue.vals s.sh ids) op).1)
    (hwait : ∀ u node, u ≠ t → s.pc u = .pushLock node → node ∉ ids')
    (hnd : ids'.Nodup) (hal : ∀ n ∈ ids', n < s.sh.alloc)
    (hshape : Shape { s.sh with locked := true } ids' p) :
    Inv ({ s with sh := { s.sh with locked := true }, acqs := s.acqs ++ [(t, op)] }.goto t p) ids' := by
  have hno := h.lock hl
  have hpc := inCS_not_wait hp
  refine ⟨?_, ?_, ?_, ?_, ?_, ?_, ?_, ?_, ?_, ?_, hnd, hal⟩ <;> simp only [Sys.goto]
  · intro u
    rw [lfifoRun_snoc, resultsOf_snoc, h.out u, ← h.vals]
    by_cases e : u = t
    · subst e; rw [hpend0]; simp [hpend]
    · rw [if_neg (Ne.symm e), if_neg e, List.append_nil]
      congr 1
  · intro a b
    split <;> split
    · intros; omega
    · intro _ hb; simp [hno b] at hb
    · intro ha _; simp [hno a] at ha
    · intro ha _; simp [hno a] at ha
  · intro hc; cases hc
  · intro _; exact ⟨t, by simpa using hp⟩
  · rw [lfifoRun_snoc, ← h.vals, ← hvals]; rfl
  · intro u
    split
    · intro _; exact hshape
    · intro hu; simp [hno u] at hu
  · intro hc; cases hc
  · intro u node
    split
    · intro e; exact absurd e (hpc.1 node)
    · next e =>
      intro e'
      have f := h.wait u node e'
      exact ⟨f.lt, f.nil, hwait u node e e'⟩
  · intro a b node
    split
    · intro e; exact absurd e (hpc.1 node)
    · split
      · intro _ e; exact absurd e (hpc.1 node)
      · exact h.dist a b node
  · intro u n
    split
    · rintro (e | e)
      · exact absurd e (hpc.2.1 n)
      · exact absurd e (hpc.2.2 _)
    · exact h.bound u n

/-- Releasing the mutex. -/
theorem release_step {s : Sys T} {ids : List Nat} (h : Inv s ids) {t : Nat} {p : Pc T}
    {rets' : List (Nat × LOut T)} (hin : (s.pc t).inCS = true) (hp : p.inCS = false)
    (hw : ∀ n, p ≠ .pushLock n)
    (hb : ∀ n, (p = .popValue n ∨ p = .peekValue (some n)) → n < s.sh.alloc)
    (hg : Good s.sh ids)
    (hout : ∀ u, resultsOf u rets' ++ (if u = t then pend s.sh p else []) =
      resultsOf u s.rets ++ if u = t then pend s.sh (s.pc t) else []) :
    Inv ({ s with sh := { s.sh with locked := false }, rets := rets' }.goto t p) ids := by
  refine ⟨?_, ?_, ?_, ?_, h.vals, ?_, ?_, ?_, ?_, ?_, h.nodup, h.alloc⟩ <;> simp only [Sys.goto]
  · intro u
    rw [h.out u]
    have := hout u
    by_cases e : u = t
    · subst e
      simp only [if_true] at this ⊢
      rw [← this]
      congr 1
    · simp only [e, if_false, List.append_nil] at this ⊢
      rw [this]
      congr 1
  · intro a b
    split <;> split
    · intros; omega
    · intro hx; simp [hp] at hx
    · intro _ hx; simp [hp] at hx
    · exact h.uniq a b
  · intro _ u
    split
    · exact hp
    · next e =>
      by_contra hc
      exact e (h.uniq _ _ (by simpa using hc) hin)
  · intro hc; cases hc
  · intro u
    split
    · intro hx; simp [hp] at hx
    · next e => intro hu; exact absurd (h.uniq _ _ hu hin) e
  · intro _; exact good_setLocked hg false
  · intro u node
    split
    · intro e; exact absurd e (hw node)
    · intro e; have f := h.wait u node e; exact ⟨f.lt, f.nil, f.notin⟩
  · intro a b node
    split
    · intro e; exact absurd e (hw node)
    · split
      · intro _ e; exact absurd e (hw node)
      · exact h.dist a b node
  · intro u n
    split
    · exact hb n
    · exact h.bound u n

/-- A step outside the critical section that does not touch the shared state. -/
theorem local_step {s : Sys T} {ids : List Nat} (h : Inv s ids) {t : Nat} {p : Pc T}
    {rets' : List (Nat × LOut T)} (hin : (s.pc t).inCS = false) (hp : p.inCS = false)
    (hw : ∀ n, p ≠ .pushLock n) (hb : ∀ n, p ≠ .popValue n ∧ p ≠ .peekValue (some n))
    (hout : ∀ u, resultsOf u rets' ++ (if u = t then pend s.sh p else []) =
      resultsOf u s.rets ++ if u = t then pend s.sh (s.pc t) else []) :
    Inv ({ s with rets := rets' }.goto t p) ids := by
  refine ⟨?_, ?_, ?_, ?_, h.vals, ?_, h.free, ?_, ?_, ?_, h.nodup, h.alloc⟩ <;> simp only [Sys.goto]
  · intro u
    rw [h.out u]
    have := hout u
    by_cases e : u = t
    · subst e; simp only [if_true] at this ⊢; exact this.symm
    · simp only [e, if_false, List.append_nil] at this ⊢; rw [this]
  · intro a b
    split <;> split
    · intros; omega
    · intro hx; simp [hp] at hx
    · intro _ hx; simp [hp] at hx
    · exact h.uniq a b
  · intro hl u
    split
    · exact hp
    · exact h.lock hl u
  · intro hl
    obtain ⟨u, hu⟩ := h.held hl
    refine ⟨u, ?_⟩
    split
    · next e => subst e; simp [hin] at hu
    · exact hu
  · intro u
    split
    · intro hx; simp [hp] at hx
    · exact h.shape u
  · intro u node
    split
    · intro e; exact absurd e (hw node)
    · exact h.wait u node
  · intro a b node
    split
    · intro e; exact absurd e (hw node)
    · split
      · intro _ e; exact absurd e (hw node)
      · exact h.dist a b node
  · intro u n
    split
    · rintro (e | e)
      · exact absurd e (hb n).1
      · exact absurd e (hb n).2
    · exact h.bound u n

/-- Allocating the node of a Push (outside the critical section). -/
theorem alloc_step {s : Sys T} {ids : List Nat} (h : Inv s ids) {t : Nat} (v : T) (hidle : s.pc t = .idle) :
    Inv ({ s with sh := (newNode s.sh v).1 }.goto t (.pushLock (newNode s.sh v).2)) ids := by
  have hold : ∀ k, k < s.sh.alloc → (newNode s.sh v).1.heap k = s.sh.heap k := by
    intro k hk; simp only [newNode]; rw [if_neg (by omega)]
  have hgood : ∀ old, Good s.sh old → Good (newNode s.sh v).1 old := fun old g => good_newNode g v
  have hpath : ∀ a, Path s.sh.heap a ids → Path (newNode s.sh v).1.heap a ids :=
    fun a hp => path_congr (fun n hn => by rw [hold n (h.alloc n hn)]) hp
  have hfresh : ∀ node old, Fresh s.sh node old → Fresh (newNode s.sh v).1 node old := by
    intro node old f
    exact ⟨Nat.lt_succ_of_lt f.lt, by rw [hold node f.lt]; exact f.nil, f.notin⟩
  refine ⟨?_, ?_, ?_, ?_, ?_, ?_, ?_, ?_, ?_, ?_, h.nodup, fun n hn => Nat.lt_succ_of_lt (h.alloc n hn)⟩ <;>
    simp only [Sys.goto]
  · intro u
    rw [h.out u]
    by_cases e : u = t
    · subst e; simp [hidle, pend]
    · simp only [e, if_false]
      rw [pend_congr (sh' := (newNode s.sh v).1) h u (fun k hk => by rw [hold k hk]) (fun _ => rfl)]
  · intro a b
    split <;> split
    · intros; omega
    · intro hx; simp [Pc.inCS] at hx
    · intro _ hx; simp [Pc.inCS] at hx
    · exact h.uniq a b
  · intro hl u
    split
    · rfl
    · exact h.lock hl u
  · intro hl
    obtain ⟨u, hu⟩ := h.held hl
    refine ⟨u, ?_⟩
    split
    · next e => subst e; simp [hidle, Pc.inCS] at hu
    · exact hu
  · rw [← h.vals]
    simp only [Gds.Queue.vals]
    apply List.map_congr_left
    intro n hn
    rw [hold n (h.alloc n hn)]
  · intro u
    split
    · intro hx; simp [Pc.inCS] at hx
    · intro hu
      have hs := h.shape u hu
      cases hp : s.pc u <;> simp only [hp, Shape] at hs ⊢
      case pushTest node => obtain ⟨old, e, g, f⟩ := hs; exact ⟨old, e, hgood _ g, hfresh _ _ f⟩
      case pushHead node => exact ⟨hs.1, hgood _ hs.2.1, hfresh _ _ hs.2.2⟩
      case pushTailNext node => obtain ⟨old, e, ne, g, f⟩ := hs; exact ⟨old, e, ne, hgood _ g, hfresh _ _ f⟩
      case pushTail node => exact ⟨hs.1, hpath _ hs.2.1, hs.2.2⟩
      case pushCount => exact ⟨hpath _ hs.1, hs.2⟩
      case pushUnlock => exact hgood _ hs
      case popRead => obtain ⟨old, e, g⟩ := hs; exact ⟨old, e, hgood _ g⟩
      case popNext n => obtain ⟨old, e, g, e'⟩ := hs; exact ⟨old, e, hgood _ g, e'⟩
      case popHead n nn => exact ⟨hgood _ hs.1, by rw [hold n (hs.1.alloc n (by simp))]; exact hs.2⟩
      case popTest n => exact ⟨hpath _ hs.1, hs.2.1, hs.2.2.1, Nat.lt_succ_of_lt hs.2.2.2⟩
      case popTail n => exact ⟨hs.1, hs.2.1, hs.2.2.1, Nat.lt_succ_of_lt hs.2.2.2⟩
      case popCount n => exact ⟨hpath _ hs.1, hs.2.1, hs.2.2.1, Nat.lt_succ_of_lt hs.2.2.2⟩
      case popUnlock n => exact ⟨hgood _ hs.1, Nat.lt_succ_of_lt hs.2⟩
      case popPanic => exact hgood _ hs
      case peekRead => exact hgood _ hs
      case peekUnlock n => exact ⟨hgood _ hs.1, hs.2⟩
  · intro hl; exact hgood _ (h.free hl)
  · intro u node
    split
    · intro e
      simp only [Pc.pushLock.injEq] at e
      subst e
      refine ⟨Nat.lt_succ_self _, by simp [newNode], fun hm => ?_⟩
      exact absurd (h.alloc _ hm) (by simp [newNode])
    · intro e; exact hfresh _ _ (h.wait u node e)
  · intro a b node
    have key : ∀ u, s.pc u = .pushLock node → node ≠ s.sh.alloc := by
      intro u e; have := (h.wait u node e).lt; omega
    split <;> split
    · intros; omega
    · intro e e'; simp only [newNode, Pc.pushLock.injEq] at e; exact absurd e.symm (key b e')
    · intro e' e; simp only [newNode, Pc.pushLock.injEq] at e; exact absurd e.symm (key a e')
    · exact h.dist a b node
  · intro u n
    split
    · rintro (e | e) <;> cases e
    · intro e; exact Nat.lt_succ_of_lt (h.bound u n e)

theorem inv_step {s s' : Sys T} {t : Nat} {ids : List Nat} (h : Inv s ids) (st : Step t s s') :
    ∃ ids', Inv s' ids' := by
  cases st with
  | startPush v hp => exact ⟨ids, alloc_step h v hp⟩
  | pushLock node hp hl =>
    have f := h.wait t node hp
    have g := h.free hl
    refine ⟨ids ++ [node], acquire_step h hl rfl (by rw [hp]; rfl) rfl (by simp [Gds.Queue.vals, lfifo]) ?_ ?_ ?_ ?_⟩
    · intro u n hu e hm
      rcases List.mem_append.1 hm with hm | hm
      · exact (h.wait u n e).notin hm
      · simp at hm; subst hm; exact hu (h.dist u t n e hp)
    · exact List.Nodup.append h.nodup (by simp) (by simpa [List.disjoint_singleton] using f.notin)
    · intro n hm
      rcases List.mem_append.1 hm with hm | hm
      · exact h.alloc n hm
      · simp at hm; subst hm; exact f.lt
    · exact ⟨ids, rfl, good_setLocked g true, ⟨f.lt, f.nil, f.notin⟩⟩
  | pushTestNil node hp hh =>
    have hs := h.shape t (by rw [hp]; rfl)
    rw [hp] at hs
    obtain ⟨old, e, g, f⟩ := hs
    have : old = [] := by
      have := path_head g.path
      rw [hh] at this
      simpa using this.symm
    subst this
    exact ⟨ids, cs_step (sh' := s.sh) h (by rw [hp]; rfl) rfl rfl rfl (fun _ => rfl) (fun _ _ => rfl) (by rw [hp]; rfl) ⟨by simpa using e, g, f⟩⟩
  | pushTestSome node hd hp hh =>
    have hs := h.shape t (by rw [hp]; rfl)
    rw [hp] at hs
    obtain ⟨old, e, g, f⟩ := hs
    refine ⟨ids, cs_step (sh' := s.sh) h (by rw [hp]; rfl) rfl rfl rfl (fun _ => rfl) (fun _ _ => rfl) (by rw [hp]; rfl) ⟨old, e, ?_, g, f⟩⟩
    rintro rfl
    have := path_head g.path
    rw [hh] at this
    simp at this
  | pushHead node hp =>
    have hs := h.shape t (by rw [hp]; rfl)
    rw [hp] at hs
    obtain ⟨e, g, f⟩ := hs
    subst e
    refine ⟨[node], cs_step h (by rw [hp]; rfl) rfl rfl rfl (fun _ => rfl) (fun _ _ => rfl) (by rw [hp]; rfl) ⟨rfl, ⟨rfl, ?_⟩, ?_⟩⟩
    · simp only [f.nil]; trivial
    · simp [g.count]
  | pushTailNext node a hp ht =>
    have hs := h.shape t (by rw [hp]; rfl)
    rw [hp] at hs
    obtain ⟨old, e, hne, g, f⟩ := hs
    obtain ⟨init, b, rfl⟩ : ∃ init b, old = init ++ [b] :=
      ⟨old.dropLast, old.getLast hne, (List.dropLast_append_getLast hne).symm⟩
    have hb : b = a := by
      have := g.tail
      rw [ht] at this; simpa using this.symm
    subst hb
    refine ⟨ids, cs_step h (by rw [hp]; rfl) rfl rfl rfl ?_ ?_ (by rw [hp]; rfl) ⟨by simp [e], ?_, ?_⟩⟩
    · intro k; simp only [St.setNext]; split <;> rfl
    · intro k hk; simp only [St.setNext]; rw [if_neg (by rintro rfl; simp [e] at hk)]
    · rw [e]; exact path_link g.path g.nodup f.notin f.nil
    · simp [St.setNext, g.count, e]; omega
  | pushTailNextNil node hp ht =>
    have hs := h.shape t (by rw [hp]; rfl)
    rw [hp] at hs
    obtain ⟨old, e, hne, g, f⟩ := hs
    have := g.tail
    rw [ht] at this
    exact absurd (by simpa using this.symm) hne
  | pushTail node hp =>
    have hs := h.shape t (by rw [hp]; rfl)
    rw [hp] at hs
    exact ⟨ids, cs_step h (by rw [hp]; rfl) rfl rfl rfl (fun _ => rfl) (fun _ _ => rfl) (by rw [hp]; rfl) ⟨hs.2.1, hs.1.symm, hs.2.2⟩⟩
  | pushCount hp =>
    have hs := h.shape t (by rw [hp]; rfl)
    rw [hp] at hs
    exact ⟨ids, cs_step h (by rw [hp]; rfl) rfl rfl rfl (fun _ => rfl) (fun _ _ => rfl) (by rw [hp]; rfl)
      ⟨hs.1, hs.2.1, hs.2.2, h.nodup, h.alloc⟩⟩
  | pushUnlock hp =>
    have hs := h.shape t (by rw [hp]; rfl)
    rw [hp] at hs
    refine ⟨ids, release_step h (by rw [hp]; rfl) rfl (by simp) (by simp) hs ?_⟩
    intro u
    rw [resultsOf_snoc, hp]
    by_cases e : u = t
    · subst e; simp [pend]
    · simp [e, Ne.symm e]
  | startPop hp =>
    exact ⟨ids, local_step h (by rw [hp]; rfl) rfl (by simp) (by simp) (by intro u; rw [hp]; rfl)⟩
  | popLock hp hl =>
    have g := h.free hl
    have hhd := path_head g.path
    refine ⟨ids.tail, acquire_step h hl rfl (by rw [hp]; rfl) ?_ ?_ ?_ ?_ ?_ ⟨ids, rfl, good_setLocked g true⟩⟩
    · cases ids <;> simp [pend, lfifo, Gds.Queue.vals, hhd, outOf]
    · cases ids <;> simp [lfifo, Gds.Queue.vals]
    · intro u n _ e hm; exact (h.wait u n e).notin (List.mem_of_mem_tail hm)
    · exact h.nodup.tail
    · intro n hm; exact h.alloc n (List.mem_of_mem_tail hm)
  | popRead hp =>
    have hs := h.shape t (by rw [hp]; rfl)
    rw [hp] at hs
    obtain ⟨old, e, g⟩ := hs
    exact ⟨ids, cs_step (sh' := s.sh) h (by rw [hp]; rfl) rfl rfl rfl (fun _ => rfl) (fun _ _ => rfl) (by rw [hp]; rfl) ⟨old, e, g, path_head g.path⟩⟩
  | popNext n hp =>
    have hs := h.shape t (by rw [hp]; rfl)
    rw [hp] at hs
    obtain ⟨old, e, g, e'⟩ := hs
    cases old with
    | nil => simp at e'
    | cons m r =>
      simp at e' e; subst e' e
      exact ⟨ids, cs_step (sh' := s.sh) h (by rw [hp]; rfl) rfl rfl rfl (fun _ => rfl) (fun _ _ => rfl) (by rw [hp]; rfl) ⟨g, rfl⟩⟩
  | popNextNil hp =>
    have hs := h.shape t (by rw [hp]; rfl)
    rw [hp] at hs
    obtain ⟨old, e, g, e'⟩ := hs
    have : old = [] := by simpa using e'.symm
    subst this
    simp at e
    subst e
    exact ⟨[], cs_step (sh' := s.sh) h (by rw [hp]; rfl) rfl rfl rfl (fun _ => rfl) (fun _ _ => rfl) (by rw [hp]; rfl) g⟩
  | popHead n nn hp =>
    have hs := h.shape t (by rw [hp]; rfl)
    rw [hp] at hs
    obtain ⟨g, e⟩ := hs
    have hpth := g.path
    rw [path_head g.path] at hpth
    refine ⟨ids, cs_step h (by rw [hp]; rfl) rfl rfl rfl (fun _ => rfl) (fun _ _ => rfl) (by rw [hp]; rfl) ⟨?_, g.tail, ?_, g.alloc n (by simp)⟩⟩
    · rw [e]; exact hpth.2
    · simp [g.count]
  | popTestNil n hp hh =>
    have hs := h.shape t (by rw [hp]; rfl)
    rw [hp] at hs
    obtain ⟨pth, tl, c, hn⟩ := hs
    have : ids = [] := by
      have := path_head pth
      rw [hh] at this; simpa using this.symm
    subst this
    exact ⟨[], cs_step (sh' := s.sh) h (by rw [hp]; rfl) rfl rfl rfl (fun _ => rfl) (fun _ _ => rfl) (by rw [hp]; rfl) ⟨rfl, hh, by simpa using c, hn⟩⟩
  | popTestSome n hd hp hh =>
    have hs := h.shape t (by rw [hp]; rfl)
    rw [hp] at hs
    obtain ⟨pth, tl, c, hn⟩ := hs
    refine ⟨ids, cs_step (sh' := s.sh) h (by rw [hp]; rfl) rfl rfl rfl (fun _ => rfl) (fun _ _ => rfl) (by rw [hp]; rfl) ⟨pth, ?_, c, hn⟩⟩
    rw [tl]
    cases ids with
    | nil => have := path_head pth; rw [hh] at this; simp at this
    | cons m r => simp [List.getLast?_cons_cons]
  | popTail n hp =>
    have hs := h.shape t (by rw [hp]; rfl)
    rw [hp] at hs
    obtain ⟨e, hh, c, hn⟩ := hs
    subst e
    exact ⟨[], cs_step h (by rw [hp]; rfl) rfl rfl rfl (fun _ => rfl) (fun _ _ => rfl) (by rw [hp]; rfl)
      ⟨by simp only [hh]; trivial, rfl, by simpa using c, hn⟩⟩
  | popCount n hp =>
    have hs := h.shape t (by rw [hp]; rfl)
    rw [hp] at hs
    obtain ⟨pth, tl, c, hn⟩ := hs
    exact ⟨ids, cs_step h (by rw [hp]; rfl) rfl rfl rfl (fun _ => rfl) (fun _ _ => rfl) (by rw [hp]; rfl)
      ⟨⟨pth, tl, by simp [c], h.nodup, h.alloc⟩, hn⟩⟩
  | popUnlock n hp =>
    have hs := h.shape t (by rw [hp]; rfl)
    rw [hp] at hs
    exact ⟨ids, release_step h (by rw [hp]; rfl) rfl (by simp) (by rintro m (e | e) <;> simp at e; subst e; exact hs.2) hs.1
      (by intro u; rw [hp]; rfl)⟩
  | popPanic hp =>
    have hs := h.shape t (by rw [hp]; rfl)
    rw [hp] at hs
    refine ⟨ids, release_step h (by rw [hp]; rfl) rfl (by simp) (by simp) hs ?_⟩
    intro u
    rw [resultsOf_snoc, hp]
    by_cases e : u = t
    · subst e; simp [pend]
    · simp [e, Ne.symm e]
  | popValue n hp =>
    refine ⟨ids, local_step h (by rw [hp]; rfl) rfl (by simp) (by simp) ?_⟩
    intro u
    rw [resultsOf_snoc, hp]
    by_cases e : u = t
    · subst e; simp [pend]
    · simp [e, Ne.symm e]
  | startPeek hp =>
    exact ⟨ids, local_step h (by rw [hp]; rfl) rfl (by simp) (by simp) (by intro u; rw [hp]; rfl)⟩
  | peekLock hp hl =>
    have g := h.free hl
    have hhd := path_head g.path
    refine ⟨ids, acquire_step h hl rfl (by rw [hp]; rfl) ?_ ?_ ?_ h.nodup h.alloc (good_setLocked g true)⟩
    · cases ids <;> simp [pend, lfifo, Gds.Queue.vals, hhd, outOf]
    · cases ids <;> simp [lfifo, Gds.Queue.vals]
    · intro u n _ e; exact (h.wait u n e).notin
  | peekRead hp =>
    have hs := h.shape t (by rw [hp]; rfl)
    rw [hp] at hs
    exact ⟨ids, cs_step (sh' := s.sh) h (by rw [hp]; rfl) rfl rfl rfl (fun _ => rfl) (fun _ _ => rfl) (by rw [hp]; rfl) ⟨hs, path_head (Good.path hs)⟩⟩
  | peekUnlock n hp =>
    have hs := h.shape t (by rw [hp]; rfl)
    rw [hp] at hs
    refine ⟨ids, release_step h (by rw [hp]; rfl) rfl (by simp) ?_ hs.1 (by intro u; rw [hp]; rfl)⟩
    rintro m (e | e) <;> simp at e
    subst e
    exact h.alloc m (List.mem_of_mem_head? hs.2.symm)
  | peekValue n hp =>
    refine ⟨ids, local_step h (by rw [hp]; rfl) rfl (by simp) (by simp) ?_⟩
    intro u
    rw [resultsOf_snoc, hp]
    by_cases e : u = t
    · subst e; simp [pend, outOf]
    · simp [e, Ne.symm e]
  | peekValueNil hp =>
    refine ⟨ids, local_step h (by rw [hp]; rfl) rfl (by simp) (by simp) ?_⟩
    intro u
    rw [resultsOf_snoc, hp]
    by_cases e : u = t
    · subst e; simp [pend, outOf]
    · simp [e, Ne.symm e]

theorem reach_inv {heap : Nat → Node T} {alloc : Nat} {s : Sys T} (h : Reach heap alloc s) : ∃ ids, Inv s ids := by
  induction h with
  | init => exact ⟨[], inv_init heap alloc⟩
  | step _ st ih => obtain ⟨ids, hi⟩ := ih; exact inv_step hi st

/-! ### Theorems -/

/-- C20, mutual exclusion: on every schedule at most one goroutine is between Lock and Unlock. -/
theorem mutual_exclusion {heap : Nat → Node T} {alloc : Nat} {s : Sys T} (h : Reach heap alloc s) {t u : Nat}
    (ht : (s.pc t).inCS = true) (hu : (s.pc u).inCS = true) : t = u := by
  obtain ⟨ids, hi⟩ := reach_inv h; exact hi.uniq t u ht hu

theorem pend_length (sh : St T) (p : Pc T) : (pend sh p).length ≤ 1 := by cases p <;> simp [pend]

/-- C20, atomicity: on every schedule, what each goroutine has been given back is an initial segment of what it
    gets when the operations run one after another on a FIFO list, in the order in which they acquired the
    mutex; all but at most the goroutine's current operation have been given back. -/
theorem results_are_fifo {heap : Nat → Node T} {alloc : Nat} {s : Sys T} (h : Reach heap alloc s) (t : Nat) :
    resultsOf t s.rets <+: resultsOf t (lfifoRun [] s.acqs).2 ∧
    (resultsOf t (lfifoRun [] s.acqs).2).length ≤ (resultsOf t s.rets).length + 1 ∧
    (s.pc t = .idle → resultsOf t s.rets = resultsOf t (lfifoRun [] s.acqs).2) := by
  obtain ⟨ids, hi⟩ := reach_inv h
  refine ⟨⟨_, (hi.out t).symm⟩, ?_, ?_⟩
  · rw [hi.out t, List.length_append]
    have := pend_length s.sh (s.pc t)
    omega
  · intro e
    rw [hi.out t, e]
    simp [pend]

/-- C20, contents: whenever the mutex is free, the chain of nodes from the head carries exactly the contents of
    that FIFO list, the tail is its last node and the counter its length. -/
theorem contents_are_fifo {heap : Nat → Node T} {alloc : Nat} {s : Sys T} (h : Reach heap alloc s)
    (hl : s.sh.locked = false) :
    ∃ ids, Path s.sh.heap s.sh.head ids ∧ ids.map (fun n => (s.sh.heap n).val) = (lfifoRun [] s.acqs).1 ∧
      s.sh.tail = ids.getLast? ∧ len s.sh = ((lfifoRun [] s.acqs).1.length : Int) := by
  obtain ⟨ids, hi⟩ := reach_inv h
  have g := hi.free hl
  refine ⟨ids, g.path, hi.vals, g.tail, ?_⟩
  rw [← hi.vals]
  simp [len, g.count, Gds.Queue.vals]

/-- The mutex is held only while some goroutine is inside, and that goroutine always has a next step: no
    schedule can block for ever inside a critical section. -/
theorem holder_progress {heap : Nat → Node T} {alloc : Nat} {s : Sys T} (h : Reach heap alloc s)
    (hl : s.sh.locked = true) : ∃ t s', (s.pc t).inCS = true ∧ Step t s s' := by
  obtain ⟨ids, hi⟩ := reach_inv h
  obtain ⟨t, ht⟩ := hi.held hl
  have step : ∃ s', Step t s s' := by
    cases hp : s.pc t <;> (rw [hp] at ht; simp only [Pc.inCS, Bool.false_eq_true] at ht)
    case pushTest node =>
      cases hh : s.sh.head
      · exact ⟨_, .pushTestNil s node hp hh⟩
      · exact ⟨_, .pushTestSome s node _ hp hh⟩
    case pushHead node => exact ⟨_, .pushHead s node hp⟩
    case pushTailNext node =>
      cases hh : s.sh.tail
      · exact ⟨_, .pushTailNextNil s node hp hh⟩
      · exact ⟨_, .pushTailNext s node _ hp hh⟩
    case pushTail node => exact ⟨_, .pushTail s node hp⟩
    case pushCount => exact ⟨_, .pushCount s hp⟩
    case pushUnlock => exact ⟨_, .pushUnlock s hp⟩
    case popRead => exact ⟨_, .popRead s hp⟩
    case popNext n =>
      cases n
      · exact ⟨_, .popNextNil s hp⟩
      · exact ⟨_, .popNext s _ hp⟩
    case popHead n nn => exact ⟨_, .popHead s n nn hp⟩
    case popTest n =>
      cases hh : s.sh.head
      · exact ⟨_, .popTestNil s n hp hh⟩
      · exact ⟨_, .popTestSome s n _ hp hh⟩
    case popTail n => exact ⟨_, .popTail s n hp⟩
    case popCount n => exact ⟨_, .popCount s n hp⟩
    case popUnlock n => exact ⟨_, .popUnlock s n hp⟩
    case popPanic => exact ⟨_, .popPanic s hp⟩
    case peekRead => exact ⟨_, .peekRead s hp⟩
    case peekUnlock n => exact ⟨_, .peekUnlock s n hp⟩
  obtain ⟨s', hs'⟩ := step
  exact ⟨t, s', ht, hs'⟩

/-- A schedule with two goroutines: 1 allocates for Push 7, 2 allocates for Push 8 and both finish, 2 first.
    The list then is [8, 7]. -/
example : ∃ s : Sys Nat, Reach (fun _ => ⟨0, none⟩) 0 s ∧ s.acqs.length = 2 ∧ s.sh.locked = false ∧
    (lfifoRun [] s.acqs).1 = [8, 7] ∧ (s.pc 1 matches .idle) ∧ (s.pc 2 matches .idle) := by
  have r0 := Reach.init (heap := fun _ => (⟨0, none⟩ : Node Nat)) (alloc := 0)
  have r1 := r0.step (Step.startPush (t := 1) _ 7 rfl)
  have r2 := r1.step (Step.startPush (t := 2) _ 8 rfl)
  have r3 := r2.step (Step.pushLock (t := 2) _ 1 rfl rfl)
  have r4 := r3.step (Step.pushTestNil (t := 2) _ 1 rfl rfl)
  have r5 := r4.step (Step.pushHead (t := 2) _ 1 rfl)
  have r6 := r5.step (Step.pushTail (t := 2) _ 1 rfl)
  have r7 := r6.step (Step.pushCount (t := 2) _ rfl)
  have r8 := r7.step (Step.pushUnlock (t := 2) _ rfl)
  have r9 := r8.step (Step.pushLock (t := 1) _ 0 rfl rfl)
  have r10 := r9.step (Step.pushTestSome (t := 1) _ 0 1 rfl rfl)
  have r11 := r10.step (Step.pushTailNext (t := 1) _ 0 1 rfl rfl)
  have r12 := r11.step (Step.pushTail (t := 1) _ 0 rfl)
  have r13 := r12.step (Step.pushCount (t := 1) _ rfl)
  have r14 := r13.step (Step.pushUnlock (t := 1) _ rfl)
  exact ⟨_, r14, rfl, rfl, rfl, rfl, rfl⟩

end Gds.Queue
