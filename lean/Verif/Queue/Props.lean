import Verif.Queue.Lemmas

/-! Properties C19 and C21. -/
namespace Gds.Queue
variable {T : Type _}

/-- Spec: a FIFO list, oldest element first; Pop and Peek on the empty list panic and change nothing. -/
def fifoStep : List T → Op T → List T × Out T
  | l, .push v => (l ++ [v], .unit)
  | [], .pop => ([], .panic)
  | x :: l, .pop => (l, .val x)
  | [], .peek => ([], .panic)
  | x :: l, .peek => (x :: l, .val x)
  | l, .len => (l, .num l.length)
  | l, .empty => (l, .bool l.isEmpty)

def fifoRun : List T → List (Op T) → List T × List (Out T)
  | l, [] => (l, [])
  | l, op :: ops => ((fifoRun (fifoStep l op).1 ops).1, (fifoStep l op).2 :: (fifoRun (fifoStep l op).1 ops).2)

/-- Representation of the list `l`. -/
def Rep (s : St T) (l : List T) : Prop := ∃ ids, Good s ids ∧ vals s ids = l ∧ s.locked = false

theorem push_rep {s : St T} {l : List T} (h : Rep s l) (v : T) :
    ∃ s', push v s = (s', .ok ()) ∧ Rep s' (l ++ [v]) := by
  obtain ⟨ids, hg, rfl, hl⟩ := h
  have hg' := good_newNode hg v
  have hnot : s.alloc ∉ ids := fun hm => by have := hg.alloc _ hm; omega
  obtain ⟨s', h1, h2, h3, h4, h5, h6⟩ := pushNode_good (node := s.alloc) hg' hl hnot (by simp [newNode])
    (by simp [newNode])
  refine ⟨s', h1, ids ++ [s.alloc], h2, ?_, h3⟩
  unfold vals
  simp only [h5, List.map_append, List.map_cons, List.map_nil]
  congr 1
  · apply List.map_congr_left
    intro n hn; have := hg.alloc n hn; simp only [newNode]; rw [if_neg (by omega)]
  · simp [newNode]

theorem pop_rep_nil {s : St T} (h : Rep s []) : pop s = (s, .panic .nilDeref) := by
  obtain ⟨ids, hg, hv, hl⟩ := h
  have : ids = [] := by simpa [vals] using hv
  subst this
  simp [pop, popNode_empty hg hl]

theorem pop_rep_cons {s : St T} {x : T} {l : List T} (h : Rep s (x :: l)) :
    ∃ s', pop s = (s', .ok x) ∧ Rep s' l := by
  obtain ⟨ids, hg, hv, hl⟩ := h
  cases ids with
  | nil => simp [vals] at hv
  | cons n ids =>
    obtain ⟨s', h1, h2, h3, h4, h5⟩ := popNode_good hg hl
    simp only [vals, List.map_cons, List.cons.injEq] at hv
    refine ⟨s', by simp [pop, h1, value, h5, hv.1], ids, h2, by simp only [vals, h5]; exact hv.2, h3⟩

theorem peekNode_eq {s : St T} (hl : s.locked = false) : peekNode s = (s, .ok s.head) := by
  unfold peekNode withLock
  cases s; simp_all

theorem peek_rep {s : St T} {l : List T} (h : Rep s l) :
    peek s = (s, match l with | [] => .panic .nilDeref | x :: _ => .ok x) := by
  obtain ⟨ids, hg, hv, hl⟩ := h
  have hh := path_head hg.path
  unfold peek
  rw [peekNode_eq hl]
  cases ids with
  | nil => simp only [vals, List.map_nil] at hv; subst hv; simp [hh, value]
  | cons n ids => simp only [vals, List.map_cons] at hv; subst hv; simp [hh, value]

theorem count_rep {s : St T} {l : List T} (h : Rep s l) : s.count = l.length := by
  obtain ⟨ids, hg, hv, hl⟩ := h
  rw [hg.count, ← hv]; simp [vals]

theorem step_rep {s : St T} {l : List T} (h : Rep s l) (op : Op T) :
    (step s op).2 = (fifoStep l op).2 ∧ Rep (step s op).1 (fifoStep l op).1 := by
  cases op with
  | push v =>
    obtain ⟨s', h1, h2⟩ := push_rep h v
    simp [step, h1, fifoStep, Out.ofRes, h2]
  | pop =>
    cases l with
    | nil => simp [step, pop_rep_nil h, fifoStep, Out.ofRes, h]
    | cons x l =>
      obtain ⟨s', h1, h2⟩ := pop_rep_cons h
      simp [step, h1, fifoStep, Out.ofRes, h2]
  | peek =>
    cases l with
    | nil => simp [step, peek_rep h, fifoStep, Out.ofRes, h]
    | cons x l => simp [step, peek_rep h, fifoStep, Out.ofRes, h]
  | len => cases l <;> simp [step, len, count_rep h, fifoStep, h]
  | empty =>
    have hc := count_rep h
    cases l with
    | nil => simp [step, empty, hc, fifoStep, h]
    | cons x l => simp [step, empty, hc, fifoStep, h]; omega

/-- C19: every history of Push/Pop/Peek/Len/Empty on a new queue gives exactly the results of the FIFO list —
    including panics on empty, after which the queue goes on unchanged — and the mutex is free at the end. -/
theorem history_refines_fifo (heap : Nat → Node T) (alloc : Nat) (ops : List (Op T)) :
    (run (St.new heap alloc) ops).2 = (fifoRun [] ops).2 ∧
      (run (St.new heap alloc) ops).1.locked = false ∧
      ∃ ids, Good (run (St.new heap alloc) ops).1 ids ∧ vals (run (St.new heap alloc) ops).1 ids = (fifoRun [] ops).1 := by
  suffices ∀ (s : St T) l, Rep s l → (run s ops).2 = (fifoRun l ops).2 ∧ Rep (run s ops).1 (fifoRun l ops).1 by
    obtain ⟨h1, ids, h2, h3, h4⟩ := this (St.new heap alloc) [] ⟨[], good_new heap alloc, rfl, rfl⟩
    exact ⟨h1, h4, ids, h2, h3⟩
  induction ops with
  | nil => intro s l h; exact ⟨rfl, h⟩
  | cons op ops ih =>
    intro s l h
    obtain ⟨h1, h2⟩ := step_rep h op
    obtain ⟨h3, h4⟩ := ih _ _ h2
    simp only [run, fifoRun]
    exact ⟨by rw [h1, h3], h4⟩

example : (fifoRun ([] : List Nat) [.push 4, .push 5, .pop, .len, .pop, .pop, .push 6, .peek]).2 =
    [.unit, .unit, .val 4, .num 1, .val 5, .panic, .unit, .val 6] := by decide

/-! ### C21 -/

/-- `q.PushNode(q.PopNode())`. -/
def rotate (s : St T) : St T × Res Unit :=
  match popNode s with
  | (s, .ok (some n)) => pushNode n s
  | (s, .ok none) => (s, .panic .nilDeref)
  | (s, .panic k) => (s, .panic k)
  | (s, .hang) => (s, .hang)

/-- C21, what holds: pushing a node that is not in the queue and whose `next` is nil appends it (in particular
    every freshly made node, and a node popped as the only element). -/
theorem pushNode_appends_partial {s : St T} {ids : List Nat} {node : Nat} (h : Good s ids) (hl : s.locked = false)
    (hn : node ∉ ids) (ha : node < s.alloc) (hnext : (s.heap node).next = none) :
    ∃ s', pushNode node s = (s', .ok ()) ∧ Good s' (ids ++ [node]) ∧
      vals s' (ids ++ [node]) = vals s ids ++ [(s.heap node).val] ∧ s'.locked = false := by
  obtain ⟨s', h1, h2, h3, _, h5, _⟩ := pushNode_good h hl hn ha hnext
  exact ⟨s', h1, h2, by simp [vals, h5], h3⟩

/-- C21, the same for rotation: on a one-element queue PushNode(PopNode()) keeps the queue. -/
theorem rotate_singleton_partial {s : St T} {n : Nat} (h : Good s [n]) (hl : s.locked = false) :
    ∃ s', rotate s = (s', .ok ()) ∧ Good s' [n] ∧ vals s' [n] = vals s [n] := by
  obtain ⟨s1, h1, h2, h3, h4, h5⟩ := popNode_good h hl
  have hnext : (s1.heap n).next = none := by
    have hp := h.path
    rw [path_head hp] at hp
    rw [h5]
    have hp2 := hp.2
    cases hx : (s.heap n).next with
    | none => rfl
    | some k => rw [hx] at hp2; simp [Path] at hp2
  obtain ⟨s2, g1, g2, g3, _, g5, _⟩ := pushNode_good (node := n) h2 h3 (by simp)
    (by have := h.alloc n (by simp); omega) hnext
  exact ⟨s2, by simp [rotate, h1, g1], by simpa using g2, by simp [vals, g5, h5]⟩

/-- C21, the claim that fails: after Push(1), Push(2), PushNode(PopNode()) the queue should hold 2, 1; the third
    Pop should panic (queue empty, Len()=0) but hands out 2 again. -/
theorem rotate_refuted :
    let s0 : St Nat := St.new (fun _ => { val := 0, next := none }) 0
    let s1 := (run s0 [.push 1, .push 2]).1
    (rotate s1).2 = .ok () ∧
      (run (rotate s1).1 [.pop, .pop, .len, .pop, .len]).2 = [.val 2, .val 1, .num 0, .val 2, .num (-1)] := by
  decide

end Gds.Queue
