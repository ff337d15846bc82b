import Verif.Iter.Model

/-! C89: `iterator.FromChan` (iterator/iterator.go:108-113) on a channel that other goroutines send on and close, and that any
number of goroutines pull from. -/

namespace Gds.Iter

/-- A Go channel, and what was seen of it.  `buf` is the buffer, `waiting` the values of the senders that are blocked (first come, first
served).  Ghosts: `accepted` are the values whose send statement has completed, in that order; `got` are the results of the
completed calls of the iterator, in that order; `calls` is the number of calls in progress. -/
structure ChanSt (T : Type _) where
  cap : Nat
  buf : List T
  waiting : List T
  closed : Bool
  accepted : List T
  got : List (Option T)
  calls : Nat

/-- iterator/iterator.go:108-113: a step of the channel with its users.  `call`/`recv` are the two ends of the iterator's
`val, ok = <-c`; `offer` is a send statement of some other goroutine, `close` is `close(c)` (blocked senders panic). -/
inductive ChanStep {T : Type _} : ChanSt T → ChanSt T → Prop where
  /-- some goroutine calls the iterator -/
  | call (s : ChanSt T) : ChanStep s { s with calls := s.calls + 1 }
  /-- a send finds room in the buffer -/
  | offer (s : ChanSt T) (v : T) (h : s.closed = false) (hr : s.buf.length < s.cap) :
      ChanStep s { s with buf := s.buf ++ [v], accepted := s.accepted ++ [v] }
  /-- a send blocks -/
  | block (s : ChanSt T) (v : T) (h : s.closed = false) (hr : ¬ s.buf.length < s.cap) : ChanStep s { s with waiting := s.waiting ++ [v] }
  /-- a receive from the buffer; the first blocked sender takes the free place -/
  | recvBuf (s : ChanSt T) (v : T) (b : List T) (hc : 0 < s.calls) (hb : s.buf = v :: b) :
      ChanStep s { s with buf := b ++ s.waiting.take 1, waiting := s.waiting.drop 1, accepted := s.accepted ++ s.waiting.take 1,
                          got := s.got ++ [some v], calls := s.calls - 1 }
  /-- a receive from a blocked sender (no buffer) -/
  | recvHand (s : ChanSt T) (v : T) (w : List T) (hc : 0 < s.calls) (hb : s.buf = []) (hw : s.waiting = v :: w) :
      ChanStep s { s with waiting := w, accepted := s.accepted ++ [v], got := s.got ++ [some v], calls := s.calls - 1 }
  /-- a receive from a closed channel that is drained -/
  | recvEnd (s : ChanSt T) (hc : 0 < s.calls) (hb : s.buf = []) (hw : s.waiting = []) (h : s.closed = true) :
      ChanStep s { s with got := s.got ++ [none], calls := s.calls - 1 }
  /-- `close(c)` -/
  | close (s : ChanSt T) (h : s.closed = false) : ChanStep s { s with closed := true, waiting := [] }

/-- Not Go code: the states reachable from a channel just made. -/
inductive ChanReach {T : Type _} (cap : Nat) : ChanSt T → Prop where
  | init : ChanReach cap ⟨cap, [], [], false, [], [], 0⟩
  | step {s s'} (h : ChanReach cap s) (t : ChanStep s s') : ChanReach cap s'

/-- What holds at every instant. -/
structure ChanOK {T : Type _} (s : ChanSt T) : Prop where
  flow : s.got.filterMap id ++ s.buf = s.accepted
  ended : none ∈ s.got → s.closed = true ∧ s.buf = []
  quiet : s.closed = true → s.waiting = []
  after : ∃ (vs : List T) (k : Nat), s.got = vs.map some ++ List.replicate k none
  full : s.waiting ≠ [] → s.cap ≤ s.buf.length

theorem chanOK {T : Type _} {cap : Nat} {s : ChanSt T} (h : ChanReach cap s) : ChanOK s := by
  induction h with
  | init => exact ⟨rfl, by simp, by simp, ⟨[], 0, rfl⟩, by simp⟩
  | step h t ih =>
    rename_i s1 s2
    clear h
    cases t with
    | call => exact ⟨ih.flow, ih.ended, ih.quiet, ih.after, ih.full⟩
    | offer v h hr =>
      refine ⟨by show _ ++ (s1.buf ++ [v]) = s1.accepted ++ [v]; rw [← List.append_assoc, ih.flow], ?_, ih.quiet, ih.after, ?_⟩
      · intro hn; have := (ih.ended hn).1; rw [h] at this; cases this
      · intro hw; have := ih.full hw; simp only [List.length_append, List.length_singleton]; omega
    | block v h hr =>
      refine ⟨ih.flow, ih.ended, ?_, ih.after, ?_⟩
      · intro hc; have hc : s1.closed = true := hc; rw [h] at hc; cases hc
      · intro _; show s1.cap ≤ s1.buf.length; omega
    | recvBuf v b hc hb =>
      have hno : none ∉ s1.got := by
        intro hn; have := (ih.ended hn).2; rw [hb] at this; cases this
      obtain ⟨vs, k, hg⟩ := ih.after
      have hk : k = 0 := by
        rcases Nat.eq_zero_or_pos k with h | h
        · exact h
        · exfalso; apply hno; rw [hg]; simp; omega
      subst hk
      refine ⟨?_, ?_, ?_, ⟨vs ++ [v], 0, by simp [hg]⟩, ?_⟩
      · have := ih.flow; rw [hb] at this
        simp only [List.filterMap_append, List.filterMap_cons, id, List.filterMap_nil]
        rw [← this]; simp
      · intro hn
        have hn : none ∈ s1.got ++ [some v] := hn
        simp at hn; exact absurd hn hno
      · intro hcl; show s1.waiting.drop 1 = []; rw [ih.quiet hcl]; rfl
      · intro hw
        have hw : s1.waiting.drop 1 ≠ [] := hw
        show s1.cap ≤ (b ++ s1.waiting.take 1).length
        have h1 : s1.waiting ≠ [] := by rintro h; rw [h] at hw; exact hw rfl
        have := ih.full h1
        rw [hb] at this
        have := List.length_pos_iff.2 h1
        simp only [List.length_cons, List.length_append, List.length_take] at *
        omega
    | recvHand v w hc hb hw =>
      have hno : none ∉ s1.got := by
        intro hn; have := ih.quiet (ih.ended hn).1; rw [hw] at this; cases this
      obtain ⟨vs, k, hg⟩ := ih.after
      have hk : k = 0 := by
        rcases Nat.eq_zero_or_pos k with h | h
        · exact h
        · exfalso; apply hno; rw [hg]; simp; omega
      subst hk
      refine ⟨?_, ?_, ?_, ⟨vs ++ [v], 0, by simp [hg]⟩, ?_⟩
      · have := ih.flow; rw [hb] at this
        show (s1.got ++ [some v]).filterMap id ++ s1.buf = s1.accepted ++ [v]
        rw [← this, hb]; simp
      · intro hn
        have hn : none ∈ s1.got ++ [some v] := hn
        simp at hn; exact absurd hn hno
      · intro hcl; have := ih.quiet hcl; rw [hw] at this; cases this
      · intro _; have := ih.full (by rw [hw]; simp); exact this
    | recvEnd hc hb hw h =>
      obtain ⟨vs, k, hg⟩ := ih.after
      refine ⟨?_, fun _ => ⟨h, hb⟩, ih.quiet, ⟨vs, k + 1, ?_⟩, ih.full⟩
      · show (s1.got ++ [none]).filterMap id ++ s1.buf = s1.accepted
        rw [← ih.flow]; simp
      · show s1.got ++ [none] = _; rw [hg, List.replicate_succ']; simp
    | close h =>
      exact ⟨ih.flow, fun hn => ⟨rfl, (ih.ended hn).2⟩, fun _ => rfl, ih.after, fun hw => absurd rfl hw⟩

/-- C89: whatever the schedule, however many goroutines send and pull: the values the calls have returned are a prefix of the values
accepted by the channel, in the order of the sends, each exactly once; the rest is still in the buffer. -/
theorem fromChan_fifo {T : Type _} {cap : Nat} {s : ChanSt T} (h : ChanReach cap s) :
    s.got.filterMap id ++ s.buf = s.accepted := (chanOK h).flow

/-- C89: a call reports the end only when the channel is closed and every accepted value has been returned; from then on every call
reports the end. -/
theorem fromChan_end {T : Type _} {cap : Nat} {s : ChanSt T} (h : ChanReach cap s) :
    (none ∈ s.got → s.closed = true ∧ s.got.filterMap id = s.accepted) ∧
    ∃ (vs : List T) (k : Nat), s.got = vs.map some ++ List.replicate k none ∧ vs <+: s.accepted := by
  have o := chanOK h
  refine ⟨fun hn => ⟨(o.ended hn).1, by rw [← o.flow, (o.ended hn).2, List.append_nil]⟩, ?_⟩
  obtain ⟨vs, k, hg⟩ := o.after
  refine ⟨vs, k, hg, s.buf, ?_⟩
  rw [← o.flow, hg]
  have : (List.replicate k (none : Option T)).filterMap id = [] := by
    rw [List.filterMap_eq_nil_iff]; intro a ha; exact (List.eq_of_mem_replicate ha)
  rw [List.filterMap_append, this]; simp

/-- C89: a call in progress is blocked exactly when the channel is open and holds no value; it is never blocked otherwise. -/
theorem fromChan_progress {T : Type _} {s : ChanSt T} (hc : 0 < s.calls) :
    (∃ s', ChanStep s s' ∧ s'.got.length = s.got.length + 1) ↔ (s.buf ≠ [] ∨ s.waiting ≠ [] ∨ s.closed = true) := by
  constructor
  · rintro ⟨s', t, hl⟩
    cases t with
    | call => simp at hl
    | offer v h hr => simp at hl
    | block v h hr => simp at hl
    | recvBuf v b hc hb => left; rw [hb]; simp
    | recvHand v w hc hb hw => right; left; rw [hw]; simp
    | recvEnd hc hb hw h => exact .inr (.inr h)
    | close h => simp at hl
  · intro h
    cases hb : s.buf with
    | cons v b => exact ⟨_, .recvBuf s v b hc hb, by simp⟩
    | nil =>
      cases hw : s.waiting with
      | cons v w => exact ⟨_, .recvHand s v w hc hb hw, by simp⟩
      | nil => exact ⟨_, .recvEnd s hc hb hw (by rw [hb, hw] at h; simpa using h), by simp⟩

/-- Unbuffered: 1 and 2 are offered, two calls receive them, the channel is closed, the third call ends. -/
example : ∃ s : ChanSt Nat, ChanReach 0 s ∧ s.got = [some 1, some 2, none] := by
  refine ⟨_, .step (.step (.step (.step (.step (.step (.step (.step (.step .init (.block _ 1 rfl (by simp))) (.call _)) (.block _ 2 rfl (by simp)))
    (.recvHand _ 1 [2] (by simp) rfl rfl)) (.call _)) (.call _)) (.recvHand _ 2 [] (by simp) rfl rfl)) (.close _ rfl)) (.recvEnd _ (by simp) rfl rfl rfl), rfl⟩

/-- With a buffer of one: 2 has to wait for the place of 1. -/
example : ∃ s : ChanSt Nat, ChanReach 1 s ∧ s.got = [some 1] ∧ s.buf = [2] ∧ s.accepted = [1, 2] := by
  refine ⟨_, .step (.step (.step (.step .init (.offer _ 1 rfl (by simp))) (.block _ 2 rfl (by simp))) (.call _)) (.recvBuf _ 1 [] (by simp) rfl), rfl, rfl, rfl⟩

end Gds.Iter
