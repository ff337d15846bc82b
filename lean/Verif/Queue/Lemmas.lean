import Verif.Queue.Model
import Mathlib.Data.List.Nodup

namespace Gds.Queue
variable {T : Type _}

/-- `ids` are the nodes met by following `next` from pointer `a` to nil. -/
def Path (heap : Nat → Node T) : Option Nat → List Nat → Prop
  | none, [] => True
  | some n, m :: ids => n = m ∧ Path heap (heap n).next ids
  | _, _ => False

theorem path_congr {h h' : Nat → Node T} {a : Option Nat} {ids : List Nat}
    (he : ∀ n ∈ ids, (h' n).next = (h n).next) (hp : Path h a ids) : Path h' a ids := by
  induction ids generalizing a with
  | nil => cases a <;> simp_all [Path]
  | cons m ids ih =>
    cases a with
    | none => simp [Path] at hp
    | some n =>
      obtain ⟨rfl, hp⟩ := hp
      exact ⟨rfl, by rw [he n (by simp)]; exact ih (fun k hk => he k (by simp [hk])) hp⟩

theorem path_head {h : Nat → Node T} {a : Option Nat} {ids : List Nat} (hp : Path h a ids) : a = ids.head? := by
  cases ids <;> cases a <;> simp_all [Path]

theorem path_cons_inv {h : Nat → Node T} {n : Nat} {ids : List Nat} (hp : Path h (some n) ids) :
    ∃ rest, ids = n :: rest ∧ Path h (h n).next rest := by
  cases ids with
  | nil => simp [Path] at hp
  | cons m ids => obtain ⟨rfl, hp⟩ := hp; exact ⟨ids, rfl, hp⟩

/-- Linking a new last node. -/
theorem path_link {h : Nat → Node T} {a : Option Nat} {ids : List Nat} {t node : Nat}
    (hp : Path h a (ids ++ [t])) (hnd : (ids ++ [t]).Nodup) (hn : node ∉ ids ++ [t]) (hnext : (h node).next = none) :
    Path (fun k => if k = t then { h k with next := some node } else h k) a (ids ++ [t] ++ [node]) := by
  induction ids generalizing a with
  | nil =>
    cases a with
    | none => simp [Path] at hp
    | some n =>
      obtain ⟨rfl, hp⟩ := hp
      have hne : node ≠ n := by simpa using hn
      simp [Path, hne, hnext]
  | cons m ids ih =>
    cases a with
    | none => simp [Path] at hp
    | some n =>
      simp only [List.cons_append] at hp hnd hn ⊢
      obtain ⟨rfl, hp⟩ := hp
      have hne : n ≠ t := by
        intro e; subst e
        simp at hnd
      refine ⟨rfl, ?_⟩
      simp only [hne, if_false]
      exact ih hp (List.nodup_cons.1 hnd).2 (fun hm => hn (by simp at hm ⊢; tauto))

/-- The shared fields hold exactly the nodes `ids`, oldest first. -/
structure Good (s : St T) (ids : List Nat) : Prop where
  path : Path s.heap s.head ids
  tail : s.tail = ids.getLast?
  count : s.count = ids.length
  nodup : ids.Nodup
  alloc : ∀ n ∈ ids, n < s.alloc

theorem good_new (heap : Nat → Node T) (alloc : Nat) : Good (St.new heap alloc) [] :=
  ⟨trivial, rfl, rfl, List.nodup_nil, by simp⟩

/-- Values seen through the node list. -/
def vals (s : St T) (ids : List Nat) : List T := ids.map (fun n => (s.heap n).val)

theorem good_setLocked {s : St T} {ids : List Nat} (h : Good s ids) (b : Bool) :
    Good { s with locked := b } ids := ⟨h.path, h.tail, h.count, h.nodup, h.alloc⟩

theorem good_newNode {s : St T} {ids : List Nat} (h : Good s ids) (v : T) : Good (newNode s v).1 ids := by
  refine ⟨path_congr ?_ h.path, h.tail, h.count, h.nodup, fun n hn => ?_⟩
  · intro n hn; have := h.alloc n hn; simp only [newNode]; rw [if_neg (by omega)]
  · have := h.alloc n hn; simp only [newNode]; omega

/-- PushNode on a node that is not in the queue and whose `next` is nil. -/
theorem pushNode_good {s : St T} {ids : List Nat} {node : Nat} (h : Good s ids) (hl : s.locked = false)
    (hn : node ∉ ids) (ha : node < s.alloc) (hnext : (s.heap node).next = none) :
    ∃ s', pushNode node s = (s', .ok ()) ∧ Good s' (ids ++ [node]) ∧ s'.locked = false ∧
      s'.alloc = s.alloc ∧ (∀ k, (s'.heap k).val = (s.heap k).val) ∧
      (∀ k, k ∉ ids → s'.heap k = s.heap k) := by
  obtain ⟨h1, h2, h3, h4, h5⟩ := h
  unfold pushNode withLock
  cases hh : s.head with
  | none =>
    have hids : ids = [] := by
      rw [hh] at h1
      cases ids with
      | nil => rfl
      | cons m r => simp [Path] at h1
    subst hids
    simp only [hl, Bool.false_eq_true, if_false, hh]
    refine ⟨_, rfl, ⟨⟨rfl, by simp only [hnext]; trivial⟩, by simp, by simp [h3], by simp, by simpa using ha⟩, rfl, rfl, fun _ => rfl, fun _ _ => rfl⟩
  | some a =>
    have hne : ids ≠ [] := by
      rintro rfl; rw [hh] at h1; simp [Path] at h1
    obtain ⟨init, t, rfl⟩ : ∃ init t, ids = init ++ [t] := ⟨ids.dropLast, ids.getLast hne, (List.dropLast_append_getLast hne).symm⟩
    have ht : s.tail = some t := by simp [h2]
    simp only [hl, Bool.false_eq_true, if_false, hh, ht]
    refine ⟨_, rfl, ⟨?_, by simp, by simp [St.setNext, h3]; omega, ?_, ?_⟩, rfl, rfl, ?_, ?_⟩
    · rw [hh] at h1
      have := path_link h1 h4 hn hnext
      simpa [St.setNext, hh] using this
    · exact List.Nodup.append h4 (by simp) (by simpa [List.disjoint_singleton] using hn)
    · intro n hm
      rcases List.mem_append.1 hm with hm | hm
      · exact h5 n hm
      · simp at hm; subst hm; exact ha
    · intro k; simp only [St.setNext]; split <;> rfl
    · intro k hk; simp only [St.setNext]; rw [if_neg (by rintro rfl; simp at hk)]

theorem popNode_good {s : St T} {n : Nat} {ids : List Nat} (h : Good s (n :: ids)) (hl : s.locked = false) :
    ∃ s', popNode s = (s', .ok (some n)) ∧ Good s' ids ∧ s'.locked = false ∧ s'.alloc = s.alloc ∧
      s'.heap = s.heap := by
  obtain ⟨h1, h2, h3, h4, h5⟩ := h
  have hh : s.head = some n := path_head h1
  unfold popNode withLock
  simp only [hl, Bool.false_eq_true, if_false, hh]
  have hp : Path s.heap (s.heap n).next ids := by rw [hh] at h1; exact h1.2
  by_cases hn : (s.heap n).next = none
  · have hids : ids = [] := by
      rw [hn] at hp
      cases ids with
      | nil => rfl
      | cons m r => simp [Path] at hp
    subst hids
    simp only [hn, if_true]
    exact ⟨_, rfl, ⟨trivial, rfl, by simp [h3], List.nodup_nil, by simp⟩, rfl, rfl, rfl⟩
  · simp only [hn, if_false]
    have hne : ids ≠ [] := by
      rintro rfl
      apply hn
      cases hx : (s.heap n).next with
      | none => rfl
      | some k => rw [hx] at hp; simp [Path] at hp
    refine ⟨_, rfl, ⟨hp, ?_, by simp [h3], (List.nodup_cons.1 h4).2, fun k hk => h5 k (by simp [hk])⟩, rfl, rfl, rfl⟩
    simp only [h2]
    cases ids with
    | nil => exact absurd rfl hne
    | cons m r => simp [List.getLast?_cons_cons]

theorem popNode_empty {s : St T} (h : Good s []) (hl : s.locked = false) :
    popNode s = (s, .panic .nilDeref) := by
  have hh : s.head = none := path_head h.path
  unfold popNode withLock
  cases s
  simp_all

end Gds.Queue
