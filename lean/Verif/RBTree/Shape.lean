import Verif.RBTree.Model
import Mathlib.Tactic.Common

/-! The shapes pointer structures represent: binary trees of addresses, and trees with a hole (contexts). -/

namespace Gds.RBTree

variable {K V : Type}

/-- A binary tree of addresses. -/
inductive T where
  | nil
  | node (l : T) (i : Nat) (r : T)

namespace T

/-- Addresses, in order. -/
def ids : T → List Nat
  | nil => []
  | node l i r => l.ids ++ i :: r.ids

/-- The pointer to the root. -/
def root : T → Option Nat
  | nil => none
  | node _ i _ => some i

end T

/-- A tree with a hole, from the hole upwards. -/
inductive Ctx where
  | top
  | left (i : Nat) (r : T) (c : Ctx)
  | right (l : T) (i : Nat) (c : Ctx)

namespace Ctx

/-- Filling the hole. -/
def plug : Ctx → T → T
  | top, t => t
  | left i r c, t => c.plug (.node t i r)
  | right l i c, t => c.plug (.node l i t)

/-- The pointer to the parent of the hole. -/
def par : Ctx → Option Nat
  | top => none
  | left i _ _ => some i
  | right _ i _ => some i

/-- Addresses left of the hole. -/
def before : Ctx → List Nat
  | top => []
  | left _ _ c => c.before
  | right l i c => c.before ++ l.ids ++ [i]

/-- Addresses right of the hole. -/
def after : Ctx → List Nat
  | top => []
  | left i r c => i :: r.ids ++ c.after
  | right _ _ c => c.after

def depth : Ctx → Nat
  | top => 0
  | left _ _ c => c.depth + 1
  | right _ _ c => c.depth + 1

end Ctx

theorem ids_plug (c : Ctx) (t : T) : (c.plug t).ids = c.before ++ t.ids ++ c.after := by
  induction c generalizing t with
  | top => simp [Ctx.plug, Ctx.before, Ctx.after]
  | left i r c ih => simp [Ctx.plug, Ctx.before, Ctx.after, ih, T.ids]
  | right l i c ih => simp [Ctx.plug, Ctx.before, Ctx.after, ih, T.ids]

/-- The heap holds the tree `t`, whose root has parent `p`. -/
def Rep (m : Heap K V) (p : Option Nat) : T → Prop
  | .nil => True
  | .node l i r => m.parent i = p ∧ m.left i = l.root ∧ m.right i = r.root ∧ Rep m (some i) l ∧ Rep m (some i) r

/-- The heap holds the context, with `q` in the hole. -/
def RepC (m : Heap K V) (q : Option Nat) : Ctx → Prop
  | .top => m.parent 0 = q
  | .left i r c => m.left i = q ∧ m.right i = r.root ∧ m.parent i = c.par ∧ Rep m (some i) r ∧ RepC m (some i) c
  | .right l i c => m.right i = q ∧ m.left i = l.root ∧ m.parent i = c.par ∧ Rep m (some i) l ∧ RepC m (some i) c

/-- The header's tree is `t`. -/
structure Holds (m : Heap K V) (t : T) : Prop where
  root : m.parent 0 = t.root
  rep : Rep m none t
  nodup : t.ids.Nodup
  pos : ∀ i ∈ t.ids, 2 ≤ i

theorem rep_plug (m : Heap K V) (c : Ctx) (t : T) :
    (m.parent 0 = (c.plug t).root ∧ Rep m none (c.plug t)) ↔ RepC m t.root c ∧ Rep m c.par t := by
  induction c generalizing t with
  | top => simp [Ctx.plug, RepC, Ctx.par]
  | left i r c ih =>
    simp only [Ctx.plug, RepC, Ctx.par, ih]
    simp only [Rep, T.root]
    tauto
  | right l i c ih =>
    simp only [Ctx.plug, RepC, Ctx.par, ih]
    simp only [Rep, T.root]
    tauto

/-- The pointer fields of two heaps agree at `i`. -/
def Same (m m' : Heap K V) (i : Nat) : Prop := m'.parent i = m.parent i ∧ m'.left i = m.left i ∧ m'.right i = m.right i

theorem Rep.congr {m m' : Heap K V} {p : Option Nat} {t : T} (h : Rep m p t) (hs : ∀ i ∈ t.ids, Same m m' i) : Rep m' p t := by
  induction t generalizing p with
  | nil => trivial
  | node l i r ihl ihr =>
    obtain ⟨h1, h2, h3, h4, h5⟩ := h
    obtain ⟨s1, s2, s3⟩ := hs i (by simp [T.ids])
    exact ⟨by rw [s1, h1], by rw [s2, h2], by rw [s3, h3], ihl h4 (fun j hj => hs j (by simp [T.ids, hj])),
      ihr h5 (fun j hj => hs j (by simp [T.ids, hj]))⟩

/-- A subtree whose root gets a new parent. -/
theorem Rep.reparent {m m' : Heap K V} {p p' : Option Nat} {t : T} (h : Rep m p t) (hn : t.ids.Nodup)
    (hs : ∀ i ∈ t.ids, m'.left i = m.left i ∧ m'.right i = m.right i ∧ m'.parent i = if t.root = some i then p' else m.parent i) : Rep m' p' t := by
  cases t with
  | nil => trivial
  | node l i r =>
    obtain ⟨h1, h2, h3, h4, h5⟩ := h
    obtain ⟨s1, s2, s3⟩ := hs i (by simp [T.ids])
    simp only [T.ids, List.nodup_append, List.nodup_cons] at hn
    refine ⟨by rw [s3]; exact if_pos rfl, by rw [s1, h2], by rw [s2, h3], h4.congr ?_, h5.congr ?_⟩
    · intro j hj
      obtain ⟨s1, s2, s3⟩ := hs j (by simp [T.ids, hj])
      have : i ≠ j := by have := hn.2.2 j hj i (by simp); exact fun h => this h.symm
      exact ⟨by rw [s3, if_neg (by simpa [T.root] using this)], s1, s2⟩
    · intro j hj
      obtain ⟨s1, s2, s3⟩ := hs j (by simp [T.ids, hj])
      have : i ≠ j := by rintro rfl; exact hn.2.1.1 hj
      exact ⟨by rw [s3, if_neg (by simpa [T.root] using this)], s1, s2⟩

/-- All addresses of a context. -/
def Ctx.ids (c : Ctx) : List Nat := c.before ++ c.after

theorem RepC.congr {m m' : Heap K V} {q : Option Nat} {c : Ctx} (h : RepC m q c) (h0 : m'.parent 0 = m.parent 0)
    (hs : ∀ i ∈ c.ids, Same m m' i) : RepC m' q c := by
  induction c generalizing q with
  | top => simp only [RepC] at h ⊢; rw [h0, h]
  | left i r c ih =>
    obtain ⟨h1, h2, h3, h4, h5⟩ := h
    obtain ⟨s1, s2, s3⟩ := hs i (by simp [Ctx.ids, Ctx.after])
    exact ⟨by rw [s2, h1], by rw [s3, h2], by rw [s1, h3], h4.congr (fun j hj => hs j (by simp [Ctx.ids, Ctx.after, hj])),
      ih h5 (fun j hj => hs j (by simp only [Ctx.ids, List.mem_append] at hj; simp [Ctx.ids, Ctx.before, Ctx.after]; tauto))⟩
  | right l i c ih =>
    obtain ⟨h1, h2, h3, h4, h5⟩ := h
    obtain ⟨s1, s2, s3⟩ := hs i (by simp [Ctx.ids, Ctx.before])
    exact ⟨by rw [s3, h1], by rw [s2, h2], by rw [s1, h3], h4.congr (fun j hj => hs j (by simp [Ctx.ids, Ctx.before, hj])),
      ih h5 (fun j hj => hs j (by simp only [Ctx.ids, List.mem_append] at hj; simp [Ctx.ids, Ctx.before, Ctx.after]; tauto))⟩

/-- Putting another pointer in the hole: only the parent's child pointer (or the header's root pointer) changes. -/
theorem RepC.refill {m m' : Heap K V} {q q' : Option Nat} {c : Ctx} (h : RepC m q c) (hn : c.ids.Nodup)
    (hs : match c with
      | .top => m'.parent 0 = q'
      | .left i _ _ => m'.left i = q' ∧ m'.right i = m.right i ∧ m'.parent i = m.parent i
      | .right _ i _ => m'.right i = q' ∧ m'.left i = m.left i ∧ m'.parent i = m.parent i)
    (h0 : c.par ≠ none → m'.parent 0 = m.parent 0) (ho : ∀ i ∈ c.ids, c.par ≠ some i → Same m m' i) : RepC m' q' c := by
  cases c with
  | top => exact hs
  | left i r c =>
    obtain ⟨h1, h2, h3, h4, h5⟩ := h
    obtain ⟨s1, s2, s3⟩ := hs
    have hn' : ∀ j ∈ r.ids ++ c.ids, i ≠ j := by
      simp only [Ctx.ids, Ctx.before, Ctx.after, List.nodup_append, List.nodup_cons, List.mem_append, List.cons_append] at hn ⊢
      grind
    refine ⟨s1, by rw [s2, h2], by rw [s3, h3], h4.congr ?_, h5.congr (h0 (by simp [Ctx.par])) ?_⟩
    · intro j hj
      exact ho j (by simp [Ctx.ids, Ctx.after, hj]) (by simpa [Ctx.par] using hn' j (by simp [hj]))
    · intro j hj
      refine ho j ?_ (by simpa [Ctx.par] using hn' j (by simp [hj]))
      simp only [Ctx.ids, List.mem_append] at hj; simp [Ctx.ids, Ctx.before, Ctx.after]; tauto
  | right l i c =>
    obtain ⟨h1, h2, h3, h4, h5⟩ := h
    obtain ⟨s1, s2, s3⟩ := hs
    have hn' : ∀ j ∈ l.ids ++ c.ids, i ≠ j := by
      simp only [Ctx.ids, Ctx.before, Ctx.after, List.nodup_append, List.nodup_cons, List.mem_append] at hn ⊢
      grind
    refine ⟨s1, by rw [s2, h2], by rw [s3, h3], h4.congr ?_, h5.congr (h0 (by simp [Ctx.par])) ?_⟩
    · intro j hj
      exact ho j (by simp [Ctx.ids, Ctx.before, hj]) (by simpa [Ctx.par] using hn' j (by simp [hj]))
    · intro j hj
      refine ho j ?_ (by simpa [Ctx.par] using hn' j (by simp [hj]))
      simp only [Ctx.ids, List.mem_append] at hj; simp [Ctx.ids, Ctx.before, Ctx.after]; tauto

end Gds.RBTree
