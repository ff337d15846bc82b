import Verif.RBTree.Balance
import Verif.RBTree.FSpec

/-! From the heap to coloured trees with labels. -/

namespace Gds.RBTree

variable {K V A : Type}

/-- The coloured tree a tree of addresses stands for. -/
def paint (col : Nat → Bool) (f : Nat → A) : T → CT A
  | .nil => .nil
  | .node l i r => .node (col i) (paint col f l) (f i) (paint col f r)

/-- The way from the hole to the root. -/
def paintC (col : Nat → Bool) (f : Nat → A) : Ctx → List (Up A)
  | .top => []
  | .left i r c => .left (col i) (f i) (paint col f r) :: paintC col f c
  | .right l i c => .right (col i) (paint col f l) (f i) :: paintC col f c

theorem paint_plug (col : Nat → Bool) (f : Nat → A) (c : Ctx) (t : T) : paint col f (c.plug t) = CT.climb (paintC col f c) (paint col f t) := by
  induction c generalizing t with
  | top => rfl
  | left i r c ih => simp only [Ctx.plug, ih, paint, paintC, CT.climb]
  | right l i c ih => simp only [Ctx.plug, ih, paint, paintC, CT.climb]

theorem paint_congr {col col' : Nat → Bool} {f f' : Nat → A} {t : T} (h : ∀ i ∈ t.ids, col' i = col i) (h' : ∀ i ∈ t.ids, f' i = f i) :
    paint col' f' t = paint col f t := by
  induction t with
  | nil => rfl
  | node l i r ihl ihr =>
    have hl : ∀ j ∈ l.ids, j ∈ (T.node l i r).ids := fun j hj => by simp [T.ids, hj]
    have hr : ∀ j ∈ r.ids, j ∈ (T.node l i r).ids := fun j hj => by simp [T.ids, hj]
    have hi : i ∈ (T.node l i r).ids := by simp [T.ids]
    simp only [paint, h i hi, h' i hi, ihl (fun j hj => h j (hl j hj)) (fun j hj => h' j (hl j hj)),
      ihr (fun j hj => h j (hr j hj)) (fun j hj => h' j (hr j hj))]

theorem paintC_congr {col col' : Nat → Bool} {f f' : Nat → A} {c : Ctx} (h : ∀ i ∈ c.ids, col' i = col i) (h' : ∀ i ∈ c.ids, f' i = f i) :
    paintC col' f' c = paintC col f c := by
  induction c with
  | top => rfl
  | left i r c ih =>
    have hr : ∀ j ∈ r.ids, j ∈ (Ctx.left i r c).ids := fun j hj => by simp [Ctx.ids, Ctx.after, hj]
    have hc : ∀ j ∈ c.ids, j ∈ (Ctx.left i r c).ids := fun j hj => by
      simp only [Ctx.ids, List.mem_append] at hj; simp [Ctx.ids, Ctx.before, Ctx.after]; tauto
    have hi : i ∈ (Ctx.left i r c).ids := by simp [Ctx.ids, Ctx.after]
    simp only [paintC, h i hi, h' i hi, paint_congr (fun j hj => h j (hr j hj)) (fun j hj => h' j (hr j hj)),
      ih (fun j hj => h j (hc j hj)) (fun j hj => h' j (hc j hj))]
  | right l i c ih =>
    have hr : ∀ j ∈ l.ids, j ∈ (Ctx.right l i c).ids := fun j hj => by simp [Ctx.ids, Ctx.before, hj]
    have hc : ∀ j ∈ c.ids, j ∈ (Ctx.right l i c).ids := fun j hj => by
      simp only [Ctx.ids, List.mem_append] at hj; simp [Ctx.ids, Ctx.before, Ctx.after]; tauto
    have hi : i ∈ (Ctx.right l i c).ids := by simp [Ctx.ids, Ctx.before]
    simp only [paintC, h i hi, h' i hi, paint_congr (fun j hj => h j (hr j hj)) (fun j hj => h' j (hr j hj)),
      ih (fun j hj => h j (hc j hj)) (fun j hj => h' j (hc j hj))]

/-- Only the colours change. -/
theorem paint_recol {col col' : Nat → Bool} {f : Nat → A} {t : T} (h : ∀ i ∈ t.ids, col' i = col i) : paint col' f t = paint col f t :=
  paint_congr h (fun _ _ => rfl)
theorem paintC_recol {col col' : Nat → Bool} {f : Nat → A} {c : Ctx} (h : ∀ i ∈ c.ids, col' i = col i) : paintC col' f c = paintC col f c :=
  paintC_congr h (fun _ _ => rfl)

theorem isRed_paint {col : Nat → Bool} {f : Nat → A} {t : T} : (paint col f t).isRed = true ↔ ¬ rootBlack col t := by
  cases t with
  | nil => simp [paint, CT.isRed, rootBlack]
  | node l i r => cases h : col i <;> simp [paint, CT.isRed, rootBlack, h]

theorem isRed_paint_false {col : Nat → Bool} {f : Nat → A} {t : T} (h : rootBlack col t) : (paint col f t).isRed = false := by
  rw [Bool.eq_false_iff]; intro e; exact isRed_paint.1 e h

theorem labels_paint (col : Nat → Bool) (f : Nat → A) (t : T) : (paint col f t).labels = t.ids.map f := by
  induction t with
  | nil => rfl
  | node l i r ihl ihr => simp [paint, CT.labels, T.ids, ihl, ihr]

end Gds.RBTree
