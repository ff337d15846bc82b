import Verif.RBTree.Shape

namespace Gds.RBTree

variable {K V : Type}

/-- What an operation on the tree `L` leaves alone: the header's end pointers and every node outside the tree. -/
structure Frame (m m' : Heap K V) (L : List Nat) : Prop where
  hl : m'.left 0 = m.left 0
  hr : m'.right 0 = m.right 0
  out : ∀ i, i ∉ L → i ≠ 0 → Same m m' i

theorem Frame.refl (m : Heap K V) (L : List Nat) : Frame m m L := ⟨rfl, rfl, fun _ _ _ => ⟨rfl, rfl, rfl⟩⟩

theorem Frame.trans {m m' m'' : Heap K V} {L : List Nat} (h : Frame m m' L) (h' : Frame m' m'' L) : Frame m m'' L :=
  ⟨h'.hl.trans h.hl, h'.hr.trans h.hr, fun i h1 h2 =>
    ⟨(h'.out i h1 h2).1.trans (h.out i h1 h2).1, (h'.out i h1 h2).2.1.trans (h.out i h1 h2).2.1, (h'.out i h1 h2).2.2.trans (h.out i h1 h2).2.2⟩⟩

theorem Holds.split {m : Heap K V} {c : Ctx} {t : T} (h : Holds m (c.plug t)) : RepC m t.root c ∧ Rep m c.par t := (rep_plug m c t).1 ⟨h.root, h.rep⟩

theorem Holds.of {m : Heap K V} {c : Ctx} {t : T} (h1 : RepC m t.root c) (h2 : Rep m c.par t) (h3 : (c.plug t).ids.Nodup) (h4 : ∀ i ∈ (c.plug t).ids, 2 ≤ i) :
    Holds m (c.plug t) := by
  obtain ⟨a, b⟩ := (rep_plug m c t).2 ⟨h1, h2⟩
  exact ⟨a, b, h3, h4⟩

/-- The outcome of replacing one subtree by another with the same addresses. -/
theorem rotate_spec {m m' : Heap K V} {c : Ctx} {t t' : T} (h : Holds m (c.plug t)) (hid : t'.ids = t.ids) (hr : Rep m' c.par t')
    (hc : RepC m' t'.root c) : Holds m' (c.plug t') := by
  have e : (c.plug t').ids = (c.plug t).ids := by rw [ids_plug, ids_plug, hid]
  exact .of hc hr (by rw [e]; exact h.nodup) (by rw [e]; exact h.pos)

@[simp] theorem T.root_node (l r : T) (i : Nat) : (T.node l i r).root = some i := rfl
@[simp] theorem T.root_nil : T.nil.root = none := rfl

/-- The parent, when the hole is its left child. -/
def Ctx.lpar : Ctx → Option Nat
  | .left i _ _ => some i
  | _ => none
/-- The parent, when the hole is its right child. -/
def Ctx.rpar : Ctx → Option Nat
  | .right _ i _ => some i
  | _ => none

theorem Ctx.lpar_mem {c : Ctx} {i : Nat} (h : c.lpar = some i) : i ∈ c.ids := by
  cases c <;> simp [lpar] at h; subst h; simp [Ctx.ids, Ctx.after]
theorem Ctx.rpar_mem {c : Ctx} {i : Nat} (h : c.rpar = some i) : i ∈ c.ids := by
  cases c <;> simp [rpar] at h; subst h; simp [Ctx.ids, Ctx.before]
theorem Ctx.par_mem {c : Ctx} {i : Nat} (h : c.par = some i) : i ∈ c.ids := by
  cases c <;> simp [par] at h <;> subst h <;> simp [Ctx.ids, Ctx.after, Ctx.before]
theorem T.root_mem {t : T} {i : Nat} (h : t.root = some i) : i ∈ t.ids := by
  cases t <;> simp [root] at h; subst h; simp [T.ids]

/-- `RepC.refill` for rotations and removals: the hole's parent gets a new child, the rest keeps its pointers. -/
theorem RepC.refill' {m m' : Heap K V} {q q' : Option Nat} {c : Ctx} (h : RepC m q c) (hn : c.ids.Nodup)
    (hl : ∀ i ∈ c.ids, m'.left i = if c.lpar = some i then q' else m.left i)
    (hr : ∀ i ∈ c.ids, m'.right i = if c.rpar = some i then q' else m.right i)
    (hp : ∀ i ∈ c.ids, m'.parent i = m.parent i) (h0 : m'.parent 0 = if c.par = none then q' else m.parent 0) : RepC m' q' c := by
  refine h.refill hn ?_ ?_ ?_
  · cases c with
    | top => simpa [Ctx.par] using h0
    | left i r c =>
      have hi : i ∈ (Ctx.left i r c).ids := by simp [Ctx.ids, Ctx.after]
      exact ⟨by rw [hl i hi]; exact if_pos rfl, by rw [hr i hi]; exact if_neg (by simp [Ctx.rpar]), hp i hi⟩
    | right l i c =>
      have hi : i ∈ (Ctx.right l i c).ids := by simp [Ctx.ids, Ctx.before]
      exact ⟨by rw [hr i hi]; exact if_pos rfl, by rw [hl i hi]; exact if_neg (by simp [Ctx.lpar]), hp i hi⟩
  · intro hne; rw [h0, if_neg hne]
  · intro i hi hne
    refine ⟨hp i hi, ?_, ?_⟩
    · rw [hl i hi, if_neg]; intro hc; apply hne; cases c <;> simp [Ctx.lpar] at hc; simp [Ctx.par, hc]
    · rw [hr i hi, if_neg]; intro hc; apply hne; cases c <;> simp [Ctx.rpar] at hc; simp [Ctx.par, hc]

theorem leftRotate_spec {m : Heap K V} {c : Ctx} {A B C : T} {x y : Nat} (h : Holds m (c.plug (.node A x (.node B y C)))) :
    ∃ m', leftRotate m (some x) = .ok m' ∧ Holds m' (c.plug (.node (.node A x B) y C)) ∧ m'.color = m.color ∧ m'.kv = m.kv ∧
      Frame m m' (c.plug (.node A x (.node B y C))).ids := by
  obtain ⟨hc, hp, hl, hr, hA, hp', hl', hr', hB, hC⟩ := h.split
  have hn := h.nodup
  have hpos := h.pos
  simp only [T.root] at hr
  have hmem : ∀ i, i ∈ (c.plug (.node A x (.node B y C))).ids ↔ i ∈ c.ids ∨ i ∈ A.ids ∨ i = x ∨ i ∈ B.ids ∨ i = y ∨ i ∈ C.ids := by
    intro i; rw [ids_plug]; simp only [T.ids, Ctx.ids, List.mem_append, List.mem_cons]; tauto
  have p2 : 2 ≤ x ∧ 2 ≤ y ∧ (∀ i ∈ c.ids, 2 ≤ i) ∧ (∀ i ∈ A.ids, 2 ≤ i) ∧ (∀ i ∈ B.ids, 2 ≤ i) ∧ ∀ i ∈ C.ids, 2 ≤ i := by
    simp only [hmem] at hpos; exact ⟨hpos x (by simp), hpos y (by simp), fun i hi => hpos i (by simp [hi]), fun i hi => hpos i (by simp [hi]),
      fun i hi => hpos i (by simp [hi]), fun i hi => hpos i (by simp [hi])⟩
  have hnc : c.ids.Nodup := by
    rw [ids_plug] at hn; simp only [Ctx.ids, List.nodup_append, List.mem_append] at hn ⊢; grind
  have hnB : B.ids.Nodup := by
    rw [ids_plug] at hn; simp only [T.ids, List.nodup_append, List.nodup_cons, List.mem_append, List.mem_cons] at hn; grind
  have dis : (∀ i ∈ c.ids, i ≠ x ∧ i ≠ y ∧ i ∉ A.ids ∧ i ∉ B.ids ∧ i ∉ C.ids) ∧ x ≠ y ∧ x ∉ A.ids ∧ x ∉ B.ids ∧ x ∉ C.ids ∧
      y ∉ A.ids ∧ y ∉ B.ids ∧ y ∉ C.ids ∧ (∀ i ∈ B.ids, i ∉ A.ids ∧ i ∉ C.ids) := by
    rw [ids_plug] at hn; simp only [Ctx.ids, T.ids, List.nodup_append, List.nodup_cons, List.mem_append, List.mem_cons] at hn ⊢; grind
  have hBr : ∀ i, B.root = some i → i ∈ B.ids := fun i => T.root_mem
  have key : ∃ m', leftRotate m (some x) = .ok m' ∧ m'.color = m.color ∧ m'.kv = m.kv ∧
      (∀ j, m'.left j = if j = y then some x else if c.lpar = some j then some y else m.left j) ∧
      (∀ j, m'.right j = if j = x then B.root else if c.rpar = some j then some y else m.right j) ∧
      (∀ j, m'.parent j = if j = x then some y else if j = y then c.par else if B.root = some j then some x
        else if j = 0 ∧ c.par = none then some y else m.parent j) := by
    have hx : ∀ i, c.par = some i → i ≠ x ∧ i ≠ y := fun i hi => ⟨(dis.1 i (Ctx.par_mem hi)).1, (dis.1 i (Ctx.par_mem hi)).2.1⟩
    have hlr : ∀ i, c.lpar = some i → m.left i = some x := by
      intro i hi; cases c <;> simp [Ctx.lpar] at hi; subst hi; exact hc.1
    have hrr : ∀ i, c.rpar = some i → m.right i = some x ∧ m.left i ≠ some x := by
      intro i hi; cases c <;> simp [Ctx.rpar] at hi; subst hi
      refine ⟨hc.1, ?_⟩
      rw [hc.2.1]
      intro hl
      exact (dis.1 x (by simp [Ctx.ids, Ctx.before, T.root_mem hl])).1 rfl
    have hxy := dis.2.1
    have hBx : B.root ≠ some x := fun h => dis.2.2.2.1 (T.root_mem h)
    have hBy : B.root ≠ some y := fun h => dis.2.2.2.2.2.2.1 (T.root_mem h)
    have hBc : ∀ i, c.par = some i → B.root ≠ some i := fun i hi h => (dis.1 i (Ctx.par_mem hi)).2.2.2.1 (T.root_mem h)
    have hB0 : B.root ≠ some 0 := fun h => by have := p2.2.2.2.2.1 0 (T.root_mem h); omega
    have p0 : 2 ≤ x ∧ 2 ≤ y := ⟨p2.1, p2.2.1⟩
    clear hn hpos hmem hnc hnB hA hB hC
    generalize B.root = Br at *
    cases c with
    | top =>
      cases Br with
      | none =>
        simp [leftRotate, Heap.rightOf, Heap.leftOf, Heap.parentOf, Heap.setRight, Heap.setLeft, Heap.setParent, hr, hl', hp, Ctx.par, Ctx.lpar, Ctx.rpar]
        grind
      | some b =>
        have hbx : x ≠ b := fun h => hBx (by rw [h])
        simp [leftRotate, Heap.rightOf, Heap.leftOf, Heap.parentOf, Heap.setRight, Heap.setLeft, Heap.setParent, hr, hl', hp, Ctx.par, Ctx.lpar, Ctx.rpar, hbx]
        grind
    | left i r c =>
      have hlr := hlr i rfl
      cases Br with
      | none =>
        simp [leftRotate, Heap.rightOf, Heap.leftOf, Heap.parentOf, Heap.setRight, Heap.setLeft, Heap.setParent, hr, hl', hp, Ctx.par, Ctx.lpar, Ctx.rpar, hlr]
        grind
      | some b =>
        have hbx : x ≠ b := fun h => hBx (by rw [h])
        simp [leftRotate, Heap.rightOf, Heap.leftOf, Heap.parentOf, Heap.setRight, Heap.setLeft, Heap.setParent, hr, hl', hp, Ctx.par, Ctx.lpar, Ctx.rpar, hlr, hbx]
        grind
    | right l i c =>
      obtain ⟨hrr, hrr'⟩ := hrr i rfl
      have hrr2 : ¬ some x = m.left i := fun h => hrr' h.symm
      cases Br with
      | none =>
        simp [leftRotate, Heap.rightOf, Heap.leftOf, Heap.parentOf, Heap.setRight, Heap.setLeft, Heap.setParent, hr, hl', hp, Ctx.par, Ctx.lpar, Ctx.rpar, hrr2]
        grind
      | some b =>
        have hbx : x ≠ b := fun h => hBx (by rw [h])
        simp [leftRotate, Heap.rightOf, Heap.leftOf, Heap.parentOf, Heap.setRight, Heap.setLeft, Heap.setParent, hr, hl', hp, Ctx.par, Ctx.lpar, Ctx.rpar, hrr2, hbx]
        grind
  obtain ⟨m', e, h1, h2, h3, h4, h5⟩ := key
  obtain ⟨d1, d2, d3, d4, d5, d6, d7, d8, d9⟩ := dis
  obtain ⟨q1, q2, q3, q4, q5, q6⟩ := p2
  have hlp : ∀ i, c.lpar = some i → i ∈ c.ids := fun i => Ctx.lpar_mem
  have hrp : ∀ i, c.rpar = some i → i ∈ c.ids := fun i => Ctx.rpar_mem
  have hpp : ∀ i, c.par = some i → i ∈ c.ids := fun i => Ctx.par_mem
  refine ⟨m', e, rotate_spec h (by simp [T.ids]) ?_ ?_, h1, h2, ?_⟩
  · refine ⟨?_, ?_, ?_, ⟨?_, ?_, ?_, hA.congr ?_, hB.reparent hnB ?_⟩, hC.congr ?_⟩ <;> simp only [T.root_node, Same, h3, h4, h5] <;>
      clear h hn hpos hmem hnc hc hA hB hC hnB h1 h2 h3 h4 h5 e <;> grind
  · refine hc.refill' hnc ?_ ?_ ?_ ?_ <;> simp only [T.root_node, h3, h4, h5] <;>
      clear h hn hpos hmem hnc hc hA hB hC hnB h1 h2 h3 h4 h5 e <;> grind
  · refine ⟨?_, ?_, ?_⟩ <;> simp only [hmem, Same, h3, h4, h5] <;>
      clear h hn hpos hmem hnc hc hA hB hC hnB h1 h2 h3 h4 h5 e <;> grind

theorem rightRotate_spec {m : Heap K V} {c : Ctx} {A B C : T} {x y : Nat} (h : Holds m (c.plug (.node (.node C y B) x A))) :
    ∃ m', rightRotate m (some x) = .ok m' ∧ Holds m' (c.plug (.node C y (.node B x A))) ∧ m'.color = m.color ∧ m'.kv = m.kv ∧
      Frame m m' (c.plug (.node (.node C y B) x A)).ids := by
  obtain ⟨hc, hp, hl, hr, ⟨hp', hl', hr', hC, hB⟩, hA⟩ := h.split
  have hn := h.nodup
  have hpos := h.pos
  simp only [T.root] at hl
  have hmem : ∀ i, i ∈ (c.plug (.node (.node C y B) x A)).ids ↔ i ∈ c.ids ∨ i ∈ A.ids ∨ i = x ∨ i ∈ B.ids ∨ i = y ∨ i ∈ C.ids := by
    intro i; rw [ids_plug]; simp only [T.ids, Ctx.ids, List.mem_append, List.mem_cons]; tauto
  have p2 : 2 ≤ x ∧ 2 ≤ y ∧ (∀ i ∈ c.ids, 2 ≤ i) ∧ (∀ i ∈ A.ids, 2 ≤ i) ∧ (∀ i ∈ B.ids, 2 ≤ i) ∧ ∀ i ∈ C.ids, 2 ≤ i := by
    simp only [hmem] at hpos; exact ⟨hpos x (by simp), hpos y (by simp), fun i hi => hpos i (by simp [hi]), fun i hi => hpos i (by simp [hi]),
      fun i hi => hpos i (by simp [hi]), fun i hi => hpos i (by simp [hi])⟩
  have hnc : c.ids.Nodup := by
    rw [ids_plug] at hn; simp only [Ctx.ids, List.nodup_append, List.mem_append] at hn ⊢; grind
  have hnB : B.ids.Nodup := by
    rw [ids_plug] at hn; simp only [T.ids, List.nodup_append, List.nodup_cons, List.mem_append, List.mem_cons] at hn; grind
  have dis : (∀ i ∈ c.ids, i ≠ x ∧ i ≠ y ∧ i ∉ A.ids ∧ i ∉ B.ids ∧ i ∉ C.ids) ∧ x ≠ y ∧ x ∉ A.ids ∧ x ∉ B.ids ∧ x ∉ C.ids ∧
      y ∉ A.ids ∧ y ∉ B.ids ∧ y ∉ C.ids ∧ (∀ i ∈ B.ids, i ∉ A.ids ∧ i ∉ C.ids) := by
    rw [ids_plug] at hn; simp only [Ctx.ids, T.ids, List.nodup_append, List.nodup_cons, List.mem_append, List.mem_cons] at hn ⊢; grind
  have hBr : ∀ i, B.root = some i → i ∈ B.ids := fun i => T.root_mem
  have key : ∃ m', rightRotate m (some x) = .ok m' ∧ m'.color = m.color ∧ m'.kv = m.kv ∧
      (∀ j, m'.right j = if j = y then some x else if c.rpar = some j then some y else m.right j) ∧
      (∀ j, m'.left j = if j = x then B.root else if c.lpar = some j then some y else m.left j) ∧
      (∀ j, m'.parent j = if j = x then some y else if j = y then c.par else if B.root = some j then some x
        else if j = 0 ∧ c.par = none then some y else m.parent j) := by
    have hx : ∀ i, c.par = some i → i ≠ x ∧ i ≠ y := fun i hi => ⟨(dis.1 i (Ctx.par_mem hi)).1, (dis.1 i (Ctx.par_mem hi)).2.1⟩
    have hlr : ∀ i, c.rpar = some i → m.right i = some x := by
      intro i hi; cases c <;> simp [Ctx.rpar] at hi; subst hi; exact hc.1
    have hrr : ∀ i, c.lpar = some i → m.left i = some x ∧ m.right i ≠ some x := by
      intro i hi; cases c <;> simp [Ctx.lpar] at hi; subst hi
      refine ⟨hc.1, ?_⟩
      rw [hc.2.1]
      intro hl
      exact (dis.1 x (by simp [Ctx.ids, Ctx.after, T.root_mem hl])).1 rfl
    have hxy := dis.2.1
    have hBx : B.root ≠ some x := fun h => dis.2.2.2.1 (T.root_mem h)
    have hBy : B.root ≠ some y := fun h => dis.2.2.2.2.2.2.1 (T.root_mem h)
    have hBc : ∀ i, c.par = some i → B.root ≠ some i := fun i hi h => (dis.1 i (Ctx.par_mem hi)).2.2.2.1 (T.root_mem h)
    have hB0 : B.root ≠ some 0 := fun h => by have := p2.2.2.2.2.1 0 (T.root_mem h); omega
    have p0 : 2 ≤ x ∧ 2 ≤ y := ⟨p2.1, p2.2.1⟩
    clear hn hpos hmem hnc hnB hA hB hC
    generalize B.root = Br at *
    cases c with
    | top =>
      cases Br with
      | none =>
        simp [rightRotate, Heap.rightOf, Heap.leftOf, Heap.parentOf, Heap.setRight, Heap.setLeft, Heap.setParent, hl, hr', hp, Ctx.par, Ctx.lpar, Ctx.rpar]
        grind
      | some b =>
        have hbx : x ≠ b := fun h => hBx (by rw [h])
        simp [rightRotate, Heap.rightOf, Heap.leftOf, Heap.parentOf, Heap.setRight, Heap.setLeft, Heap.setParent, hl, hr', hp, Ctx.par, Ctx.lpar, Ctx.rpar, hbx]
        grind
    | right l i c =>
      have hlr := hlr i rfl
      cases Br with
      | none =>
        simp [rightRotate, Heap.rightOf, Heap.leftOf, Heap.parentOf, Heap.setRight, Heap.setLeft, Heap.setParent, hl, hr', hp, Ctx.par, Ctx.lpar, Ctx.rpar, hlr]
        grind
      | some b =>
        have hbx : x ≠ b := fun h => hBx (by rw [h])
        simp [rightRotate, Heap.rightOf, Heap.leftOf, Heap.parentOf, Heap.setRight, Heap.setLeft, Heap.setParent, hl, hr', hp, Ctx.par, Ctx.lpar, Ctx.rpar, hlr, hbx]
        grind
    | left i r c =>
      obtain ⟨hrr, hrr'⟩ := hrr i rfl
      have hrr2 : ¬ some x = m.right i := fun h => hrr' h.symm
      cases Br with
      | none =>
        simp [rightRotate, Heap.rightOf, Heap.leftOf, Heap.parentOf, Heap.setRight, Heap.setLeft, Heap.setParent, hl, hr', hp, Ctx.par, Ctx.lpar, Ctx.rpar, hrr2]
        grind
      | some b =>
        have hbx : x ≠ b := fun h => hBx (by rw [h])
        simp [rightRotate, Heap.rightOf, Heap.leftOf, Heap.parentOf, Heap.setRight, Heap.setLeft, Heap.setParent, hl, hr', hp, Ctx.par, Ctx.lpar, Ctx.rpar, hrr2, hbx]
        grind
  obtain ⟨m', e, h1, h2, h3, h4, h5⟩ := key
  obtain ⟨d1, d2, d3, d4, d5, d6, d7, d8, d9⟩ := dis
  obtain ⟨q1, q2, q3, q4, q5, q6⟩ := p2
  have hlp : ∀ i, c.lpar = some i → i ∈ c.ids := fun i => Ctx.lpar_mem
  have hrp : ∀ i, c.rpar = some i → i ∈ c.ids := fun i => Ctx.rpar_mem
  have hpp : ∀ i, c.par = some i → i ∈ c.ids := fun i => Ctx.par_mem
  refine ⟨m', e, rotate_spec h (by simp [T.ids]) ?_ ?_, h1, h2, ?_⟩
  · refine ⟨?_, ?_, ?_, hC.congr ?_, ⟨?_, ?_, ?_, hB.reparent hnB ?_, hA.congr ?_⟩⟩ <;> simp only [T.root_node, Same, h3, h4, h5] <;>
      clear h hn hpos hmem hnc hc hA hB hC hnB h1 h2 h3 h4 h5 e <;> grind
  · refine hc.refill' hnc ?_ ?_ ?_ ?_ <;> simp only [T.root_node, h3, h4, h5] <;>
      clear h hn hpos hmem hnc hc hA hB hC hnB h1 h2 h3 h4 h5 e <;> grind
  · refine ⟨?_, ?_, ?_⟩ <;> simp only [hmem, Same, h3, h4, h5] <;>
      clear h hn hpos hmem hnc hc hA hB hC hnB h1 h2 h3 h4 h5 e <;> grind

end Gds.RBTree
