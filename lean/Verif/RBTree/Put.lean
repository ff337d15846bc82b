import Verif.RBTree.Paint

/-! Rebalancing after an insertion. -/

namespace Gds.RBTree

variable {K V : Type}

/-- The heap with one node recoloured. -/
def recol (m : Heap K V) (i : Nat) (b : Bool) : Heap K V := { m with color := upd m.color i b }

@[simp] theorem recol_color (m : Heap K V) (i : Nat) (b : Bool) : (recol m i b).color = upd m.color i b := rfl
@[simp] theorem recol_parent (m : Heap K V) (i : Nat) (b : Bool) : (recol m i b).parent = m.parent := rfl
@[simp] theorem recol_left (m : Heap K V) (i : Nat) (b : Bool) : (recol m i b).left = m.left := rfl
@[simp] theorem recol_right (m : Heap K V) (i : Nat) (b : Bool) : (recol m i b).right = m.right := rfl
@[simp] theorem recol_kv (m : Heap K V) (i : Nat) (b : Bool) : (recol m i b).kv = m.kv := rfl

theorem setColor_some (m : Heap K V) (i : Nat) (b : Bool) : m.setColor (some i) b = .ok (recol m i b) := rfl
@[simp] theorem parentOf_some (m : Heap K V) (i : Nat) : m.parentOf (some i) = .ok (m.parent i) := rfl
@[simp] theorem leftOf_some (m : Heap K V) (i : Nat) : m.leftOf (some i) = .ok (m.left i) := rfl
@[simp] theorem rightOf_some (m : Heap K V) (i : Nat) : m.rightOf (some i) = .ok (m.right i) := rfl
@[simp] theorem colorOf_some (m : Heap K V) (i : Nat) : m.colorOf (some i) = .ok (m.color i) := rfl
@[simp] theorem kvOf_some (m : Heap K V) (i : Nat) : m.kvOf (some i) = .ok (m.kv i) := rfl

theorem Holds.recol {m : Heap K V} {t : T} (h : Holds m t) (i : Nat) (b : Bool) : Holds (recol m i b) t :=
  ⟨h.root, h.rep.congr (fun _ _ => ⟨rfl, rfl, rfl⟩), h.nodup, h.pos⟩

theorem Frame.recol (m : Heap K V) (i : Nat) (b : Bool) (L : List Nat) : Frame m (recol m i b) L := ⟨rfl, rfl, fun _ _ _ => ⟨rfl, rfl, rfl⟩⟩

/-- What rebalancing does: a tree of the same addresses in the same order, now red-black; entries and the outside untouched. -/
structure Fixed (m m' : Heap K V) (t t' : T) : Prop where
  holds : Holds m' t'
  ids : t'.ids = t.ids
  rb : RB m'.color t'
  kv : m'.kv = m.kv
  frame : Frame m m' t.ids

/-- The root of a tree built by a context that is not empty is in the context. -/
theorem Ctx.root_plug {c : Ctx} (h : c ≠ .top) (t : T) : ∃ i ∈ c.ids, ∀ t, (c.plug t).root = some i := by
  induction c generalizing t with
  | top => exact absurd rfl h
  | left i r c ih =>
    by_cases hc : c = .top
    · subst hc; exact ⟨i, by simp [ids, after], fun t => rfl⟩
    · obtain ⟨j, hj, e⟩ := ih hc t
      refine ⟨j, ?_, fun t => e _⟩
      simp only [ids, before, after, List.mem_append, List.mem_cons] at hj ⊢; tauto
  | right l i c ih =>
    by_cases hc : c = .top
    · subst hc; exact ⟨i, by simp [ids, before], fun t => rfl⟩
    · obtain ⟨j, hj, e⟩ := ih hc t
      refine ⟨j, ?_, fun t => e _⟩
      simp only [ids, before, after, List.mem_append, List.mem_cons] at hj ⊢; tauto

theorem Ctx.mem_plug {c : Ctx} {t : T} {i : Nat} : i ∈ (c.plug t).ids ↔ i ∈ c.ids ∨ i ∈ t.ids := by
  rw [ids_plug]; simp only [Ctx.ids, List.mem_append]; tauto

/-- In a tree, the addresses of the context and of the subtree differ. -/
theorem Ctx.nodup_plug {c : Ctx} {t : T} (h : (c.plug t).ids.Nodup) : c.ids.Nodup ∧ t.ids.Nodup ∧ ∀ i ∈ c.ids, i ∉ t.ids := by
  rw [ids_plug] at h
  simp only [Ctx.ids, List.nodup_append, List.mem_append] at h ⊢
  grind

/-- The loop stops below a black parent. -/
theorem putRebalanced_black {m : Heap K V} {c : Ctx} {A B : T} {x n : Nat} (h : Holds m (c.plug (.node A x B))) (hp : parBlack m.color c)
    (hc : BalC m.color c n) (ht : Bal m.color (.node A x B) n) :
    ∃ m', putRebalanced m (some x) = .ok m' ∧ Fixed m m' (c.plug (.node A x B)) (c.plug (.node A x B)) ∧ m'.color = m.color := by
  have hne : c ≠ .top := by rintro rfl; exact hp
  obtain ⟨r, hr, e⟩ := Ctx.root_plug hne .nil
  have hrx : r ≠ x := by
    rintro rfl; exact (Ctx.nodup_plug h.nodup).2.2 r hr (by simp [T.ids])
  have hroot : m.parent 0 = some r := by rw [h.root, e]
  have hrb : RB m.color (c.plug (.node A x B)) := (rb_plug ..).2 ⟨n, hc, ht, .inr hp⟩
  have hrr : m.color r = Black := by
    have h1 := hrb.1
    have h2 := e (.node A x B)
    cases hh : c.plug (.node A x B) with
    | nil => rw [hh] at h2; simp at h2
    | node l i r' => rw [hh] at h1 h2; simp only [T.root_node, Option.some.injEq] at h2; subst h2; exact h1
  have hcol : upd m.color r Black = m.color := by
    funext j; by_cases hj : j = r
    · subst hj; rw [upd_same, hrr]
    · rw [upd_ne _ _ hj]
  refine ⟨recol m r Black, ?_, ⟨h.recol _ _, rfl, by rw [recol_color, hcol]; exact hrb, rfl, Frame.recol ..⟩, hcol⟩
  have hs := h.split
  have hpx : m.parent x = c.par := hs.2.1
  rw [putRebalanced, hroot, if_neg (by simpa using Ne.symm hrx)]
  cases c with
  | top => exact absurd rfl hne
  | left i r c =>
    simp only [parBlack] at hp
    simp only [Ctx.par] at hpx
    simp [hpx, hp, setColor_some]
  | right l i c =>
    simp only [parBlack] at hp
    simp only [Ctx.par] at hpx
    simp [hpx, hp, setColor_some]

/-- The loop stops at the root. -/
theorem putRebalanced_top {m : Heap K V} {A B : T} {x n : Nat} (h : Holds m (.node A x B)) (ht : Bal m.color (.node A x B) n) :
    ∃ m', putRebalanced m (some x) = .ok m' ∧ Fixed m m' (.node A x B) (.node A x B) ∧ m'.color = upd m.color x Black := by
  refine ⟨recol m x Black, ?_, ⟨h.recol _ _, rfl, rb_blacken ht h.nodup, rfl, Frame.recol ..⟩, rfl⟩
  have : m.parent 0 = some x := h.root
  rw [putRebalanced, this]
  simp [setColor_some]

/-- A black grandparent above a red parent. -/
theorem BalC.black {col : Nat → Bool} {c : Ctx} {n : Nat} (h : BalC col c n) (hp : parBlack col c) :
    (∃ g U c2, c = .left g U c2 ∧ col g = Black ∧ Bal col U n ∧ BalC col c2 (n + 1)) ∨
    (∃ g U c2, c = .right U g c2 ∧ col g = Black ∧ Bal col U n ∧ BalC col c2 (n + 1)) := by
  cases c with
  | top => exact hp.elim
  | left g U c2 =>
    left
    simp only [parBlack] at hp
    rcases h with ⟨h1, h2, h3⟩ | ⟨h1, _⟩
    · exact ⟨g, U, c2, rfl, h1, h2, h3⟩
    · rw [hp] at h1; cases h1
  | right U g c2 =>
    right
    simp only [parBlack] at hp
    rcases h with ⟨h1, h2, h3⟩ | ⟨h1, _⟩
    · exact ⟨g, U, c2, rfl, h1, h2, h3⟩
    · rw [hp] at h1; cases h1

theorem isRed_root {m : Heap K V} {t : T} : m.isRed t.root = true ↔ ¬ rootBlack m.color t := by
  cases t with
  | nil => simp [Heap.isRed, rootBlack]
  | node l i r => simp [Heap.isRed, rootBlack]

theorem isBlack_root {m : Heap K V} {t : T} : m.isBlack t.root = true ↔ rootBlack m.color t := by
  cases t with
  | nil => simp [Heap.isBlack, rootBlack]
  | node l i r => simp [Heap.isBlack, rootBlack]

/-- Uncle red, parent a left child: recolouring. -/
theorem putStep_redL {m : Heap K V} {c : Ctx} {P U1 U2 : T} {x p g u : Nat}
    (h : Holds m (c.plug (.node P g (.node U1 u U2)))) (hP : P.root = some p) (hx : m.parent x = some p) (hxr : m.parent 0 ≠ some x)
    (hp : m.color p = Red) (hu : m.color u = Red) :
    putRebalanced m (some x) = putRebalanced (recol (recol (recol m p Black) u Black) g Red) (some g) := by
  obtain ⟨hc, h1, h2, h3, h4, h5⟩ := h.split
  have hpp : m.parent p = some g := by
    cases P with
    | nil => simp at hP
    | node l i r => simp only [T.root_node, Option.some.injEq] at hP; subst hP; exact h4.1
  rw [hP] at h2
  rw [T.root_node] at h3
  rw [putRebalanced, if_neg (fun e => hxr e.symm)]
  simp [hx, hp, hpp, h2, h3, Heap.isRed, hu, setColor_some]

/-- Uncle black, parent a left child, node a left child. -/
theorem putStep_LL {m : Heap K V} {c : Ctx} {A B S U : T} {x p g n : Nat}
    (h : Holds m (c.plug (.node (.node (.node A x B) p S) g U)))
    (hxc : m.color x = Red) (hpc : m.color p = Red) (hgc : m.color g = Black) (hU : Bal m.color U n) (hUb : rootBlack m.color U)
    (hS : Bal m.color S n) (hSb : rootBlack m.color S) (hc : BalC m.color c (n + 1)) (hX : Bal m.color (.node A x B) n) :
    ∃ m' t', putRebalanced m (some x) = .ok m' ∧ Fixed m m' (c.plug (.node (.node (.node A x B) p S) g U)) t' ∧
      ∀ (A' : Type) (f : Nat → A'), paint m'.color f t' = CT.fixPut (paintC m.color f (.left p S (.left g U c))) (paint m.color f (.node A x B)) := by
  obtain ⟨hcr, g1, g2, g3, ⟨p1, p2, p3, ⟨x1, x2, x3, hA, hB⟩, hSr⟩, hUr⟩ := h.split
  obtain ⟨nc, nt, nd⟩ := Ctx.nodup_plug h.nodup
  have hpos := h.pos
  have hxr : m.parent 0 ≠ some x := by
    intro e
    have : ((Ctx.left p S (.left g U c)).plug (.node A x B)).root = some x := by rw [← e]; exact h.root.symm
    obtain ⟨r, hr, e'⟩ := Ctx.root_plug (c := .left p S (.left g U c)) (by simp) .nil
    rw [e'] at this
    obtain rfl := Option.some.inj this
    exact (Ctx.nodup_plug (c := .left p S (.left g U c)) (t := .node A r B) h.nodup).2.2 r hr (by simp [T.ids])
  have hne : ¬ (some x = S.root) := by
    intro e; have := T.root_mem e.symm
    simp only [T.ids, List.nodup_append, List.nodup_cons, List.mem_append, List.mem_cons] at nt; grind
  have hUr' : m.isRed U.root = false := by
    rw [Bool.eq_false_iff]; intro e; exact (isRed_root.1 e) hUb
  rw [T.root_node] at g2 p2
  obtain ⟨m2, e2, hh2, col2, kv2, fr2⟩ := rightRotate_spec ((h.recol p Black).recol g Red)
  have hcol : ∀ j, m2.color j = if j = g then Red else if j = p then Black else m.color j := by intro j; rw [col2]; rfl
  have estep : putRebalanced m (some x) = putRebalanced m2 (some x) := by
    rw [putRebalanced, if_neg (fun e => hxr e.symm)]
    simp [x1, hpc, p1, g2, g3, hUr', p3, hne, setColor_some, e2]
  simp only [T.ids, List.nodup_append, List.nodup_cons, List.mem_append, List.mem_cons] at nt nd
  have q1 : Bal m2.color U n := (bal_congr (fun j hj => by rw [hcol]; grind)).2 hU
  have q2 : Bal m2.color S n := (bal_congr (fun j hj => by rw [hcol]; grind)).2 hS
  have q3 : rootBlack m2.color U := (rootBlack_congr (fun j hj => by rw [hcol]; grind)).2 hUb
  have q4 : rootBlack m2.color S := (rootBlack_congr (fun j hj => by rw [hcol]; grind)).2 hSb
  have q5 : BalC m2.color c (n + 1) := (balC_congr (fun j hj => by rw [hcol]; grind)).2 hc
  have q6 : Bal m2.color (.node A x B) n := (bal_congr (fun j hj => by rw [hcol]; simp only [T.ids, List.mem_append, List.mem_cons] at hj; grind)).2 hX
  have q7 : m2.color p = Black := by rw [hcol]; grind
  have q8 : m2.color g = Red := by rw [hcol]; grind
  obtain ⟨m3, e3, f3, col3⟩ := putRebalanced_black (c := .left p (.node S g U) c) hh2 q7 (.inl ⟨q7, .inr ⟨q8, q2, q1, q4, q3⟩, q5⟩) q6
  refine ⟨m3, _, by rw [estep, e3], ⟨f3.holds, ?_, f3.rb, by rw [f3.kv, kv2]; rfl, ?_⟩, ?_⟩
  · rw [f3.ids]; simp only [Ctx.plug, ids_plug, T.ids]; simp
  · have a := f3.frame
    have : ((Ctx.left p (.node S g U) c).plug (.node A x B)).ids = (c.plug (.node (.node (.node A x B) p S) g U)).ids := by
      simp only [Ctx.plug, ids_plug, T.ids]; simp
    rw [this] at a
    exact ((Frame.recol m p Black _).trans (Frame.recol _ g Red _)).trans (fr2.trans a)
  · intro A' f
    rw [paint_plug, col3]
    have w1 : paint m2.color f U = paint m.color f U := paint_recol (fun j hj => by rw [hcol]; grind)
    have w2 : paint m2.color f S = paint m.color f S := paint_recol (fun j hj => by rw [hcol]; grind)
    have w3 : paint m2.color f A = paint m.color f A := paint_recol (fun j hj => by rw [hcol]; grind)
    have w4 : paint m2.color f B = paint m.color f B := paint_recol (fun j hj => by rw [hcol]; grind)
    have w5 : paintC m2.color f c = paintC m.color f c := paintC_recol (fun j hj => by rw [hcol]; grind)
    have w6 : m2.color x = Red := by rw [hcol]; grind
    have w7 : m2.color p = Black := by rw [hcol]; grind
    simp only [paint, paintC, CT.climb, CT.fixPut, hpc, hgc, hxc, isRed_paint_false hUb, w1, w2, w3, w4, w5, w6, w7, q8]
    simp

/-- Uncle black, parent a left child, node a right child. -/
theorem putStep_LR {m : Heap K V} {c : Ctx} {A B S U : T} {x p g n : Nat}
    (h : Holds m (c.plug (.node (.node S p (.node A x B)) g U)))
    (hxc : m.color x = Red) (hpc : m.color p = Red) (hgc : m.color g = Black) (hU : Bal m.color U n) (hUb : rootBlack m.color U)
    (hS : Bal m.color S n) (hSb : rootBlack m.color S) (hc : BalC m.color c (n + 1)) (hX : Bal m.color (.node A x B) n) :
    ∃ m' t', putRebalanced m (some x) = .ok m' ∧ Fixed m m' (c.plug (.node (.node S p (.node A x B)) g U)) t' ∧
      ∀ (A' : Type) (f : Nat → A'), paint m'.color f t' = CT.fixPut (paintC m.color f (.right S p (.left g U c))) (paint m.color f (.node A x B)) := by
  obtain ⟨hcr, g1, g2, g3, ⟨p1, p2, p3, hSr, ⟨x1, x2, x3, hA, hB⟩⟩, hUr⟩ := h.split
  obtain ⟨nc, nt, nd⟩ := Ctx.nodup_plug h.nodup
  have hpos := h.pos
  have hxr : m.parent 0 ≠ some x := by
    intro e
    have : ((Ctx.right S p (.left g U c)).plug (.node A x B)).root = some x := by rw [← e]; exact h.root.symm
    obtain ⟨r, hr, e'⟩ := Ctx.root_plug (c := .right S p (.left g U c)) (by simp) .nil
    rw [e'] at this
    obtain rfl := Option.some.inj this
    exact (Ctx.nodup_plug (c := .right S p (.left g U c)) (t := .node A r B) h.nodup).2.2 r hr (by simp [T.ids])
  have hUr' : m.isRed U.root = false := by
    rw [Bool.eq_false_iff]; intro e; exact (isRed_root.1 e) hUb
  rw [T.root_node] at g2 p3
  obtain ⟨m1, e1, hh1, col1, kv1, fr1⟩ := leftRotate_spec (c := .left g U c) h
  obtain ⟨-, y1, y2, y3, ⟨z1, -, -, ⟨w1, -, -⟩, -⟩, -⟩ := Holds.split (c := c) (t := .node (.node (.node S p A) x B) g U) hh1
  obtain ⟨m2, e2, hh2, col2, kv2, fr2⟩ := rightRotate_spec (c := c) (A := U) (x := g) ((hh1.recol x Black).recol g Red)
  have hcol : ∀ j, m2.color j = if j = g then Red else if j = x then Black else m.color j := by intro j; rw [col2]; simp only [recol_color, upd, col1]
  have estep : putRebalanced m (some x) = putRebalanced m2 (some p) := by
    rw [putRebalanced, if_neg (fun e => hxr e.symm)]
    simp [x1, hpc, p1, g2, g3, hUr', p3, setColor_some, e1, e2, w1, z1]
  simp only [T.ids, List.nodup_append, List.nodup_cons, List.mem_append, List.mem_cons] at nt nd
  have hX' : Bal m.color A n ∧ Bal m.color B n ∧ rootBlack m.color A ∧ rootBlack m.color B := by
    rcases hX with ⟨h1, _⟩ | ⟨_, h1⟩
    · rw [hxc] at h1; cases h1
    · exact h1
  obtain ⟨a1, a2, a3, a4⟩ := hX'
  have q1 : Bal m2.color U n := (bal_congr (fun j hj => by rw [hcol]; grind)).2 hU
  have q2 : Bal m2.color S n := (bal_congr (fun j hj => by rw [hcol]; grind)).2 hS
  have q3 : rootBlack m2.color U := (rootBlack_congr (fun j hj => by rw [hcol]; grind)).2 hUb
  have q4 : rootBlack m2.color S := (rootBlack_congr (fun j hj => by rw [hcol]; grind)).2 hSb
  have q5 : BalC m2.color c (n + 1) := (balC_congr (fun j hj => by rw [hcol]; grind)).2 hc
  have b1 : Bal m2.color A n := (bal_congr (fun j hj => by rw [hcol]; grind)).2 a1
  have b2 : Bal m2.color B n := (bal_congr (fun j hj => by rw [hcol]; grind)).2 a2
  have b3 : rootBlack m2.color A := (rootBlack_congr (fun j hj => by rw [hcol]; grind)).2 a3
  have b4 : rootBlack m2.color B := (rootBlack_congr (fun j hj => by rw [hcol]; grind)).2 a4
  have q7 : m2.color x = Black := by rw [hcol]; grind
  have q8 : m2.color g = Red := by rw [hcol]; grind
  have q9 : m2.color p = Red := by rw [hcol]; grind
  obtain ⟨m3, e3, f3, col3⟩ := putRebalanced_black (c := .left x (.node B g U) c) hh2 q7 (.inl ⟨q7, .inr ⟨q8, b2, q1, b4, q3⟩, q5⟩)
    (.inr ⟨q9, q2, b1, q4, b3⟩)
  refine ⟨m3, _, by rw [estep, e3], ⟨f3.holds, ?_, f3.rb, by rw [f3.kv, kv2]; exact kv1, ?_⟩, ?_⟩
  · rw [f3.ids]; simp only [Ctx.plug, ids_plug, T.ids]; simp
  · have a := f3.frame
    have : ((Ctx.left x (.node B g U) c).plug (.node S p A)).ids = (c.plug (.node (.node S p (.node A x B)) g U)).ids := by
      simp only [Ctx.plug, ids_plug, T.ids]; simp
    rw [this] at a
    have : (c.plug (.node (.node (.node S p A) x B) g U)).ids = (c.plug (.node (.node S p (.node A x B)) g U)).ids := by
      simp only [ids_plug, T.ids]; simp
    rw [this] at fr2
    exact fr1.trans (((Frame.recol m1 x Black _).trans (Frame.recol _ g Red _)).trans (fr2.trans a))
  · intro A' f
    rw [paint_plug, col3]
    have w1 : paint m2.color f U = paint m.color f U := paint_recol (fun j hj => by rw [hcol]; grind)
    have w2 : paint m2.color f S = paint m.color f S := paint_recol (fun j hj => by rw [hcol]; grind)
    have w3 : paint m2.color f A = paint m.color f A := paint_recol (fun j hj => by rw [hcol]; grind)
    have w4 : paint m2.color f B = paint m.color f B := paint_recol (fun j hj => by rw [hcol]; grind)
    have w5 : paintC m2.color f c = paintC m.color f c := paintC_recol (fun j hj => by rw [hcol]; grind)
    have w6 : m2.color x = Black := by rw [hcol]; grind
    have w7 : m2.color p = Red := by rw [hcol]; grind
    simp only [paint, paintC, CT.climb, CT.fixPut, hpc, hgc, hxc, isRed_paint_false hUb, w1, w2, w3, w4, w5, w6, w7, q8]
    simp

/-- Uncle red, parent a right child: recolouring. -/
theorem putStep_redR {m : Heap K V} {c : Ctx} {P U1 U2 : T} {x p g u : Nat}
    (h : Holds m (c.plug (.node (.node U2 u U1) g P))) (hP : P.root = some p) (hx : m.parent x = some p) (hxr : m.parent 0 ≠ some x)
    (hp : m.color p = Red) (hu : m.color u = Red) :
    putRebalanced m (some x) = putRebalanced (recol (recol (recol m p Black) u Black) g Red) (some g) := by
  obtain ⟨hc, h1, h3, h2, h5, h4⟩ := h.split
  have hpp : m.parent p = some g := by
    cases P with
    | nil => simp at hP
    | node l i r => simp only [T.root_node, Option.some.injEq] at hP; subst hP; exact h4.1
  rw [hP] at h2
  rw [T.root_node] at h3
  rw [putRebalanced, if_neg (fun e => hxr e.symm)]
  have hpu : p ≠ u := by
    rintro rfl
    obtain ⟨_, nt, _⟩ := Ctx.nodup_plug h.nodup
    have := T.root_mem hP
    simp only [T.ids, List.nodup_append, List.nodup_cons, List.mem_append, List.mem_cons] at nt; grind
  simp [hx, hp, hpp, h2, h3, Heap.isRed, hu, setColor_some, hpu]

/-- Uncle black, parent a right child, node a right child. -/
theorem putStep_RR {m : Heap K V} {c : Ctx} {A B S U : T} {x p g n : Nat}
    (h : Holds m (c.plug (.node U g (.node S p (.node B x A)))))
    (hxc : m.color x = Red) (hpc : m.color p = Red) (hgc : m.color g = Black) (hU : Bal m.color U n) (hUb : rootBlack m.color U)
    (hS : Bal m.color S n) (hSb : rootBlack m.color S) (hc : BalC m.color c (n + 1)) (hX : Bal m.color (.node B x A) n) :
    ∃ m' t', putRebalanced m (some x) = .ok m' ∧ Fixed m m' (c.plug (.node U g (.node S p (.node B x A)))) t' ∧
      ∀ (A' : Type) (f : Nat → A'), paint m'.color f t' = CT.fixPut (paintC m.color f (.right S p (.right U g c))) (paint m.color f (.node B x A)) := by
  obtain ⟨hcr, g1, g3, g2, hUr, ⟨p1, p3, p2, hSr, ⟨x1, x3, x2, hB, hA⟩⟩⟩ := h.split
  obtain ⟨nc, nt, nd⟩ := Ctx.nodup_plug h.nodup
  have hpos := h.pos
  have hxr : m.parent 0 ≠ some x := by
    intro e
    have : ((Ctx.right S p (.right U g c)).plug (.node B x A)).root = some x := by rw [← e]; exact h.root.symm
    obtain ⟨r, hr, e'⟩ := Ctx.root_plug (c := .right S p (.right U g c)) (by simp) .nil
    rw [e'] at this
    obtain rfl := Option.some.inj this
    exact (Ctx.nodup_plug (c := .right S p (.right U g c)) (t := .node B r A) h.nodup).2.2 r hr (by simp [T.ids])
  have hne : ¬ (some x = S.root) := by
    intro e; have := T.root_mem e.symm
    simp only [T.ids, List.nodup_append, List.nodup_cons, List.mem_append, List.mem_cons] at nt; grind
  have hpU : ¬ (some p = U.root) := by
    intro e; have := T.root_mem e.symm
    simp only [T.ids, List.nodup_append, List.nodup_cons, List.mem_append, List.mem_cons] at nt; grind
  have hUr' : m.isRed U.root = false := by
    rw [Bool.eq_false_iff]; intro e; exact (isRed_root.1 e) hUb
  rw [T.root_node] at g2 p2
  obtain ⟨m2, e2, hh2, col2, kv2, fr2⟩ := leftRotate_spec ((h.recol p Black).recol g Red)
  have hcol : ∀ j, m2.color j = if j = g then Red else if j = p then Black else m.color j := by intro j; rw [col2]; rfl
  have estep : putRebalanced m (some x) = putRebalanced m2 (some x) := by
    rw [putRebalanced, if_neg (fun e => hxr e.symm)]
    simp [x1, hpc, p1, g2, g3, hUr', hpU, p3, hne, setColor_some, e2]
  simp only [T.ids, List.nodup_append, List.nodup_cons, List.mem_append, List.mem_cons] at nt nd
  have q1 : Bal m2.color U n := (bal_congr (fun j hj => by rw [hcol]; grind)).2 hU
  have q2 : Bal m2.color S n := (bal_congr (fun j hj => by rw [hcol]; grind)).2 hS
  have q3 : rootBlack m2.color U := (rootBlack_congr (fun j hj => by rw [hcol]; grind)).2 hUb
  have q4 : rootBlack m2.color S := (rootBlack_congr (fun j hj => by rw [hcol]; grind)).2 hSb
  have q5 : BalC m2.color c (n + 1) := (balC_congr (fun j hj => by rw [hcol]; grind)).2 hc
  have q6 : Bal m2.color (.node B x A) n := (bal_congr (fun j hj => by rw [hcol]; simp only [T.ids, List.mem_append, List.mem_cons] at hj; grind)).2 hX
  have q7 : m2.color p = Black := by rw [hcol]; grind
  have q8 : m2.color g = Red := by rw [hcol]; grind
  obtain ⟨m3, e3, f3, col3⟩ := putRebalanced_black (c := .right (.node U g S) p c) hh2 q7 (.inl ⟨q7, .inr ⟨q8, q1, q2, q3, q4⟩, q5⟩) q6
  refine ⟨m3, _, by rw [estep, e3], ⟨f3.holds, ?_, f3.rb, by rw [f3.kv, kv2]; rfl, ?_⟩, ?_⟩
  · rw [f3.ids]; simp only [Ctx.plug, ids_plug, T.ids]; simp
  · have a := f3.frame
    have : ((Ctx.right (.node U g S) p c).plug (.node B x A)).ids = (c.plug (.node U g (.node S p (.node B x A)))).ids := by
      simp only [Ctx.plug, ids_plug, T.ids]; simp
    rw [this] at a
    exact ((Frame.recol m p Black _).trans (Frame.recol _ g Red _)).trans (fr2.trans a)
  · intro A' f
    rw [paint_plug, col3]
    have w1 : paint m2.color f U = paint m.color f U := paint_recol (fun j hj => by rw [hcol]; grind)
    have w2 : paint m2.color f S = paint m.color f S := paint_recol (fun j hj => by rw [hcol]; grind)
    have w3 : paint m2.color f A = paint m.color f A := paint_recol (fun j hj => by rw [hcol]; grind)
    have w4 : paint m2.color f B = paint m.color f B := paint_recol (fun j hj => by rw [hcol]; grind)
    have w5 : paintC m2.color f c = paintC m.color f c := paintC_recol (fun j hj => by rw [hcol]; grind)
    have w6 : m2.color x = Red := by rw [hcol]; grind
    have w7 : m2.color p = Black := by rw [hcol]; grind
    simp only [paint, paintC, CT.climb, CT.fixPut, hpc, hgc, hxc, isRed_paint_false hUb, w1, w2, w3, w4, w5, w6, w7, q8]
    simp

/-- Uncle black, parent a right child, node a left child. -/
theorem putStep_RL {m : Heap K V} {c : Ctx} {A B S U : T} {x p g n : Nat}
    (h : Holds m (c.plug (.node U g (.node (.node B x A) p S))))
    (hxc : m.color x = Red) (hpc : m.color p = Red) (hgc : m.color g = Black) (hU : Bal m.color U n) (hUb : rootBlack m.color U)
    (hS : Bal m.color S n) (hSb : rootBlack m.color S) (hc : BalC m.color c (n + 1)) (hX : Bal m.color (.node B x A) n) :
    ∃ m' t', putRebalanced m (some x) = .ok m' ∧ Fixed m m' (c.plug (.node U g (.node (.node B x A) p S))) t' ∧
      ∀ (A' : Type) (f : Nat → A'), paint m'.color f t' = CT.fixPut (paintC m.color f (.left p S (.right U g c))) (paint m.color f (.node B x A)) := by
  obtain ⟨hcr, g1, g3, g2, hUr, ⟨p1, p3, p2, ⟨x1, x3, x2, hB, hA⟩, hSr⟩⟩ := h.split
  obtain ⟨nc, nt, nd⟩ := Ctx.nodup_plug h.nodup
  have hpos := h.pos
  have hxr : m.parent 0 ≠ some x := by
    intro e
    have : ((Ctx.left p S (.right U g c)).plug (.node B x A)).root = some x := by rw [← e]; exact h.root.symm
    obtain ⟨r, hr, e'⟩ := Ctx.root_plug (c := .left p S (.right U g c)) (by simp) .nil
    rw [e'] at this
    obtain rfl := Option.some.inj this
    exact (Ctx.nodup_plug (c := .left p S (.right U g c)) (t := .node B r A) h.nodup).2.2 r hr (by simp [T.ids])
  have hpU : ¬ (some p = U.root) := by
    intro e; have := T.root_mem e.symm
    simp only [T.ids, List.nodup_append, List.nodup_cons, List.mem_append, List.mem_cons] at nt; grind
  have hUr' : m.isRed U.root = false := by
    rw [Bool.eq_false_iff]; intro e; exact (isRed_root.1 e) hUb
  rw [T.root_node] at g2 p3
  obtain ⟨m1, e1, hh1, col1, kv1, fr1⟩ := rightRotate_spec (c := .right U g c) h
  obtain ⟨-, y1, y2, y3, -, ⟨z1, -, -, -, ⟨w1, -, -⟩⟩⟩ := Holds.split (c := c) (t := .node U g (.node B x (.node A p S))) hh1
  obtain ⟨m2, e2, hh2, col2, kv2, fr2⟩ := leftRotate_spec (c := c) (A := U) (x := g) ((hh1.recol x Black).recol g Red)
  have hcol : ∀ j, m2.color j = if j = g then Red else if j = x then Black else m.color j := by intro j; rw [col2]; simp only [recol_color, upd, col1]
  have estep : putRebalanced m (some x) = putRebalanced m2 (some p) := by
    rw [putRebalanced, if_neg (fun e => hxr e.symm)]
    simp [x1, hpc, p1, g2, g3, hUr', hpU, p3, setColor_some, e1, e2, w1, z1]
  simp only [T.ids, List.nodup_append, List.nodup_cons, List.mem_append, List.mem_cons] at nt nd
  have hX' : Bal m.color B n ∧ Bal m.color A n ∧ rootBlack m.color B ∧ rootBlack m.color A := by
    rcases hX with ⟨h1, _⟩ | ⟨_, h1⟩
    · rw [hxc] at h1; cases h1
    · exact h1
  obtain ⟨a2, a1, a4, a3⟩ := hX'
  have q1 : Bal m2.color U n := (bal_congr (fun j hj => by rw [hcol]; grind)).2 hU
  have q2 : Bal m2.color S n := (bal_congr (fun j hj => by rw [hcol]; grind)).2 hS
  have q3 : rootBlack m2.color U := (rootBlack_congr (fun j hj => by rw [hcol]; grind)).2 hUb
  have q4 : rootBlack m2.color S := (rootBlack_congr (fun j hj => by rw [hcol]; grind)).2 hSb
  have q5 : BalC m2.color c (n + 1) := (balC_congr (fun j hj => by rw [hcol]; grind)).2 hc
  have b1 : Bal m2.color A n := (bal_congr (fun j hj => by rw [hcol]; grind)).2 a1
  have b2 : Bal m2.color B n := (bal_congr (fun j hj => by rw [hcol]; grind)).2 a2
  have b3 : rootBlack m2.color A := (rootBlack_congr (fun j hj => by rw [hcol]; grind)).2 a3
  have b4 : rootBlack m2.color B := (rootBlack_congr (fun j hj => by rw [hcol]; grind)).2 a4
  have q7 : m2.color x = Black := by rw [hcol]; grind
  have q8 : m2.color g = Red := by rw [hcol]; grind
  have q9 : m2.color p = Red := by rw [hcol]; grind
  obtain ⟨m3, e3, f3, col3⟩ := putRebalanced_black (c := .right (.node U g B) x c) hh2 q7 (.inl ⟨q7, .inr ⟨q8, q1, b2, q3, b4⟩, q5⟩)
    (.inr ⟨q9, b1, q2, b3, q4⟩)
  refine ⟨m3, _, by rw [estep, e3], ⟨f3.holds, ?_, f3.rb, by rw [f3.kv, kv2]; exact kv1, ?_⟩, ?_⟩
  · rw [f3.ids]; simp only [Ctx.plug, ids_plug, T.ids]; simp
  · have a := f3.frame
    have : ((Ctx.right (.node U g B) x c).plug (.node A p S)).ids = (c.plug (.node U g (.node (.node B x A) p S))).ids := by
      simp only [Ctx.plug, ids_plug, T.ids]; simp
    rw [this] at a
    have : (c.plug (.node U g (.node B x (.node A p S)))).ids = (c.plug (.node U g (.node (.node B x A) p S))).ids := by
      simp only [ids_plug, T.ids]; simp
    rw [this] at fr2
    exact fr1.trans (((Frame.recol m1 x Black _).trans (Frame.recol _ g Red _)).trans (fr2.trans a))
  · intro A' f
    rw [paint_plug, col3]
    have w1 : paint m2.color f U = paint m.color f U := paint_recol (fun j hj => by rw [hcol]; grind)
    have w2 : paint m2.color f S = paint m.color f S := paint_recol (fun j hj => by rw [hcol]; grind)
    have w3 : paint m2.color f A = paint m.color f A := paint_recol (fun j hj => by rw [hcol]; grind)
    have w4 : paint m2.color f B = paint m.color f B := paint_recol (fun j hj => by rw [hcol]; grind)
    have w5 : paintC m2.color f c = paintC m.color f c := paintC_recol (fun j hj => by rw [hcol]; grind)
    have w6 : m2.color x = Black := by rw [hcol]; grind
    have w7 : m2.color p = Red := by rw [hcol]; grind
    simp only [paint, paintC, CT.climb, CT.fixPut, hpc, hgc, hxc, isRed_paint_false hUb, w1, w2, w3, w4, w5, w6, w7, q8]
    simp

set_option maxHeartbeats 2000000 in
theorem putRebalanced_spec (d : Nat) : ∀ {m : Heap K V} {c : Ctx} {A B : T} {x n : Nat}, c.depth ≤ d → Holds m (c.plug (.node A x B)) →
    m.color x = Red → BalC m.color c n → Bal m.color (.node A x B) n →
    ∃ m' t', putRebalanced m (some x) = .ok m' ∧ Fixed m m' (c.plug (.node A x B)) t' ∧
      ∀ (A' : Type) (f : Nat → A'), paint m'.color f t' = CT.fixPut (paintC m.color f c) (paint m.color f (.node A x B)) := by
  induction d using Nat.strongRecOn with
  | ind d ih => ?_
  intro m c A B x n hd h hx hc ht
  cases c with
  | top =>
    obtain ⟨m', e, f, hc'⟩ := putRebalanced_top h ht
    refine ⟨m', _, e, f, fun A' g => ?_⟩
    have nt := h.nodup
    simp only [T.ids, List.nodup_append, List.nodup_cons, List.mem_append, List.mem_cons, Ctx.plug] at nt
    have w1 : paint m'.color g A = paint m.color g A := paint_recol (fun j hj => by rw [hc']; exact upd_ne _ _ (by grind))
    have w2 : paint m'.color g B = paint m.color g B := paint_recol (fun j hj => by rw [hc']; exact upd_ne _ _ (by grind))
    have w3 : m'.color x = Black := by rw [hc']; simp
    simp only [Ctx.plug, paint, paintC, CT.fixPut, CT.blacken, w1, w2, w3]
  | left p S c1 =>
    by_cases hp : m.color p = Black
    · obtain ⟨m', e, f, hc'⟩ := putRebalanced_black h hp hc ht
      exact ⟨m', _, e, f, fun A' g => by rw [paint_plug, hc']; simp only [paintC, hp, CT.fixPut, CT.climb]⟩
    have hp : m.color p = Red := by cases hh : m.color p <;> simp_all
    obtain ⟨hS, hSb, hpb, hc1⟩ : Bal m.color S n ∧ rootBlack m.color S ∧ parBlack m.color c1 ∧ BalC m.color c1 n := by
      rcases hc with ⟨h1, _⟩ | ⟨_, h1⟩
      · rw [hp] at h1; cases h1
      · exact h1
    rcases hc1.black hpb with ⟨g, U, c2, rfl, hg, hU, hc2⟩ | ⟨g, U, c2, rfl, hg, hU, hc2⟩
    · by_cases hUb : rootBlack m.color U
      · exact putStep_LL h hx hp hg hU hUb hS hSb hc2 ht
      cases U with
      | nil => simp [rootBlack] at hUb
      | node U1 u U2 =>
      have hu : m.color u = Red := by simp only [rootBlack] at hUb; cases hh : m.color u <;> simp_all
      obtain ⟨nc, nt, nd⟩ := Ctx.nodup_plug (c := c2) (t := .node (.node (.node A x B) p S) g (.node U1 u U2)) h.nodup
      have hcol : ∀ j, (recol (recol (recol m p Black) u Black) g Red).color j = if j = g then Red else if j = u then Black else if j = p then Black else m.color j := fun j => rfl
      have e := putStep_redL (c := c2) (P := .node (.node A x B) p S) (x := x) h rfl h.split.2.1 ?_ hp hu
      rotate_left
      · intro e
        obtain ⟨r, hr, e'⟩ := Ctx.root_plug (c := .left p S (.left g (.node U1 u U2) c2)) (by simp) .nil
        rw [h.root, e'] at e
        obtain rfl := Option.some.inj e
        exact (Ctx.nodup_plug h.nodup).2.2 r hr (by simp [T.ids])
      simp only [T.ids, List.nodup_append, List.nodup_cons, List.mem_append, List.mem_cons] at nt nd
      generalize hm2 : recol (recol (recol m p Black) u Black) g Red = m2 at e hcol
      have hU' : Bal m.color U1 n ∧ Bal m.color U2 n := by
        rcases hU with ⟨h1, _⟩ | ⟨_, h1⟩
        · rw [hu] at h1; cases h1
        · exact ⟨h1.1, h1.2.1⟩
      have q1 : Bal m2.color U1 n := (bal_congr (fun j hj => by rw [hcol]; grind)).2 hU'.1
      have q1' : Bal m2.color U2 n := (bal_congr (fun j hj => by rw [hcol]; grind)).2 hU'.2
      have q2 : Bal m2.color S n := (bal_congr (fun j hj => by rw [hcol]; grind)).2 hS
      have q5 : BalC m2.color c2 (n + 1) := (balC_congr (fun j hj => by rw [hcol]; grind)).2 hc2
      have q6 : Bal m2.color (.node A x B) n := (bal_congr (fun j hj => by rw [hcol]; simp only [T.ids, List.mem_append, List.mem_cons] at hj; grind)).2 ht
      have q7 : m2.color p = Black := by rw [hcol]; grind
      have q8 : m2.color g = Red := by rw [hcol]; grind
      have q9 : m2.color u = Black := by rw [hcol]; grind
      have hh : Holds m2 (c2.plug (.node (.node (.node A x B) p S) g (.node U1 u U2))) := by
        rw [← hm2]; exact ((h.recol _ _).recol _ _).recol _ _
      obtain ⟨m3, t3, e3, f3, pt3⟩ := ih c2.depth (by simp only [Ctx.depth] at hd; omega) (Nat.le_refl _) hh q8 q5
        (.inr ⟨q8, .inl ⟨q7, n, rfl, q6, q2⟩, .inl ⟨q9, n, rfl, q1, q1'⟩, q7, q9⟩)
      refine ⟨m3, t3, by rw [e, e3], ⟨f3.holds, f3.ids, f3.rb, by rw [f3.kv, ← hm2]; rfl, Frame.trans ?_ f3.frame⟩, fun A' f => ?_⟩
      · rw [← hm2]
        exact ((Frame.recol m p Black _).trans (Frame.recol _ u Black _)).trans (Frame.recol _ g Red _)
      · rw [pt3]
        have w1 : paint m2.color f U1 = paint m.color f U1 := paint_recol (fun j hj => by rw [hcol]; grind)
        have w1' : paint m2.color f U2 = paint m.color f U2 := paint_recol (fun j hj => by rw [hcol]; grind)
        have w2 : paint m2.color f S = paint m.color f S := paint_recol (fun j hj => by rw [hcol]; grind)
        have w3 : paint m2.color f A = paint m.color f A := paint_recol (fun j hj => by rw [hcol]; grind)
        have w4 : paint m2.color f B = paint m.color f B := paint_recol (fun j hj => by rw [hcol]; grind)
        have w5 : paintC m2.color f c2 = paintC m.color f c2 := paintC_recol (fun j hj => by rw [hcol]; grind)
        have w6 : m2.color x = Red := by rw [hcol]; grind
        simp only [paint, paintC, CT.fixPut, CT.isRed, CT.blacken, hp, hg, hx, hu, w1, w1', w2, w3, w4, w5, w6, q7, q8, q9, if_true]
    · by_cases hUb : rootBlack m.color U
      · exact putStep_RL h hx hp hg hU hUb hS hSb hc2 ht
      cases U with
      | nil => simp [rootBlack] at hUb
      | node U1 u U2 =>
      have hu : m.color u = Red := by simp only [rootBlack] at hUb; cases hh : m.color u <;> simp_all
      obtain ⟨nc, nt, nd⟩ := Ctx.nodup_plug (c := c2) (t := .node (.node U1 u U2) g (.node (.node A x B) p S)) h.nodup
      have hcol : ∀ j, (recol (recol (recol m p Black) u Black) g Red).color j = if j = g then Red else if j = u then Black else if j = p then Black else m.color j := fun j => rfl
      have e := putStep_redR (c := c2) (P := .node (.node A x B) p S) (x := x) h rfl h.split.2.1 ?_ hp hu
      rotate_left
      · intro e
        obtain ⟨r, hr, e'⟩ := Ctx.root_plug (c := .left p S (.right (.node U1 u U2) g c2)) (by simp) .nil
        rw [h.root, e'] at e
        obtain rfl := Option.some.inj e
        exact (Ctx.nodup_plug h.nodup).2.2 r hr (by simp [T.ids])
      simp only [T.ids, List.nodup_append, List.nodup_cons, List.mem_append, List.mem_cons] at nt nd
      generalize hm2 : recol (recol (recol m p Black) u Black) g Red = m2 at e hcol
      have hU' : Bal m.color U1 n ∧ Bal m.color U2 n := by
        rcases hU with ⟨h1, _⟩ | ⟨_, h1⟩
        · rw [hu] at h1; cases h1
        · exact ⟨h1.1, h1.2.1⟩
      have q1 : Bal m2.color U1 n := (bal_congr (fun j hj => by rw [hcol]; grind)).2 hU'.1
      have q1' : Bal m2.color U2 n := (bal_congr (fun j hj => by rw [hcol]; grind)).2 hU'.2
      have q2 : Bal m2.color S n := (bal_congr (fun j hj => by rw [hcol]; grind)).2 hS
      have q5 : BalC m2.color c2 (n + 1) := (balC_congr (fun j hj => by rw [hcol]; grind)).2 hc2
      have q6 : Bal m2.color (.node A x B) n := (bal_congr (fun j hj => by rw [hcol]; simp only [T.ids, List.mem_append, List.mem_cons] at hj; grind)).2 ht
      have q7 : m2.color p = Black := by rw [hcol]; grind
      have q8 : m2.color g = Red := by rw [hcol]; grind
      have q9 : m2.color u = Black := by rw [hcol]; grind
      have hh : Holds m2 (c2.plug (.node (.node U1 u U2) g (.node (.node A x B) p S))) := by
        rw [← hm2]; exact ((h.recol _ _).recol _ _).recol _ _
      obtain ⟨m3, t3, e3, f3, pt3⟩ := ih c2.depth (by simp only [Ctx.depth] at hd; omega) (Nat.le_refl _) hh q8 q5
        (.inr ⟨q8, .inl ⟨q9, n, rfl, q1, q1'⟩, .inl ⟨q7, n, rfl, q6, q2⟩, q9, q7⟩)
      refine ⟨m3, t3, by rw [e, e3], ⟨f3.holds, f3.ids, f3.rb, by rw [f3.kv, ← hm2]; rfl, Frame.trans ?_ f3.frame⟩, fun A' f => ?_⟩
      · rw [← hm2]
        exact ((Frame.recol m p Black _).trans (Frame.recol _ u Black _)).trans (Frame.recol _ g Red _)
      · rw [pt3]
        have w1 : paint m2.color f U1 = paint m.color f U1 := paint_recol (fun j hj => by rw [hcol]; grind)
        have w1' : paint m2.color f U2 = paint m.color f U2 := paint_recol (fun j hj => by rw [hcol]; grind)
        have w2 : paint m2.color f S = paint m.color f S := paint_recol (fun j hj => by rw [hcol]; grind)
        have w3 : paint m2.color f A = paint m.color f A := paint_recol (fun j hj => by rw [hcol]; grind)
        have w4 : paint m2.color f B = paint m.color f B := paint_recol (fun j hj => by rw [hcol]; grind)
        have w5 : paintC m2.color f c2 = paintC m.color f c2 := paintC_recol (fun j hj => by rw [hcol]; grind)
        have w6 : m2.color x = Red := by rw [hcol]; grind
        simp only [paint, paintC, CT.fixPut, CT.isRed, CT.blacken, hp, hg, hx, hu, w1, w1', w2, w3, w4, w5, w6, q7, q8, q9, if_true]
  | right S p c1 =>
    by_cases hp : m.color p = Black
    · obtain ⟨m', e, f, hc'⟩ := putRebalanced_black h hp hc ht
      exact ⟨m', _, e, f, fun A' g => by rw [paint_plug, hc']; simp only [paintC, hp, CT.fixPut, CT.climb]⟩
    have hp : m.color p = Red := by cases hh : m.color p <;> simp_all
    obtain ⟨hS, hSb, hpb, hc1⟩ : Bal m.color S n ∧ rootBlack m.color S ∧ parBlack m.color c1 ∧ BalC m.color c1 n := by
      rcases hc with ⟨h1, _⟩ | ⟨_, h1⟩
      · rw [hp] at h1; cases h1
      · exact h1
    rcases hc1.black hpb with ⟨g, U, c2, rfl, hg, hU, hc2⟩ | ⟨g, U, c2, rfl, hg, hU, hc2⟩
    · by_cases hUb : rootBlack m.color U
      · exact putStep_LR h hx hp hg hU hUb hS hSb hc2 ht
      cases U with
      | nil => simp [rootBlack] at hUb
      | node U1 u U2 =>
      have hu : m.color u = Red := by simp only [rootBlack] at hUb; cases hh : m.color u <;> simp_all
      obtain ⟨nc, nt, nd⟩ := Ctx.nodup_plug (c := c2) (t := .node (.node S p (.node A x B)) g (.node U1 u U2)) h.nodup
      have hcol : ∀ j, (recol (recol (recol m p Black) u Black) g Red).color j = if j = g then Red else if j = u then Black else if j = p then Black else m.color j := fun j => rfl
      have e := putStep_redL (c := c2) (P := .node S p (.node A x B)) (x := x) h rfl h.split.2.1 ?_ hp hu
      rotate_left
      · intro e
        obtain ⟨r, hr, e'⟩ := Ctx.root_plug (c := .right S p (.left g (.node U1 u U2) c2)) (by simp) .nil
        rw [h.root, e'] at e
        obtain rfl := Option.some.inj e
        exact (Ctx.nodup_plug h.nodup).2.2 r hr (by simp [T.ids])
      simp only [T.ids, List.nodup_append, List.nodup_cons, List.mem_append, List.mem_cons] at nt nd
      generalize hm2 : recol (recol (recol m p Black) u Black) g Red = m2 at e hcol
      have hU' : Bal m.color U1 n ∧ Bal m.color U2 n := by
        rcases hU with ⟨h1, _⟩ | ⟨_, h1⟩
        · rw [hu] at h1; cases h1
        · exact ⟨h1.1, h1.2.1⟩
      have q1 : Bal m2.color U1 n := (bal_congr (fun j hj => by rw [hcol]; grind)).2 hU'.1
      have q1' : Bal m2.color U2 n := (bal_congr (fun j hj => by rw [hcol]; grind)).2 hU'.2
      have q2 : Bal m2.color S n := (bal_congr (fun j hj => by rw [hcol]; grind)).2 hS
      have q5 : BalC m2.color c2 (n + 1) := (balC_congr (fun j hj => by rw [hcol]; grind)).2 hc2
      have q6 : Bal m2.color (.node A x B) n := (bal_congr (fun j hj => by rw [hcol]; simp only [T.ids, List.mem_append, List.mem_cons] at hj; grind)).2 ht
      have q7 : m2.color p = Black := by rw [hcol]; grind
      have q8 : m2.color g = Red := by rw [hcol]; grind
      have q9 : m2.color u = Black := by rw [hcol]; grind
      have hh : Holds m2 (c2.plug (.node (.node S p (.node A x B)) g (.node U1 u U2))) := by
        rw [← hm2]; exact ((h.recol _ _).recol _ _).recol _ _
      obtain ⟨m3, t3, e3, f3, pt3⟩ := ih c2.depth (by simp only [Ctx.depth] at hd; omega) (Nat.le_refl _) hh q8 q5
        (.inr ⟨q8, .inl ⟨q7, n, rfl, q2, q6⟩, .inl ⟨q9, n, rfl, q1, q1'⟩, q7, q9⟩)
      refine ⟨m3, t3, by rw [e, e3], ⟨f3.holds, f3.ids, f3.rb, by rw [f3.kv, ← hm2]; rfl, Frame.trans ?_ f3.frame⟩, fun A' f => ?_⟩
      · rw [← hm2]
        exact ((Frame.recol m p Black _).trans (Frame.recol _ u Black _)).trans (Frame.recol _ g Red _)
      · rw [pt3]
        have w1 : paint m2.color f U1 = paint m.color f U1 := paint_recol (fun j hj => by rw [hcol]; grind)
        have w1' : paint m2.color f U2 = paint m.color f U2 := paint_recol (fun j hj => by rw [hcol]; grind)
        have w2 : paint m2.color f S = paint m.color f S := paint_recol (fun j hj => by rw [hcol]; grind)
        have w3 : paint m2.color f A = paint m.color f A := paint_recol (fun j hj => by rw [hcol]; grind)
        have w4 : paint m2.color f B = paint m.color f B := paint_recol (fun j hj => by rw [hcol]; grind)
        have w5 : paintC m2.color f c2 = paintC m.color f c2 := paintC_recol (fun j hj => by rw [hcol]; grind)
        have w6 : m2.color x = Red := by rw [hcol]; grind
        simp only [paint, paintC, CT.fixPut, CT.isRed, CT.blacken, hp, hg, hx, hu, w1, w1', w2, w3, w4, w5, w6, q7, q8, q9, if_true]
    · by_cases hUb : rootBlack m.color U
      · exact putStep_RR h hx hp hg hU hUb hS hSb hc2 ht
      cases U with
      | nil => simp [rootBlack] at hUb
      | node U1 u U2 =>
      have hu : m.color u = Red := by simp only [rootBlack] at hUb; cases hh : m.color u <;> simp_all
      obtain ⟨nc, nt, nd⟩ := Ctx.nodup_plug (c := c2) (t := .node (.node U1 u U2) g (.node S p (.node A x B))) h.nodup
      have hcol : ∀ j, (recol (recol (recol m p Black) u Black) g Red).color j = if j = g then Red else if j = u then Black else if j = p then Black else m.color j := fun j => rfl
      have e := putStep_redR (c := c2) (P := .node S p (.node A x B)) (x := x) h rfl h.split.2.1 ?_ hp hu
      rotate_left
      · intro e
        obtain ⟨r, hr, e'⟩ := Ctx.root_plug (c := .right S p (.right (.node U1 u U2) g c2)) (by simp) .nil
        rw [h.root, e'] at e
        obtain rfl := Option.some.inj e
        exact (Ctx.nodup_plug h.nodup).2.2 r hr (by simp [T.ids])
      simp only [T.ids, List.nodup_append, List.nodup_cons, List.mem_append, List.mem_cons] at nt nd
      generalize hm2 : recol (recol (recol m p Black) u Black) g Red = m2 at e hcol
      have hU' : Bal m.color U1 n ∧ Bal m.color U2 n := by
        rcases hU with ⟨h1, _⟩ | ⟨_, h1⟩
        · rw [hu] at h1; cases h1
        · exact ⟨h1.1, h1.2.1⟩
      have q1 : Bal m2.color U1 n := (bal_congr (fun j hj => by rw [hcol]; grind)).2 hU'.1
      have q1' : Bal m2.color U2 n := (bal_congr (fun j hj => by rw [hcol]; grind)).2 hU'.2
      have q2 : Bal m2.color S n := (bal_congr (fun j hj => by rw [hcol]; grind)).2 hS
      have q5 : BalC m2.color c2 (n + 1) := (balC_congr (fun j hj => by rw [hcol]; grind)).2 hc2
      have q6 : Bal m2.color (.node A x B) n := (bal_congr (fun j hj => by rw [hcol]; simp only [T.ids, List.mem_append, List.mem_cons] at hj; grind)).2 ht
      have q7 : m2.color p = Black := by rw [hcol]; grind
      have q8 : m2.color g = Red := by rw [hcol]; grind
      have q9 : m2.color u = Black := by rw [hcol]; grind
      have hh : Holds m2 (c2.plug (.node (.node U1 u U2) g (.node S p (.node A x B)))) := by
        rw [← hm2]; exact ((h.recol _ _).recol _ _).recol _ _
      obtain ⟨m3, t3, e3, f3, pt3⟩ := ih c2.depth (by simp only [Ctx.depth] at hd; omega) (Nat.le_refl _) hh q8 q5
        (.inr ⟨q8, .inl ⟨q9, n, rfl, q1, q1'⟩, .inl ⟨q7, n, rfl, q2, q6⟩, q9, q7⟩)
      refine ⟨m3, t3, by rw [e, e3], ⟨f3.holds, f3.ids, f3.rb, by rw [f3.kv, ← hm2]; rfl, Frame.trans ?_ f3.frame⟩, fun A' f => ?_⟩
      · rw [← hm2]
        exact ((Frame.recol m p Black _).trans (Frame.recol _ u Black _)).trans (Frame.recol _ g Red _)
      · rw [pt3]
        have w1 : paint m2.color f U1 = paint m.color f U1 := paint_recol (fun j hj => by rw [hcol]; grind)
        have w1' : paint m2.color f U2 = paint m.color f U2 := paint_recol (fun j hj => by rw [hcol]; grind)
        have w2 : paint m2.color f S = paint m.color f S := paint_recol (fun j hj => by rw [hcol]; grind)
        have w3 : paint m2.color f A = paint m.color f A := paint_recol (fun j hj => by rw [hcol]; grind)
        have w4 : paint m2.color f B = paint m.color f B := paint_recol (fun j hj => by rw [hcol]; grind)
        have w5 : paintC m2.color f c2 = paintC m.color f c2 := paintC_recol (fun j hj => by rw [hcol]; grind)
        have w6 : m2.color x = Red := by rw [hcol]; grind
        simp only [paint, paintC, CT.fixPut, CT.isRed, CT.blacken, hp, hg, hx, hu, w1, w1', w2, w3, w4, w5, w6, q7, q8, q9, if_true]

end Gds.RBTree
