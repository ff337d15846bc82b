import Verif.RBTree.Put

/-! Rebalancing after a removal. -/

namespace Gds.RBTree

variable {K V : Type}

theorem recol_root_black {m : Heap K V} {l r : T} {i : Nat} (h : rootBlack m.color (.node l i r)) : (recol m i Black).color = m.color := by
  funext j
  by_cases hj : j = i
  · subst hj; simp only [recol_color, upd_same]; exact h.symm
  · simp [upd_ne _ _ hj]

/-- Called with the root, the loop only blackens it. -/
theorem deleteRebalanced_root {m : Heap K V} {t : T} (h : Holds m t) (hrb : RB m.color t) (q : Option Nat) :
    ∃ m', deleteRebalanced m (m.parent 0) q = .ok m' ∧ Fixed m m' t t ∧ m'.color = m.color := by
  rw [deleteRebalanced]
  cases t with
  | nil =>
    have : m.parent 0 = none := h.root
    refine ⟨m, by simp [this], ⟨h, rfl, hrb, rfl, Frame.refl ..⟩, rfl⟩
  | node l i r =>
    have : m.parent 0 = some i := h.root
    refine ⟨recol m i Black, by simp [this, setColor_some], ⟨h.recol _ _, rfl, ?_, rfl, Frame.recol ..⟩, recol_root_black hrb.1⟩
    rw [recol_root_black hrb.1]; exact hrb

/-- Called with a red node, the loop only blackens it. -/
theorem deleteRebalanced_red {m : Heap K V} {c : Ctx} {l r : T} {x n : Nat} (h : Holds m (c.plug (.node l x r))) (hx : m.color x = Red)
    (hl : Bal m.color l n) (hr : Bal m.color r n) (hc : BalC m.color c (n + 1)) (q : Option Nat) :
    ∃ m', deleteRebalanced m (some x) q = .ok m' ∧ Fixed m m' (c.plug (.node l x r)) (c.plug (.node l x r)) ∧ m'.color = upd m.color x Black := by
  obtain ⟨nc, nt, nd⟩ := Ctx.nodup_plug h.nodup
  simp only [T.ids, List.nodup_append, List.nodup_cons, List.mem_append, List.mem_cons] at nt nd
  have h1 : x ∉ l.ids := by grind
  have h2 : x ∉ r.ids := by grind
  have h3 : x ∉ c.ids := by grind
  refine ⟨recol m x Black, ?_, ⟨h.recol _ _, rfl, ?_, rfl, Frame.recol ..⟩, rfl⟩
  · rw [deleteRebalanced]; simp [Heap.isBlack, hx, setColor_some]
  · refine (rb_plug ..).2 ⟨n + 1, (balC_upd h3).2 hc, .inl ⟨by simp, n, rfl, (bal_upd h1).2 hl, (bal_upd h2).2 hr⟩, .inl (by simp [rootBlack])⟩

/-- The body of the loop for a left child whose brother `b` is black. -/
def delTailL (m : Heap K V) (parent b : Option Nat) : Res (Heap K V) := do
  let bl ← m.leftOf b
  let br ← m.rightOf b
  if m.isBlack bl = true ∧ m.isBlack br = true then
    let m ← m.setColor b Red
    deleteRebalanced m parent parent
  else
    let (m, b) ← if m.isBlack br = true then do
        let m ← if bl ≠ none then m.setColor bl Black else pure m
        let m ← m.setColor b Red
        let m ← rightRotate m b
        let b ← m.rightOf parent
        pure (m, b)
      else pure (m, b)
    let pc ← m.colorOf parent
    let m ← m.setColor b pc
    let m ← m.setColor parent Black
    let br ← m.rightOf b
    let m ← if br ≠ none then m.setColor br Black else pure m
    let m ← leftRotate m parent
    deleteRebalanced m (m.parent 0) parent

/-- A painting, for every choice of labels. -/
abbrev Pict := (A : Type) → (Nat → A) → CT A

/-- What a step promises. -/
def Done (r : Res (Heap K V)) (m : Heap K V) (t : T) (q : Pict) : Prop :=
  ∃ m' t', r = .ok m' ∧ Fixed m m' t t' ∧ ∀ (A : Type) (f : Nat → A), paint m'.color f t' = q A f

/-- Below a red parent one step is enough. -/
theorem CT.tailL_false {A : Type} (t : CT A) (e : A) (s : CT A) : (CT.tailL false t e s).2 = false := by
  cases s with
  | nil => rfl
  | node b sl x sr =>
    simp only [CT.tailL]
    split
    · rfl
    · split <;> rfl

theorem CT.tailR_false {A : Type} (s : CT A) (e : A) (t : CT A) : (CT.tailR false s e t).2 = false := by
  cases s with
  | nil => rfl
  | node b sl x sr =>
    simp only [CT.tailR]
    split
    · rfl
    · split <;> rfl

/-- How the repair goes on after one step. -/
def CT.goOn {A : Type} (up : List (Up A)) (r : CT A × Bool) : CT A := if r.2 then CT.fixDel up r.1 else CT.climb up r.1

theorem Fixed.of {m m1 m' : Heap K V} {t t1 t' : T} (h : Fixed m1 m' t1 t') (hid : t1.ids = t.ids) (hk : m1.kv = m.kv) (hf : Frame m m1 t.ids) : Fixed m m' t t' :=
  ⟨h.holds, h.ids.trans hid, h.rb, h.kv.trans hk, hf.trans (hid ▸ h.frame)⟩

/-- The brother's inner child is red, its outer child black. -/
theorem delTailL_inner {m : Heap K V} {c : Ctx} {X B1 B2 Br : T} {p b e n : Nat}
    (h : Holds m (c.plug (.node X p (.node (.node B1 e B2) b Br)))) (he : m.color e = Red) (hX : Bal m.color X n)
    (hB1 : Bal m.color B1 n) (hB2 : Bal m.color B2 n) (hBr : Bal m.color Br n) (hBrb : rootBlack m.color Br)
    (hp : (m.color p = Black ∧ BalC m.color c (n + 2)) ∨ (m.color p = Red ∧ parBlack m.color c ∧ BalC m.color c (n + 1))) :
    Done (delTailL m (some p) (some b)) m (c.plug (.node X p (.node (.node B1 e B2) b Br)))
      (fun _ f => CT.goOn (paintC m.color f c) (CT.tailL (m.color p) (paint m.color f X) (f p) (paint m.color f (.node (.node B1 e B2) b Br)))) := by
  obtain ⟨hcr, p1, p2, p3, hXr, ⟨b1, b2, b3, ⟨e1, e2, e3, hB1r, hB2r⟩, hBrr⟩⟩ := h.split
  obtain ⟨nc, nt, nd⟩ := Ctx.nodup_plug h.nodup
  have hBrk : m.isBlack Br.root = true := isBlack_root.2 hBrb
  rw [T.root_node] at p3 b2
  obtain ⟨m1, r1, hh1, col1, kv1, fr1⟩ := rightRotate_spec (c := .right X p c) (x := b) ((h.recol e Black).recol b Red)
  obtain ⟨-, s1, s2, s3, -, ⟨t1, t2, t3, -, -⟩⟩ := Holds.split (c := c) (t := .node X p (.node B1 e (.node B2 b Br))) hh1
  rw [T.root_node] at s3 t3
  obtain ⟨m2, r2, hh2, col2, kv2, fr2⟩ := leftRotate_spec (c := c) (x := p) (((hh1.recol e (m1.color p)).recol p Black).recol b Black)
  have ebr : (recol (recol m e Black) b Red).isBlack Br.root = true := by
    rw [isBlack_root]
    simp only [T.ids, List.nodup_append, List.nodup_cons, List.mem_append, List.mem_cons] at nt nd
    exact (rootBlack_congr (fun j hj => by simp only [recol_color, upd]; grind)).2 hBrb
  have estep : delTailL m (some p) (some b) = deleteRebalanced m2 (m2.parent 0) (some p) := by
    simp [delTailL, b2, b3, Heap.isBlack, he, hBrk, setColor_some, r1, s3, t3, r2, -isBlack_root]
    rcases Br with _ | ⟨_, _, _⟩ <;> simp_all [Heap.isBlack]
  simp only [T.ids, List.nodup_append, List.nodup_cons, List.mem_append, List.mem_cons] at nt nd
  have hpc : m1.color p = m.color p := by rw [col1]; simp only [recol_color, upd]; grind
  have hcol : ∀ j, m2.color j = if j = b then Black else if j = p then Black else if j = e then m.color p else m.color j := by
    intro j; rw [col2]; simp only [recol_color, upd, hpc, col1]; grind
  have q1 : Bal m2.color X n := (bal_congr (fun j hj => by rw [hcol]; grind)).2 hX
  have q2 : Bal m2.color B1 n := (bal_congr (fun j hj => by rw [hcol]; grind)).2 hB1
  have q3 : Bal m2.color B2 n := (bal_congr (fun j hj => by rw [hcol]; grind)).2 hB2
  have q4 : Bal m2.color Br n := (bal_congr (fun j hj => by rw [hcol]; grind)).2 hBr
  have q5 : m2.color p = Black := by rw [hcol]; grind
  have q6 : m2.color b = Black := by rw [hcol]; grind
  have q7 : m2.color e = m.color p := by rw [hcol]; grind
  have q8 : ∀ j ∈ c.ids, m2.color j = m.color j := fun j hj => by rw [hcol]; grind
  have hrb : RB m2.color (c.plug (.node (.node X p B1) e (.node B2 b Br))) := by
    rcases hp with ⟨k1, k2⟩ | ⟨k1, k2, k3⟩
    · exact (rb_plug ..).2 ⟨n + 2, (balC_congr q8).2 k2, .inl ⟨by rw [q7, k1], n + 1, rfl, .inl ⟨q5, n, rfl, q1, q2⟩, .inl ⟨q6, n, rfl, q3, q4⟩⟩, .inl (by rw [rootBlack, q7, k1])⟩
    · exact (rb_plug ..).2 ⟨n + 1, (balC_congr q8).2 k3, .inr ⟨by rw [q7, k1], .inl ⟨q5, n, rfl, q1, q2⟩, .inl ⟨q6, n, rfl, q3, q4⟩, q5, q6⟩, .inr ((parBlack_congr q8).2 k2)⟩
  obtain ⟨m3, r3, f3, col3⟩ := deleteRebalanced_root hh2 hrb (some p)
  refine ⟨m3, _, by rw [estep, r3], f3.of (by simp only [ids_plug, T.ids]; simp) (by rw [kv2]; exact kv1) ?_, fun A f => ?_⟩
  rotate_left
  · rw [paint_plug, col3]
    have w0 : paintC m2.color f c = paintC m.color f c := paintC_recol q8
    have w1 : paint m2.color f X = paint m.color f X := paint_recol (fun j hj => by rw [hcol]; grind)
    have w2 : paint m2.color f B1 = paint m.color f B1 := paint_recol (fun j hj => by rw [hcol]; grind)
    have w3 : paint m2.color f B2 = paint m.color f B2 := paint_recol (fun j hj => by rw [hcol]; grind)
    have w4 : paint m2.color f Br = paint m.color f Br := paint_recol (fun j hj => by rw [hcol]; grind)
    simp [paint, CT.goOn, CT.tailL, CT.blacken, he, isRed_paint_false hBrb, w0, w1, w2, w3, w4, q5, q6, q7]
  have i1 : ((Ctx.right X p c).plug (.node (.node B1 e B2) b Br)).ids = (c.plug (.node X p (.node (.node B1 e B2) b Br))).ids := rfl
  have i2 : (c.plug (.node X p (.node B1 e (.node B2 b Br)))).ids = (c.plug (.node X p (.node (.node B1 e B2) b Br))).ids := by simp only [ids_plug, T.ids]; simp
  rw [i1] at fr1
  rw [i2] at fr2
  exact (((Frame.recol m e Black _).trans (Frame.recol _ b Red _)).trans fr1).trans
    ((((Frame.recol m1 e _ _).trans (Frame.recol _ p Black _)).trans (Frame.recol _ b Black _)).trans fr2)

/-- The brother's outer child is red. -/
theorem delTailL_outer {m : Heap K V} {c : Ctx} {X Bl R1 R2 : T} {p b e n : Nat}
    (h : Holds m (c.plug (.node X p (.node Bl b (.node R1 e R2))))) (he : m.color e = Red) (hX : Bal m.color X n) (hXb : rootBlack m.color X)
    (hBl : Bal m.color Bl n) (hR1 : Bal m.color R1 n) (hR2 : Bal m.color R2 n)
    (hp : (m.color p = Black ∧ BalC m.color c (n + 2)) ∨ (m.color p = Red ∧ parBlack m.color c ∧ BalC m.color c (n + 1))) :
    Done (delTailL m (some p) (some b)) m (c.plug (.node X p (.node Bl b (.node R1 e R2))))
      (fun _ f => CT.goOn (paintC m.color f c) (CT.tailL (m.color p) (paint m.color f X) (f p) (paint m.color f (.node Bl b (.node R1 e R2))))) := by
  obtain ⟨hcr, p1, p2, p3, hXr, ⟨b1, b2, b3, hBlr, ⟨e1, e2, e3, hR1r, hR2r⟩⟩⟩ := h.split
  obtain ⟨nc, nt, nd⟩ := Ctx.nodup_plug h.nodup
  rw [T.root_node] at p3 b3
  obtain ⟨m2, r2, hh2, col2, kv2, fr2⟩ := leftRotate_spec (c := c) (x := p) (((h.recol b (m.color p)).recol p Black).recol e Black)
  have estep : delTailL m (some p) (some b) = deleteRebalanced m2 (m2.parent 0) (some p) := by
    simp [delTailL, b2, b3, Heap.isBlack, he, setColor_some, r2]
  simp only [T.ids, List.nodup_append, List.nodup_cons, List.mem_append, List.mem_cons] at nt nd
  have hcol : ∀ j, m2.color j = if j = e then Black else if j = p then Black else if j = b then m.color p else m.color j := by
    intro j; rw [col2]; simp only [recol_color, upd]
  have q1 : Bal m2.color X n := (bal_congr (fun j hj => by rw [hcol]; grind)).2 hX
  have q2 : Bal m2.color Bl n := (bal_congr (fun j hj => by rw [hcol]; grind)).2 hBl
  have q3 : Bal m2.color R1 n := (bal_congr (fun j hj => by rw [hcol]; grind)).2 hR1
  have q4 : Bal m2.color R2 n := (bal_congr (fun j hj => by rw [hcol]; grind)).2 hR2
  have q5 : m2.color p = Black := by rw [hcol]; grind
  have q6 : m2.color e = Black := by rw [hcol]; grind
  have q7 : m2.color b = m.color p := by rw [hcol]; grind
  have q8 : ∀ j ∈ c.ids, m2.color j = m.color j := fun j hj => by rw [hcol]; grind
  have hrb : RB m2.color (c.plug (.node (.node X p Bl) b (.node R1 e R2))) := by
    rcases hp with ⟨k1, k2⟩ | ⟨k1, k2, k3⟩
    · exact (rb_plug ..).2 ⟨n + 2, (balC_congr q8).2 k2, .inl ⟨by rw [q7, k1], n + 1, rfl, .inl ⟨q5, n, rfl, q1, q2⟩, .inl ⟨q6, n, rfl, q3, q4⟩⟩, .inl (by rw [rootBlack, q7, k1])⟩
    · exact (rb_plug ..).2 ⟨n + 1, (balC_congr q8).2 k3, .inr ⟨by rw [q7, k1], .inl ⟨q5, n, rfl, q1, q2⟩, .inl ⟨q6, n, rfl, q3, q4⟩, q5, q6⟩, .inr ((parBlack_congr q8).2 k2)⟩
  obtain ⟨m3, r3, f3, col3⟩ := deleteRebalanced_root hh2 hrb (some p)
  refine ⟨m3, _, by rw [estep, r3], f3.of (by simp only [ids_plug, T.ids]; simp) (by rw [kv2]; rfl) ?_, fun A f => ?_⟩
  rotate_left
  · rw [paint_plug, col3]
    have w0 : paintC m2.color f c = paintC m.color f c := paintC_recol q8
    have w1 : paint m2.color f X = paint m.color f X := paint_recol (fun j hj => by rw [hcol]; grind)
    have w2 : paint m2.color f Bl = paint m.color f Bl := paint_recol (fun j hj => by rw [hcol]; grind)
    have w3 : paint m2.color f R1 = paint m.color f R1 := paint_recol (fun j hj => by rw [hcol]; grind)
    have w4 : paint m2.color f R2 = paint m.color f R2 := paint_recol (fun j hj => by rw [hcol]; grind)
    simp [paint, CT.goOn, CT.tailL, CT.isRed, CT.blacken, he, w0, w1, w2, w3, w4, q5, q6, q7]
  exact (((Frame.recol m b _ _).trans (Frame.recol _ p Black _)).trans (Frame.recol _ e Black _)).trans fr2

/-- Both children of the brother are black: recolour, and go up if the parent was black. -/
theorem delTailL_black {m : Heap K V} {c : Ctx} {X Bl Br : T} {p b n : Nat}
    (h : Holds m (c.plug (.node X p (.node Bl b Br)))) (hX : Bal m.color X n)
    (hBl : Bal m.color Bl n) (hBr : Bal m.color Br n) (hBlb : rootBlack m.color Bl) (hBrb : rootBlack m.color Br)
    (hp : (m.color p = Black ∧ BalC m.color c (n + 2)) ∨ (m.color p = Red ∧ parBlack m.color c ∧ BalC m.color c (n + 1)))
    (ih : m.color p = Black → ∀ {m : Heap K V}, m.color p = Black → Holds m (c.plug (.node X p (.node Bl b Br))) → Bal m.color (.node X p (.node Bl b Br)) (n + 1) →
      BalC m.color c (n + 2) → Done (deleteRebalanced m (some p) (some p)) m (c.plug (.node X p (.node Bl b Br)))
        (fun _ f => CT.fixDel (paintC m.color f c) (paint m.color f (.node X p (.node Bl b Br))))) :
    Done (delTailL m (some p) (some b)) m (c.plug (.node X p (.node Bl b Br)))
      (fun _ f => CT.goOn (paintC m.color f c) (CT.tailL (m.color p) (paint m.color f X) (f p) (paint m.color f (.node Bl b Br)))) := by
  obtain ⟨hcr, p1, p2, p3, hXr, ⟨b1, b2, b3, hBlr, hBrr⟩⟩ := h.split
  obtain ⟨nc, nt, nd⟩ := Ctx.nodup_plug h.nodup
  have k1 : m.isBlack Bl.root = true := isBlack_root.2 hBlb
  have k2 : m.isBlack Br.root = true := isBlack_root.2 hBrb
  have estep : delTailL m (some p) (some b) = deleteRebalanced (recol m b Red) (some p) (some p) := by
    simp [delTailL, b2, b3, k1, k2, setColor_some]
  rw [estep]
  simp only [T.ids, List.nodup_append, List.nodup_cons, List.mem_append, List.mem_cons] at nt nd
  have h1 : b ∉ X.ids := by grind
  have h2 : b ∉ Bl.ids := by grind
  have h3 : b ∉ Br.ids := by grind
  have h4 : b ∉ c.ids := by grind
  have h5 : p ≠ b := by grind
  have hb : Bal (recol m b Red).color (.node Bl b Br) n :=
    .inr ⟨upd_same .., (bal_upd h2).2 hBl, (bal_upd h3).2 hBr, (rootBlack_upd h2).2 hBlb, (rootBlack_upd h3).2 hBrb⟩
  have wt : ∀ (A : Type) (f : Nat → A), CT.tailL (m.color p) (paint m.color f X) (f p) (paint m.color f (.node Bl b Br)) = (CT.node true (paint m.color f X) (f p) (CT.node false (paint m.color f Bl) (f b) (paint m.color f Br)), m.color p) := by
    intro A f
    have e1 : (paint m.color f Bl).isRed = false := isRed_paint_false hBlb
    have e2 : (paint m.color f Br).isRed = false := isRed_paint_false hBrb
    cases hh : paint m.color f Bl with
    | nil => simp [paint, CT.tailL, e2, hh]
    | node w _ _ _ =>
      rw [hh] at e1
      cases w with
      | true => simp [paint, CT.tailL, e2, hh]
      | false => simp [CT.isRed] at e1
  have wn : ∀ (A : Type) (f : Nat → A), (paintC (recol m b Red).color f c, paint (recol m b Red).color f (.node X p (.node Bl b Br))) =
      (paintC m.color f c, CT.node ((recol m b Red).color p) (paint m.color f X) (f p) (CT.node false (paint m.color f Bl) (f b) (paint m.color f Br))) := by
    intro A f
    have w0 : paintC (recol m b Red).color f c = paintC m.color f c := paintC_recol (fun j hj => by simp only [recol_color, upd]; grind)
    have w1 : paint (recol m b Red).color f X = paint m.color f X := paint_recol (fun j hj => by simp only [recol_color, upd]; grind)
    have w2 : paint (recol m b Red).color f Bl = paint m.color f Bl := paint_recol (fun j hj => by simp only [recol_color, upd]; grind)
    have w3 : paint (recol m b Red).color f Br = paint m.color f Br := paint_recol (fun j hj => by simp only [recol_color, upd]; grind)
    have w4 : (recol m b Red).color b = Red := upd_same ..
    simp only [paint, w0, w1, w2, w3, w4]
  rcases hp with ⟨k1, k2⟩ | ⟨k1, k2, k3⟩
  · have hp' : (recol m b Red).color p = Black := by rw [recol_color, upd_ne _ _ h5, k1]
    obtain ⟨m', t', e, f, pt⟩ := ih k1 hp' (h.recol b Red) (.inl ⟨hp', n, rfl, (bal_upd h1).2 hX, hb⟩) ((balC_upd h4).2 k2)
    refine ⟨m', t', e, f.of rfl rfl (Frame.recol ..), fun A f => ?_⟩
    rw [pt]; beta_reduce; rw [wt A f]
    have := wn A f
    rw [hp', Prod.mk.injEq] at this
    show CT.fixDel _ _ = _
    rw [this.1, this.2]
    simp [CT.goOn, k1]
  · have hp' : (recol m b Red).color p = Red := by rw [recol_color, upd_ne _ _ h5, k1]
    obtain ⟨m', e, f, hcol⟩ := deleteRebalanced_red (h.recol b Red) hp' ((bal_upd h1).2 hX) hb ((balC_upd h4).2 k3) (some p)
    refine ⟨m', _, e, f.of rfl rfl (Frame.recol ..), fun A f => ?_⟩
    have h6 : p ∉ X.ids := by grind
    have h7 : p ∉ Bl.ids := by grind
    have h8 : p ∉ Br.ids := by grind
    have h9 : p ∉ c.ids := by grind
    have hcol' : ∀ j, m'.color j = if j = p then Black else if j = b then Red else m.color j := by intro j; rw [hcol]; rfl
    have w0 : paintC m'.color f c = paintC m.color f c := paintC_recol (fun j hj => by rw [hcol']; grind)
    have w1 : paint m'.color f X = paint m.color f X := paint_recol (fun j hj => by rw [hcol']; grind)
    have w2 : paint m'.color f Bl = paint m.color f Bl := paint_recol (fun j hj => by rw [hcol']; grind)
    have w3 : paint m'.color f Br = paint m.color f Br := paint_recol (fun j hj => by rw [hcol']; grind)
    have w4 : m'.color p = Black := by rw [hcol']; grind
    have w5 : m'.color b = Red := by rw [hcol']; grind
    rw [paint_plug]; beta_reduce; rw [wt A f]
    simp [CT.goOn, k1, paint, w0, w1, w2, w3, w4, w5]

theorem delTailL_spec {m : Heap K V} {c : Ctx} {X Bl Br : T} {p b n : Nat}
    (h : Holds m (c.plug (.node X p (.node Bl b Br)))) (hX : Bal m.color X n) (hXb : rootBlack m.color X)
    (hBl : Bal m.color Bl n) (hBr : Bal m.color Br n)
    (hp : (m.color p = Black ∧ BalC m.color c (n + 2)) ∨ (m.color p = Red ∧ parBlack m.color c ∧ BalC m.color c (n + 1)))
    (ih : m.color p = Black → ∀ {m : Heap K V}, m.color p = Black → Holds m (c.plug (.node X p (.node Bl b Br))) → Bal m.color (.node X p (.node Bl b Br)) (n + 1) →
      BalC m.color c (n + 2) → Done (deleteRebalanced m (some p) (some p)) m (c.plug (.node X p (.node Bl b Br)))
        (fun _ f => CT.fixDel (paintC m.color f c) (paint m.color f (.node X p (.node Bl b Br))))) :
    Done (delTailL m (some p) (some b)) m (c.plug (.node X p (.node Bl b Br)))
      (fun _ f => CT.goOn (paintC m.color f c) (CT.tailL (m.color p) (paint m.color f X) (f p) (paint m.color f (.node Bl b Br)))) := by
  by_cases h1 : rootBlack m.color Br
  · by_cases h2 : rootBlack m.color Bl
    · exact delTailL_black h hX hBl hBr h2 h1 hp ih
    · cases Bl with
      | nil => simp [rootBlack] at h2
      | node B1 e B2 =>
        have he : m.color e = Red := by simp only [rootBlack] at h2; cases hh : m.color e <;> simp_all
        rcases hBl with ⟨k, _⟩ | ⟨_, k1, k2, _⟩
        · rw [he] at k; cases k
        · exact delTailL_inner h he hX k1 k2 hBr h1 hp
  · cases Br with
    | nil => simp [rootBlack] at h1
    | node R1 e R2 =>
      have he : m.color e = Red := by simp only [rootBlack] at h1; cases hh : m.color e <;> simp_all
      rcases hBr with ⟨k, _⟩ | ⟨_, k1, k2, _⟩
      · rw [he] at k; cases k
      · exact delTailL_outer h he hX hXb hBl k1 k2 hp

/-- One turn of the loop for a left child. -/
theorem delStepL {m : Heap K V} {c : Ctx} {X B : T} {p n : Nat}
    (h : Holds m (c.plug (.node X p B))) (hX : Bal m.color X n) (hXb : rootBlack m.color X) (hc : BalC m.color (.left p B c) (n + 1))
    (ih : ∀ {m : Heap K V} {B : T}, m.color p = Black → Holds m (c.plug (.node X p B)) → Bal m.color (.node X p B) (n + 1) →
      BalC m.color c (n + 2) → Done (deleteRebalanced m (some p) (some p)) m (c.plug (.node X p B))
        (fun _ f => CT.fixDel (paintC m.color f c) (paint m.color f (.node X p B)))) :
    Done (deleteRebalanced m X.root (some p)) m (c.plug (.node X p B))
      (fun _ f => CT.fixDel (paintC m.color f (.left p B c)) (paint m.color f X)) := by
  obtain ⟨hcr, p1, p2, p3, hXr, hBr⟩ := h.split
  obtain ⟨nc, nt, nd⟩ := Ctx.nodup_plug h.nodup
  have hXk : m.isBlack X.root = true := isBlack_root.2 hXb
  have hroot : X.root ≠ m.parent 0 := by
    intro e
    obtain ⟨r, hr, e'⟩ := Ctx.root_plug (c := .left p B c) (by simp) .nil
    rw [h.root] at e
    have := e' X; rw [Ctx.plug] at this; rw [this] at e
    exact (Ctx.nodup_plug (c := .left p B c) (t := X) h.nodup).2.2 r hr (T.root_mem e)
  have hpar : X.root = none ∨ ∃ i, X.root = some i ∧ m.parent i = some p := by
    cases X with
    | nil => exact .inl rfl
    | node l i r => exact .inr ⟨i, rfl, hXr.1⟩
  have hBn : ∃ Bl b Br, B = .node Bl b Br := by
    cases B with
    | nil => rcases hc with ⟨_, k, _⟩ | ⟨_, k, _⟩ <;> simp [Bal] at k
    | node Bl b Br => exact ⟨Bl, b, Br, rfl⟩
  obtain ⟨Bl, b, Br, rfl⟩ := hBn
  rw [T.root_node] at p3
  by_cases hb : m.color b = Black
  · have estep : deleteRebalanced m X.root (some p) = delTailL m (some p) (some b) := by
      rw [deleteRebalanced, if_pos ⟨hroot, hXk⟩]
      rcases hpar with e | ⟨i, e, ep⟩
      · rw [e] at p2 ⊢; simp [p2, p3, hb, delTailL]
      · rw [e] at p2 ⊢; simp [ep, p2, p3, hb, delTailL]
    rw [estep]
    have hkids : Bal m.color Bl n ∧ Bal m.color Br n := by
      rcases hc with ⟨_, (⟨_, k, e, k1, k2⟩ | ⟨k, _⟩), _⟩ | ⟨_, (⟨_, k, e, k1, k2⟩ | ⟨k, _⟩), _⟩
      · obtain rfl : n = k := by omega
        exact ⟨k1, k2⟩
      · rw [hb] at k; cases k
      · obtain rfl : n = k := by omega
        exact ⟨k1, k2⟩
      · rw [hb] at k; cases k
    suffices hd : Done (delTailL m (some p) (some b)) m (c.plug (.node X p (.node Bl b Br))) (fun _ f => CT.goOn (paintC m.color f c) (CT.tailL (m.color p) (paint m.color f X) (f p) (paint m.color f (.node Bl b Br)))) by
      obtain ⟨m', t', r', f', pt⟩ := hd
      refine ⟨m', t', r', f', fun A f => ?_⟩
      rw [pt]
      simp only [paintC, paint, hb, CT.fixDel, CT.goOn]
    refine delTailL_spec h hX hXb hkids.1 hkids.2 ?_ (fun _ => ih)
    rcases hc with ⟨k1, _, k2⟩ | ⟨k1, _, _, k2, k3⟩
    · exact .inl ⟨k1, k2⟩
    · exact .inr ⟨k1, k2, k3⟩
  · have hb : m.color b = Red := by cases hh : m.color b <;> simp_all
    obtain ⟨hp, k1, k2, k3, k4, hc2⟩ : m.color p = Black ∧ Bal m.color Bl (n + 1) ∧ Bal m.color Br (n + 1) ∧ rootBlack m.color Bl ∧ rootBlack m.color Br ∧ BalC m.color c (n + 2) := by
      rcases hc with ⟨k0, (⟨k, _⟩ | ⟨_, k1, k2, k3, k4⟩), k5⟩ | ⟨_, _, k, _⟩
      · rw [hb] at k; cases k
      · exact ⟨k0, k1, k2, k3, k4, k5⟩
      · simp only [rootBlack] at k; rw [hb] at k; cases k
    obtain ⟨m1, r1, hh1, col1, kv1, fr1⟩ := leftRotate_spec (c := c) (x := p) ((h.recol b Black).recol p Red)
    obtain ⟨-, -, s2, -, ⟨-, -, t3, -, -⟩, -⟩ := hh1.split
    have estep : deleteRebalanced m X.root (some p) = delTailL m1 (some p) Bl.root := by
      rw [deleteRebalanced, if_pos ⟨hroot, hXk⟩]
      rcases hpar with e | ⟨i, e, ep⟩
      · rw [e] at p2 ⊢; simp [p2, p3, hb, setColor_some, r1, t3, delTailL]
      · rw [e] at p2 ⊢; simp [ep, p2, p3, hb, setColor_some, r1, t3, delTailL]
    simp only [T.ids, List.nodup_append, List.nodup_cons, List.mem_append, List.mem_cons] at nt nd
    have hcol : ∀ j, m1.color j = if j = p then Red else if j = b then Black else m.color j := by intro j; rw [col1]; rfl
    have hBln : ∃ L1 l L2, Bl = .node L1 l L2 := by
      cases Bl with
      | nil => simp [Bal] at k1
      | node L1 l L2 => exact ⟨L1, l, L2, rfl⟩
    obtain ⟨L1, l, L2, rfl⟩ := hBln
    have hl : m.color l = Black := k3
    obtain ⟨j1, j2⟩ : Bal m.color L1 n ∧ Bal m.color L2 n := by
      rcases k1 with ⟨_, k, e, k1, k2⟩ | ⟨k, _⟩
      · obtain rfl : n = k := by omega
        exact ⟨k1, k2⟩
      · rw [hl] at k; cases k
    simp only [T.ids, List.nodup_append, List.nodup_cons, List.mem_append, List.mem_cons] at nt nd
    have q1 : Bal m1.color X n := (bal_congr (fun j hj => by rw [hcol]; grind)).2 hX
    have q2 : rootBlack m1.color X := (rootBlack_congr (fun j hj => by rw [hcol]; grind)).2 hXb
    have q3 : Bal m1.color L1 n := (bal_congr (fun j hj => by rw [hcol]; grind)).2 j1
    have q4 : Bal m1.color L2 n := (bal_congr (fun j hj => by rw [hcol]; grind)).2 j2
    have q5 : Bal m1.color Br (n + 1) := (bal_congr (fun j hj => by rw [hcol]; grind)).2 k2
    have q6 : BalC m1.color c (n + 2) := (balC_congr (fun j hj => by rw [hcol]; grind)).2 hc2
    have q7 : m1.color p = Red := by rw [hcol]; grind
    have q8 : m1.color b = Black := by rw [hcol]; grind
    have := delTailL_spec (c := .left b Br c) (b := l) hh1 q1 q2 q3 q4 (.inr ⟨q7, q8, .inl ⟨q8, q5, q6⟩⟩)
      (fun k => by rw [q7] at k; cases k)
    obtain ⟨m2, t2, r2, f2, pt2⟩ := this
    rw [estep]
    refine ⟨m2, t2, r2, f2.of (by simp only [Ctx.plug, ids_plug, T.ids]; simp) kv1 ?_, fun A f => ?_⟩
    rotate_left
    · rw [pt2]
      have w0 : paintC m1.color f c = paintC m.color f c := paintC_recol (fun j hj => by rw [hcol]; grind)
      have w1 : paint m1.color f X = paint m.color f X := paint_recol (fun j hj => by rw [hcol]; grind)
      have w2 : paint m1.color f L1 = paint m.color f L1 := paint_recol (fun j hj => by rw [hcol]; grind)
      have w3 : paint m1.color f L2 = paint m.color f L2 := paint_recol (fun j hj => by rw [hcol]; grind)
      have w4 : paint m1.color f Br = paint m.color f Br := paint_recol (fun j hj => by rw [hcol]; grind)
      have w5 : m1.color l = Black := by rw [hcol]; grind
      beta_reduce
      rw [q7, CT.goOn, CT.tailL_false]
      simp only [paintC, paint, w0, w1, w2, w3, w4, w5, q8, hb, hl, CT.climb, Bool.false_eq_true, if_false]
      rw [CT.fixDel]
    exact ((Frame.recol m b Black _).trans (Frame.recol _ p Red _)).trans fr1

/-- The body of the loop for a right child whose brother `b` is black. -/
def delTailR (m : Heap K V) (parent b : Option Nat) : Res (Heap K V) := do
  let bl ← m.leftOf b
  let br ← m.rightOf b
  if m.isBlack bl = true ∧ m.isBlack br = true then
    let m ← m.setColor b Red
    deleteRebalanced m parent parent
  else
    let (m, b) ← if m.isBlack bl = true then do
        let m ← if br ≠ none then m.setColor br Black else pure m
        let m ← m.setColor b Red
        let m ← leftRotate m b
        let b ← m.leftOf parent
        pure (m, b)
      else pure (m, b)
    let pc ← m.colorOf parent
    let m ← m.setColor b pc
    let m ← m.setColor parent Black
    let bl ← m.leftOf b
    let m ← if bl ≠ none then m.setColor bl Black else pure m
    let m ← rightRotate m parent
    deleteRebalanced m (m.parent 0) parent

/-- The brother's inner child is red, its outer child black. -/
theorem delTailR_inner {m : Heap K V} {c : Ctx} {X B1 B2 Br : T} {p b e n : Nat}
    (h : Holds m (c.plug (.node (.node Br b (.node B2 e B1)) p X))) (he : m.color e = Red) (hX : Bal m.color X n)
    (hB1 : Bal m.color B1 n) (hB2 : Bal m.color B2 n) (hBr : Bal m.color Br n) (hBrb : rootBlack m.color Br)
    (hp : (m.color p = Black ∧ BalC m.color c (n + 2)) ∨ (m.color p = Red ∧ parBlack m.color c ∧ BalC m.color c (n + 1))) :
    Done (delTailR m (some p) (some b)) m (c.plug (.node (.node Br b (.node B2 e B1)) p X))
      (fun _ f => CT.goOn (paintC m.color f c) (CT.tailR (m.color p) (paint m.color f (.node Br b (.node B2 e B1))) (f p) (paint m.color f X))) := by
  obtain ⟨hcr, p1, p3, p2, ⟨b1, b3, b2, hBrr, ⟨e1, e3, e2, hB2r, hB1r⟩⟩, hXr⟩ := h.split
  obtain ⟨nc, nt, nd⟩ := Ctx.nodup_plug h.nodup
  have hBrk : m.isBlack Br.root = true := isBlack_root.2 hBrb
  rw [T.root_node] at p3 b2
  obtain ⟨m1, r1, hh1, col1, kv1, fr1⟩ := leftRotate_spec (c := .left p X c) (x := b) ((h.recol e Black).recol b Red)
  obtain ⟨-, s1, s3, s2, ⟨t1, t3, t2, -, -⟩, -⟩ := Holds.split (c := c) (t := .node (.node (.node Br b B2) e B1) p X) hh1
  rw [T.root_node] at s3 t3
  obtain ⟨m2, r2, hh2, col2, kv2, fr2⟩ := rightRotate_spec (c := c) (x := p) (((hh1.recol e (m1.color p)).recol p Black).recol b Black)
  have ebr : (recol (recol m e Black) b Red).isBlack Br.root = true := by
    rw [isBlack_root]
    simp only [T.ids, List.nodup_append, List.nodup_cons, List.mem_append, List.mem_cons] at nt nd
    exact (rootBlack_congr (fun j hj => by simp only [recol_color, upd]; grind)).2 hBrb
  have estep : delTailR m (some p) (some b) = deleteRebalanced m2 (m2.parent 0) (some p) := by
    simp [delTailR, b2, b3, Heap.isBlack, he, hBrk, setColor_some, r1, s3, t3, r2, -isBlack_root]
    rcases Br with _ | ⟨_, _, _⟩ <;> simp_all [Heap.isBlack]
  simp only [T.ids, List.nodup_append, List.nodup_cons, List.mem_append, List.mem_cons] at nt nd
  have hpc : m1.color p = m.color p := by rw [col1]; simp only [recol_color, upd]; grind
  have hcol : ∀ j, m2.color j = if j = b then Black else if j = p then Black else if j = e then m.color p else m.color j := by
    intro j; rw [col2]; simp only [recol_color, upd, hpc, col1]; grind
  have q1 : Bal m2.color X n := (bal_congr (fun j hj => by rw [hcol]; grind)).2 hX
  have q2 : Bal m2.color B1 n := (bal_congr (fun j hj => by rw [hcol]; grind)).2 hB1
  have q3 : Bal m2.color B2 n := (bal_congr (fun j hj => by rw [hcol]; grind)).2 hB2
  have q4 : Bal m2.color Br n := (bal_congr (fun j hj => by rw [hcol]; grind)).2 hBr
  have q5 : m2.color p = Black := by rw [hcol]; grind
  have q6 : m2.color b = Black := by rw [hcol]; grind
  have q7 : m2.color e = m.color p := by rw [hcol]; grind
  have q8 : ∀ j ∈ c.ids, m2.color j = m.color j := fun j hj => by rw [hcol]; grind
  have hrb : RB m2.color (c.plug (.node (.node Br b B2) e (.node B1 p X))) := by
    rcases hp with ⟨k1, k2⟩ | ⟨k1, k2, k3⟩
    · exact (rb_plug ..).2 ⟨n + 2, (balC_congr q8).2 k2, .inl ⟨by rw [q7, k1], n + 1, rfl, .inl ⟨q6, n, rfl, q4, q3⟩, .inl ⟨q5, n, rfl, q2, q1⟩⟩, .inl (by rw [rootBlack, q7, k1])⟩
    · exact (rb_plug ..).2 ⟨n + 1, (balC_congr q8).2 k3, .inr ⟨by rw [q7, k1], .inl ⟨q6, n, rfl, q4, q3⟩, .inl ⟨q5, n, rfl, q2, q1⟩, q6, q5⟩, .inr ((parBlack_congr q8).2 k2)⟩
  obtain ⟨m3, r3, f3, col3⟩ := deleteRebalanced_root hh2 hrb (some p)
  refine ⟨m3, _, by rw [estep, r3], f3.of (by simp only [ids_plug, T.ids]; simp) (by rw [kv2]; exact kv1) ?_, fun A f => ?_⟩
  rotate_left
  · rw [paint_plug, col3]
    have w0 : paintC m2.color f c = paintC m.color f c := paintC_recol q8
    have w1 : paint m2.color f X = paint m.color f X := paint_recol (fun j hj => by rw [hcol]; grind)
    have w2 : paint m2.color f B1 = paint m.color f B1 := paint_recol (fun j hj => by rw [hcol]; grind)
    have w3 : paint m2.color f B2 = paint m.color f B2 := paint_recol (fun j hj => by rw [hcol]; grind)
    have w4 : paint m2.color f Br = paint m.color f Br := paint_recol (fun j hj => by rw [hcol]; grind)
    simp [paint, CT.goOn, CT.tailR, CT.blacken, he, isRed_paint_false hBrb, w0, w1, w2, w3, w4, q5, q6, q7]
  have i1 : ((Ctx.left p X c).plug (.node Br b (.node B2 e B1))).ids = (c.plug (.node (.node Br b (.node B2 e B1)) p X)).ids := rfl
  have i2 : (c.plug (.node (.node (.node Br b B2) e B1) p X)).ids = (c.plug (.node (.node Br b (.node B2 e B1)) p X)).ids := by simp only [ids_plug, T.ids]; simp
  rw [i1] at fr1
  rw [i2] at fr2
  exact (((Frame.recol m e Black _).trans (Frame.recol _ b Red _)).trans fr1).trans
    ((((Frame.recol m1 e _ _).trans (Frame.recol _ p Black _)).trans (Frame.recol _ b Black _)).trans fr2)

/-- The brother's outer child is red. -/
theorem delTailR_outer {m : Heap K V} {c : Ctx} {X Bl R1 R2 : T} {p b e n : Nat}
    (h : Holds m (c.plug (.node (.node (.node R2 e R1) b Bl) p X))) (he : m.color e = Red) (hX : Bal m.color X n) (hXb : rootBlack m.color X)
    (hBl : Bal m.color Bl n) (hR1 : Bal m.color R1 n) (hR2 : Bal m.color R2 n)
    (hp : (m.color p = Black ∧ BalC m.color c (n + 2)) ∨ (m.color p = Red ∧ parBlack m.color c ∧ BalC m.color c (n + 1))) :
    Done (delTailR m (some p) (some b)) m (c.plug (.node (.node (.node R2 e R1) b Bl) p X))
      (fun _ f => CT.goOn (paintC m.color f c) (CT.tailR (m.color p) (paint m.color f (.node (.node R2 e R1) b Bl)) (f p) (paint m.color f X))) := by
  obtain ⟨hcr, p1, p3, p2, ⟨b1, b3, b2, ⟨e1, e3, e2, hR2r, hR1r⟩, hBlr⟩, hXr⟩ := h.split
  obtain ⟨nc, nt, nd⟩ := Ctx.nodup_plug h.nodup
  rw [T.root_node] at p3 b3
  obtain ⟨m2, r2, hh2, col2, kv2, fr2⟩ := rightRotate_spec (c := c) (x := p) (((h.recol b (m.color p)).recol p Black).recol e Black)
  have estep : delTailR m (some p) (some b) = deleteRebalanced m2 (m2.parent 0) (some p) := by
    simp [delTailR, b2, b3, Heap.isBlack, he, setColor_some, r2]
  simp only [T.ids, List.nodup_append, List.nodup_cons, List.mem_append, List.mem_cons] at nt nd
  have hcol : ∀ j, m2.color j = if j = e then Black else if j = p then Black else if j = b then m.color p else m.color j := by
    intro j; rw [col2]; simp only [recol_color, upd]
  have q1 : Bal m2.color X n := (bal_congr (fun j hj => by rw [hcol]; grind)).2 hX
  have q2 : Bal m2.color Bl n := (bal_congr (fun j hj => by rw [hcol]; grind)).2 hBl
  have q3 : Bal m2.color R1 n := (bal_congr (fun j hj => by rw [hcol]; grind)).2 hR1
  have q4 : Bal m2.color R2 n := (bal_congr (fun j hj => by rw [hcol]; grind)).2 hR2
  have q5 : m2.color p = Black := by rw [hcol]; grind
  have q6 : m2.color e = Black := by rw [hcol]; grind
  have q7 : m2.color b = m.color p := by rw [hcol]; grind
  have q8 : ∀ j ∈ c.ids, m2.color j = m.color j := fun j hj => by rw [hcol]; grind
  have hrb : RB m2.color (c.plug (.node (.node R2 e R1) b (.node Bl p X))) := by
    rcases hp with ⟨k1, k2⟩ | ⟨k1, k2, k3⟩
    · exact (rb_plug ..).2 ⟨n + 2, (balC_congr q8).2 k2, .inl ⟨by rw [q7, k1], n + 1, rfl, .inl ⟨q6, n, rfl, q4, q3⟩, .inl ⟨q5, n, rfl, q2, q1⟩⟩, .inl (by rw [rootBlack, q7, k1])⟩
    · exact (rb_plug ..).2 ⟨n + 1, (balC_congr q8).2 k3, .inr ⟨by rw [q7, k1], .inl ⟨q6, n, rfl, q4, q3⟩, .inl ⟨q5, n, rfl, q2, q1⟩, q6, q5⟩, .inr ((parBlack_congr q8).2 k2)⟩
  obtain ⟨m3, r3, f3, col3⟩ := deleteRebalanced_root hh2 hrb (some p)
  refine ⟨m3, _, by rw [estep, r3], f3.of (by simp only [ids_plug, T.ids]; simp) (by rw [kv2]; rfl) ?_, fun A f => ?_⟩
  rotate_left
  · rw [paint_plug, col3]
    have w0 : paintC m2.color f c = paintC m.color f c := paintC_recol q8
    have w1 : paint m2.color f X = paint m.color f X := paint_recol (fun j hj => by rw [hcol]; grind)
    have w2 : paint m2.color f Bl = paint m.color f Bl := paint_recol (fun j hj => by rw [hcol]; grind)
    have w3 : paint m2.color f R1 = paint m.color f R1 := paint_recol (fun j hj => by rw [hcol]; grind)
    have w4 : paint m2.color f R2 = paint m.color f R2 := paint_recol (fun j hj => by rw [hcol]; grind)
    simp [paint, CT.goOn, CT.tailR, CT.isRed, CT.blacken, he, w0, w1, w2, w3, w4, q5, q6, q7]
  exact (((Frame.recol m b _ _).trans (Frame.recol _ p Black _)).trans (Frame.recol _ e Black _)).trans fr2

/-- Both children of the brother are black: recolour, and go up if the parent was black. -/
theorem delTailR_black {m : Heap K V} {c : Ctx} {X Bl Br : T} {p b n : Nat}
    (h : Holds m (c.plug (.node (.node Br b Bl) p X))) (hX : Bal m.color X n)
    (hBl : Bal m.color Bl n) (hBr : Bal m.color Br n) (hBlb : rootBlack m.color Bl) (hBrb : rootBlack m.color Br)
    (hp : (m.color p = Black ∧ BalC m.color c (n + 2)) ∨ (m.color p = Red ∧ parBlack m.color c ∧ BalC m.color c (n + 1)))
    (ih : m.color p = Black → ∀ {m : Heap K V}, m.color p = Black → Holds m (c.plug (.node (.node Br b Bl) p X)) → Bal m.color (.node (.node Br b Bl) p X) (n + 1) →
      BalC m.color c (n + 2) → Done (deleteRebalanced m (some p) (some p)) m (c.plug (.node (.node Br b Bl) p X))
        (fun _ f => CT.fixDel (paintC m.color f c) (paint m.color f (.node (.node Br b Bl) p X)))) :
    Done (delTailR m (some p) (some b)) m (c.plug (.node (.node Br b Bl) p X))
      (fun _ f => CT.goOn (paintC m.color f c) (CT.tailR (m.color p) (paint m.color f (.node Br b Bl)) (f p) (paint m.color f X))) := by
  obtain ⟨hcr, p1, p3, p2, ⟨b1, b3, b2, hBrr, hBlr⟩, hXr⟩ := h.split
  obtain ⟨nc, nt, nd⟩ := Ctx.nodup_plug h.nodup
  have k1 : m.isBlack Bl.root = true := isBlack_root.2 hBlb
  have k2 : m.isBlack Br.root = true := isBlack_root.2 hBrb
  have estep : delTailR m (some p) (some b) = deleteRebalanced (recol m b Red) (some p) (some p) := by
    simp [delTailR, b2, b3, k1, k2, setColor_some]
  rw [estep]
  simp only [T.ids, List.nodup_append, List.nodup_cons, List.mem_append, List.mem_cons] at nt nd
  have h1 : b ∉ X.ids := by grind
  have h2 : b ∉ Bl.ids := by grind
  have h3 : b ∉ Br.ids := by grind
  have h4 : b ∉ c.ids := by grind
  have h5 : p ≠ b := by grind
  have hb : Bal (recol m b Red).color (.node Br b Bl) n :=
    .inr ⟨upd_same .., (bal_upd h3).2 hBr, (bal_upd h2).2 hBl, (rootBlack_upd h3).2 hBrb, (rootBlack_upd h2).2 hBlb⟩
  have wt : ∀ (A : Type) (f : Nat → A), CT.tailR (m.color p) (paint m.color f (.node Br b Bl)) (f p) (paint m.color f X) = (CT.node true (CT.node false (paint m.color f Br) (f b) (paint m.color f Bl)) (f p) (paint m.color f X), m.color p) := by
    intro A f
    have e1 : (paint m.color f Bl).isRed = false := isRed_paint_false hBlb
    have e2 : (paint m.color f Br).isRed = false := isRed_paint_false hBrb
    cases hh : paint m.color f Bl with
    | nil => simp [paint, CT.tailR, e2, hh]
    | node w _ _ _ =>
      rw [hh] at e1
      cases w with
      | true => simp [paint, CT.tailR, e2, hh]
      | false => simp [CT.isRed] at e1
  have wn : ∀ (A : Type) (f : Nat → A), (paintC (recol m b Red).color f c, paint (recol m b Red).color f (.node (.node Br b Bl) p X)) =
      (paintC m.color f c, CT.node ((recol m b Red).color p) (CT.node false (paint m.color f Br) (f b) (paint m.color f Bl)) (f p) (paint m.color f X)) := by
    intro A f
    have w0 : paintC (recol m b Red).color f c = paintC m.color f c := paintC_recol (fun j hj => by simp only [recol_color, upd]; grind)
    have w1 : paint (recol m b Red).color f X = paint m.color f X := paint_recol (fun j hj => by simp only [recol_color, upd]; grind)
    have w2 : paint (recol m b Red).color f Bl = paint m.color f Bl := paint_recol (fun j hj => by simp only [recol_color, upd]; grind)
    have w3 : paint (recol m b Red).color f Br = paint m.color f Br := paint_recol (fun j hj => by simp only [recol_color, upd]; grind)
    have w4 : (recol m b Red).color b = Red := upd_same ..
    simp only [paint, w0, w1, w2, w3, w4]
  rcases hp with ⟨k1, k2⟩ | ⟨k1, k2, k3⟩
  · have hp' : (recol m b Red).color p = Black := by rw [recol_color, upd_ne _ _ h5, k1]
    obtain ⟨m', t', e, f, pt⟩ := ih k1 hp' (h.recol b Red) (.inl ⟨hp', n, rfl, hb, (bal_upd h1).2 hX⟩) ((balC_upd h4).2 k2)
    refine ⟨m', t', e, f.of rfl rfl (Frame.recol ..), fun A f => ?_⟩
    rw [pt]; beta_reduce; rw [wt A f]
    have := wn A f
    rw [hp', Prod.mk.injEq] at this
    show CT.fixDel _ _ = _
    rw [this.1, this.2]
    simp [CT.goOn, k1]
  · have hp' : (recol m b Red).color p = Red := by rw [recol_color, upd_ne _ _ h5, k1]
    obtain ⟨m', e, f, hcol⟩ := deleteRebalanced_red (h.recol b Red) hp' hb ((bal_upd h1).2 hX) ((balC_upd h4).2 k3) (some p)
    refine ⟨m', _, e, f.of rfl rfl (Frame.recol ..), fun A f => ?_⟩
    have h6 : p ∉ X.ids := by grind
    have h7 : p ∉ Bl.ids := by grind
    have h8 : p ∉ Br.ids := by grind
    have h9 : p ∉ c.ids := by grind
    have hcol' : ∀ j, m'.color j = if j = p then Black else if j = b then Red else m.color j := by intro j; rw [hcol]; rfl
    have w0 : paintC m'.color f c = paintC m.color f c := paintC_recol (fun j hj => by rw [hcol']; grind)
    have w1 : paint m'.color f X = paint m.color f X := paint_recol (fun j hj => by rw [hcol']; grind)
    have w2 : paint m'.color f Bl = paint m.color f Bl := paint_recol (fun j hj => by rw [hcol']; grind)
    have w3 : paint m'.color f Br = paint m.color f Br := paint_recol (fun j hj => by rw [hcol']; grind)
    have w4 : m'.color p = Black := by rw [hcol']; grind
    have w5 : m'.color b = Red := by rw [hcol']; grind
    rw [paint_plug]; beta_reduce; rw [wt A f]
    simp [CT.goOn, k1, paint, w0, w1, w2, w3, w4, w5]

theorem delTailR_spec {m : Heap K V} {c : Ctx} {X Bl Br : T} {p b n : Nat}
    (h : Holds m (c.plug (.node (.node Br b Bl) p X))) (hX : Bal m.color X n) (hXb : rootBlack m.color X)
    (hBl : Bal m.color Bl n) (hBr : Bal m.color Br n)
    (hp : (m.color p = Black ∧ BalC m.color c (n + 2)) ∨ (m.color p = Red ∧ parBlack m.color c ∧ BalC m.color c (n + 1)))
    (ih : m.color p = Black → ∀ {m : Heap K V}, m.color p = Black → Holds m (c.plug (.node (.node Br b Bl) p X)) → Bal m.color (.node (.node Br b Bl) p X) (n + 1) →
      BalC m.color c (n + 2) → Done (deleteRebalanced m (some p) (some p)) m (c.plug (.node (.node Br b Bl) p X))
        (fun _ f => CT.fixDel (paintC m.color f c) (paint m.color f (.node (.node Br b Bl) p X)))) :
    Done (delTailR m (some p) (some b)) m (c.plug (.node (.node Br b Bl) p X))
      (fun _ f => CT.goOn (paintC m.color f c) (CT.tailR (m.color p) (paint m.color f (.node Br b Bl)) (f p) (paint m.color f X))) := by
  by_cases h1 : rootBlack m.color Br
  · by_cases h2 : rootBlack m.color Bl
    · exact delTailR_black h hX hBl hBr h2 h1 hp ih
    · cases Bl with
      | nil => simp [rootBlack] at h2
      | node B1 e B2 =>
        have he : m.color e = Red := by simp only [rootBlack] at h2; cases hh : m.color e <;> simp_all
        rcases hBl with ⟨k, _⟩ | ⟨_, k2, k1, _⟩
        · rw [he] at k; cases k
        · exact delTailR_inner h he hX k1 k2 hBr h1 hp
  · cases Br with
    | nil => simp [rootBlack] at h1
    | node R1 e R2 =>
      have he : m.color e = Red := by simp only [rootBlack] at h1; cases hh : m.color e <;> simp_all
      rcases hBr with ⟨k, _⟩ | ⟨_, k2, k1, _⟩
      · rw [he] at k; cases k
      · exact delTailR_outer h he hX hXb hBl k1 k2 hp

/-- One turn of the loop for a right child. -/
theorem delStepR {m : Heap K V} {c : Ctx} {X B : T} {p n : Nat}
    (h : Holds m (c.plug (.node B p X))) (hX : Bal m.color X n) (hXb : rootBlack m.color X) (hc : BalC m.color (.right B p c) (n + 1))
    (ih : ∀ {m : Heap K V} {B : T}, m.color p = Black → Holds m (c.plug (.node B p X)) → Bal m.color (.node B p X) (n + 1) →
      BalC m.color c (n + 2) → Done (deleteRebalanced m (some p) (some p)) m (c.plug (.node B p X))
        (fun _ f => CT.fixDel (paintC m.color f c) (paint m.color f (.node B p X)))) :
    Done (deleteRebalanced m X.root (some p)) m (c.plug (.node B p X))
      (fun _ f => CT.fixDel (paintC m.color f (.right B p c)) (paint m.color f X)) := by
  obtain ⟨hcr, p1, p3, p2, hBr, hXr⟩ := h.split
  obtain ⟨nc, nt, nd⟩ := Ctx.nodup_plug h.nodup
  have hXk : m.isBlack X.root = true := isBlack_root.2 hXb
  have hroot : X.root ≠ m.parent 0 := by
    intro e
    obtain ⟨r, hr, e'⟩ := Ctx.root_plug (c := .right B p c) (by simp) .nil
    rw [h.root] at e
    have := e' X; rw [Ctx.plug] at this; rw [this] at e
    exact (Ctx.nodup_plug (c := .right B p c) (t := X) h.nodup).2.2 r hr (T.root_mem e)
  have hpar : X.root = none ∨ ∃ i, X.root = some i ∧ m.parent i = some p := by
    cases X with
    | nil => exact .inl rfl
    | node l i r => exact .inr ⟨i, rfl, hXr.1⟩
  have hBn : ∃ Bl b Br, B = .node Br b Bl := by
    cases B with
    | nil => rcases hc with ⟨_, k, _⟩ | ⟨_, k, _⟩ <;> simp [Bal] at k
    | node Bl b Br => exact ⟨Br, b, Bl, rfl⟩
  obtain ⟨Bl, b, Br, rfl⟩ := hBn
  rw [T.root_node] at p3
  have hXB : ∀ i, X.root = some i → i ≠ b := by
    rintro i e rfl
    have := T.root_mem e
    simp only [T.ids, List.nodup_append, List.nodup_cons, List.mem_append, List.mem_cons] at nt; grind
  by_cases hb : m.color b = Black
  · have estep : deleteRebalanced m X.root (some p) = delTailR m (some p) (some b) := by
      rw [deleteRebalanced, if_pos ⟨hroot, hXk⟩]
      rcases hpar with e | ⟨i, e, ep⟩
      · rw [e] at p2 ⊢; simp [p2, p3, hb, delTailR]
      · rw [e] at p2 ⊢; simp [ep, p2, p3, hXB i e, hb, delTailR]
    rw [estep]
    have hkids : Bal m.color Bl n ∧ Bal m.color Br n := by
      rcases hc with ⟨_, (⟨_, k, e, k2, k1⟩ | ⟨k, _⟩), _⟩ | ⟨_, (⟨_, k, e, k2, k1⟩ | ⟨k, _⟩), _⟩
      · obtain rfl : n = k := by omega
        exact ⟨k1, k2⟩
      · rw [hb] at k; cases k
      · obtain rfl : n = k := by omega
        exact ⟨k1, k2⟩
      · rw [hb] at k; cases k
    suffices hd : Done (delTailR m (some p) (some b)) m (c.plug (.node (.node Br b Bl) p X)) (fun _ f => CT.goOn (paintC m.color f c) (CT.tailR (m.color p) (paint m.color f (.node Br b Bl)) (f p) (paint m.color f X))) by
      obtain ⟨m', t', r', f', pt⟩ := hd
      refine ⟨m', t', r', f', fun A f => ?_⟩
      rw [pt]
      simp only [paintC, paint, hb, CT.fixDel, CT.goOn]
    refine delTailR_spec h hX hXb hkids.1 hkids.2 ?_ (fun _ => ih)
    rcases hc with ⟨k1, _, k2⟩ | ⟨k1, _, _, k2, k3⟩
    · exact .inl ⟨k1, k2⟩
    · exact .inr ⟨k1, k2, k3⟩
  · have hb : m.color b = Red := by cases hh : m.color b <;> simp_all
    obtain ⟨hp, k1, k2, k3, k4, hc2⟩ : m.color p = Black ∧ Bal m.color Bl (n + 1) ∧ Bal m.color Br (n + 1) ∧ rootBlack m.color Bl ∧ rootBlack m.color Br ∧ BalC m.color c (n + 2) := by
      rcases hc with ⟨k0, (⟨k, _⟩ | ⟨_, k2, k1, k4, k3⟩), k5⟩ | ⟨_, _, k, _⟩
      · rw [hb] at k; cases k
      · exact ⟨k0, k1, k2, k3, k4, k5⟩
      · simp only [rootBlack] at k; rw [hb] at k; cases k
    obtain ⟨m1, r1, hh1, col1, kv1, fr1⟩ := rightRotate_spec (c := c) (x := p) ((h.recol b Black).recol p Red)
    obtain ⟨-, -, -, s2, -, ⟨-, t3, -, -, -⟩⟩ := hh1.split
    have estep : deleteRebalanced m X.root (some p) = delTailR m1 (some p) Bl.root := by
      rw [deleteRebalanced, if_pos ⟨hroot, hXk⟩]
      rcases hpar with e | ⟨i, e, ep⟩
      · rw [e] at p2 ⊢; simp [p2, p3, hb, setColor_some, r1, t3, delTailR]
      · rw [e] at p2 ⊢; simp [ep, p2, p3, hXB i e, hb, setColor_some, r1, t3, delTailR]
    simp only [T.ids, List.nodup_append, List.nodup_cons, List.mem_append, List.mem_cons] at nt nd
    have hcol : ∀ j, m1.color j = if j = p then Red else if j = b then Black else m.color j := by intro j; rw [col1]; rfl
    have hBln : ∃ L1 l L2, Bl = .node L2 l L1 := by
      cases Bl with
      | nil => simp [Bal] at k1
      | node L1 l L2 => exact ⟨L2, l, L1, rfl⟩
    obtain ⟨L1, l, L2, rfl⟩ := hBln
    have hl : m.color l = Black := k3
    obtain ⟨j1, j2⟩ : Bal m.color L1 n ∧ Bal m.color L2 n := by
      rcases k1 with ⟨_, k, e, k2, k1⟩ | ⟨k, _⟩
      · obtain rfl : n = k := by omega
        exact ⟨k1, k2⟩
      · rw [hl] at k; cases k
    simp only [T.ids, List.nodup_append, List.nodup_cons, List.mem_append, List.mem_cons] at nt nd
    have q1 : Bal m1.color X n := (bal_congr (fun j hj => by rw [hcol]; grind)).2 hX
    have q2 : rootBlack m1.color X := (rootBlack_congr (fun j hj => by rw [hcol]; grind)).2 hXb
    have q3 : Bal m1.color L1 n := (bal_congr (fun j hj => by rw [hcol]; grind)).2 j1
    have q4 : Bal m1.color L2 n := (bal_congr (fun j hj => by rw [hcol]; grind)).2 j2
    have q5 : Bal m1.color Br (n + 1) := (bal_congr (fun j hj => by rw [hcol]; grind)).2 k2
    have q6 : BalC m1.color c (n + 2) := (balC_congr (fun j hj => by rw [hcol]; grind)).2 hc2
    have q7 : m1.color p = Red := by rw [hcol]; grind
    have q8 : m1.color b = Black := by rw [hcol]; grind
    have := delTailR_spec (c := .right Br b c) (b := l) hh1 q1 q2 q3 q4 (.inr ⟨q7, q8, .inl ⟨q8, q5, q6⟩⟩)
      (fun k => by rw [q7] at k; cases k)
    obtain ⟨m2, t2, r2, f2, pt2⟩ := this
    rw [estep]
    refine ⟨m2, t2, r2, f2.of (by simp only [Ctx.plug, ids_plug, T.ids]; simp) kv1 ?_, fun A f => ?_⟩
    rotate_left
    · rw [pt2]
      have w0 : paintC m1.color f c = paintC m.color f c := paintC_recol (fun j hj => by rw [hcol]; grind)
      have w1 : paint m1.color f X = paint m.color f X := paint_recol (fun j hj => by rw [hcol]; grind)
      have w2 : paint m1.color f L1 = paint m.color f L1 := paint_recol (fun j hj => by rw [hcol]; grind)
      have w3 : paint m1.color f L2 = paint m.color f L2 := paint_recol (fun j hj => by rw [hcol]; grind)
      have w4 : paint m1.color f Br = paint m.color f Br := paint_recol (fun j hj => by rw [hcol]; grind)
      have w5 : m1.color l = Black := by rw [hcol]; grind
      beta_reduce
      rw [q7, CT.goOn, CT.tailR_false]
      simp only [paintC, paint, w0, w1, w2, w3, w4, w5, q8, hb, hl, CT.climb, Bool.false_eq_true, if_false]
      rw [CT.fixDel]
    exact ((Frame.recol m b Black _).trans (Frame.recol _ p Red _)).trans fr1

/-- The second argument matters only for a nil node. -/
theorem deleteRebalanced_parent {m : Heap K V} {c : Ctx} {l r : T} {x : Nat} (h : Holds m (c.plug (.node l x r))) (q q' : Option Nat) :
    deleteRebalanced m (some x) q = deleteRebalanced m (some x) q' := by
  rw [deleteRebalanced, deleteRebalanced]
  simp

/-- The spec of the loop: the subtree `X` of the hole is one black node short. -/
theorem deleteRebalanced_spec (d : Nat) : ∀ {m : Heap K V} {c : Ctx} {X : T} {n : Nat}, c.depth ≤ d → Holds m (c.plug X) →
    Bal m.color X n → rootBlack m.color X → BalC m.color c (n + 1) →
    Done (deleteRebalanced m X.root c.par) m (c.plug X) (fun _ f => CT.fixDel (paintC m.color f c) (paint m.color f X)) := by
  induction d with
  | zero =>
    intro m c X n hd h hX hXb hc
    cases c with
    | top =>
      have e : X.root = m.parent 0 := h.root.symm
      rw [e]
      obtain ⟨m', e', f, hc'⟩ := deleteRebalanced_root h ⟨hXb, n, hX⟩ none
      refine ⟨m', _, e', f, fun A g => ?_⟩
      rw [hc']
      cases X with
      | nil => rfl
      | node l i r =>
        have hi : m.color i = Black := hXb
        simp only [Ctx.plug, paint, paintC, CT.fixDel, CT.blacken, hi]
    | left p B c => simp [Ctx.depth] at hd
    | right B p c => simp [Ctx.depth] at hd
  | succ d ih =>
    intro m c X n hd h hX hXb hc
    cases c with
    | top =>
      have e : X.root = m.parent 0 := h.root.symm
      rw [e]
      obtain ⟨m', e', f, hc'⟩ := deleteRebalanced_root h ⟨hXb, n, hX⟩ none
      refine ⟨m', _, e', f, fun A g => ?_⟩
      rw [hc']
      cases X with
      | nil => rfl
      | node l i r =>
        have hi : m.color i = Black := hXb
        simp only [Ctx.plug, paint, paintC, CT.fixDel, CT.blacken, hi]
    | left p B c =>
      refine delStepL h hX hXb hc (fun {m} {B} hp hh hb hc => ?_)
      have := ih (c := c) (X := .node X p B) (by simp only [Ctx.depth] at hd; omega) hh hb hp hc
      obtain ⟨m', t', e, f⟩ := this
      refine ⟨m', t', ?_, f⟩
      rw [← e]
      exact deleteRebalanced_parent hh _ _
    | right B p c =>
      refine delStepR h hX hXb hc (fun {m} {B} hp hh hb hc => ?_)
      have := ih (c := c) (X := .node B p X) (by simp only [Ctx.depth] at hd; omega) hh hb hp hc
      obtain ⟨m', t', e, f⟩ := this
      refine ⟨m', t', ?_, f⟩
      rw [← e]
      exact deleteRebalanced_parent hh _ _

end Gds.RBTree
