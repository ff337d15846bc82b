import Verif.RBTree.Walk

/-! Linking a new node, and unlinking one. -/

namespace Gds.RBTree

variable {K V : Type}

theorem Bal.nil_zero {col : Nat → Bool} {n : Nat} (h : Bal col .nil n) : n = 0 := h

/-- Linking a node into an empty tree. -/
theorem link_empty {m : Heap K V} {x : Nat} (hx : 2 ≤ x) :
    ∃ m', link m (some x) none = .ok m' ∧ Holds m' (.node .nil x .nil) ∧ RB m'.color (.node .nil x .nil) ∧ m'.kv = m.kv ∧
      m'.left 0 = some x ∧ m'.right 0 = some x ∧ ∀ i, i ≠ 0 → i ≠ x → Same m m' i := by
  obtain ⟨m1, e1, c1, k1, l1, r1, p1⟩ : ∃ m1, link m (some x) none = putRebalanced m1 (some x) ∧ m1.color x = Red ∧ m1.kv = m.kv ∧
      (∀ j, m1.left j = if j = x then none else if j = 0 then some x else m.left j) ∧
      (∀ j, m1.right j = if j = x then none else if j = 0 then some x else m.right j) ∧
      (∀ j, m1.parent j = if j = 0 then some x else if j = x then none else m.parent j) := by
    simp only [link, Heap.setParent, Heap.setLeft, Heap.setRight, Heap.setColor, Res.bind_ok, if_true]
    refine ⟨_, rfl, ?_, rfl, ?_, ?_, ?_⟩
    · simp
    · intro j; rfl
    · intro j; rfl
    · intro j; rfl
  have hh : Holds m1 (.node .nil x .nil) := by
    refine ⟨by rw [p1]; simp, ⟨?_, ?_, ?_, trivial, trivial⟩, by simp [T.ids], by simp [T.ids, hx]⟩
    · rw [p1, if_neg (by omega), if_pos rfl]
    · rw [l1, if_pos rfl]; rfl
    · rw [r1, if_pos rfl]; rfl
  obtain ⟨m', e, f, -⟩ := putRebalanced_top (n := 0) hh (.inr ⟨c1, rfl, rfl, trivial, trivial⟩)
  refine ⟨m', by rw [e1, e], f.holds, f.rb, by rw [f.kv, k1], ?_, ?_, ?_⟩
  · rw [f.frame.hl, l1, if_neg (by omega), if_pos rfl]
  · rw [f.frame.hr, r1, if_neg (by omega), if_pos rfl]
  · intro i h0 hi
    obtain ⟨a, b, c⟩ := f.frame.out i (by simp [T.ids, hi]) h0
    exact ⟨by rw [a, p1, if_neg h0, if_neg hi], by rw [b, l1, if_neg hi, if_neg h0], by rw [c, r1, if_neg hi, if_neg h0]⟩

/-- Linking a node below `p`: it becomes the right child, whatever was there. -/
theorem link_exact {m : Heap K V} {c : Ctx} {l r : T} {p x : Nat} (h : Holds m (c.plug (.node l p r))) (hrb : RB m.color (c.plug (.node l p r)))
    (hlr : l = .nil ∨ r = .nil) (hx : 2 ≤ x) (hxi : x ∉ (c.plug (.node l p r)).ids) :
    ∃ m' t', link m (some x) (some p) = .ok m' ∧ Holds m' t' ∧ t'.ids = c.before ++ l.ids ++ p :: x :: c.after ∧ RB m'.color t' ∧ m'.kv = m.kv ∧
      m'.left 0 = m.left 0 ∧ m'.right 0 = (if m.right 0 = some p then some x else m.right 0) ∧
      (∀ i, i ≠ 0 → i ∉ (c.plug (.node l p r)).ids → i ≠ x → Same m m' i) ∧
      (m.color p = Black → t' = c.plug (.node l p (.node .nil x .nil))) ∧
      ∀ (A : Type) (f : Nat → A), paint m'.color f t' =
        CT.fixPut (.right (m.color p) (paint m.color f l) (f p) :: paintC m.color f c) (.node false .nil (f x) .nil) := by
  have hps : 2 ≤ p := h.pos p (by rw [Ctx.mem_plug]; simp [T.ids])
  have hxp : x ≠ p := by rintro rfl; exact hxi (by rw [Ctx.mem_plug]; simp [T.ids])
  obtain ⟨m1, e1, c1, k1, l1, r1, p1⟩ : ∃ m1, link m (some x) (some p) = putRebalanced m1 (some x) ∧ m1.color = upd m.color x Red ∧ m1.kv = m.kv ∧
      (∀ j, m1.left j = if j = x then none else m.left j) ∧
      (∀ j, m1.right j = if j = x then none else if j = p then some x else if j = 0 ∧ m.right 0 = some p then some x else m.right j) ∧
      (∀ j, m1.parent j = if j = x then some p else m.parent j) := by
    by_cases hr0 : m.right 0 = some p
    · simp [link, Heap.setParent, Heap.setLeft, Heap.setRight, Heap.setColor, hr0]
      refine ⟨_, rfl, ?_, rfl, ?_, ?_, ?_⟩
      · funext j; by_cases hj : j = x <;> simp [upd, hj]
      · intro j; rfl
      · intro j; rfl
      · intro j; rfl
    · simp [link, Heap.setParent, Heap.setLeft, Heap.setRight, Heap.setColor, hr0]
      refine ⟨_, rfl, ?_, rfl, ?_, ?_, ?_⟩
      · funext j; by_cases hj : j = x <;> simp [upd, hj]
      · intro j; rfl
      · intro j; rfl
      · intro j; rfl
  have hsp := Holds.split (c := .right l p c) (t := r) h
  obtain ⟨hc, hr⟩ := hsp
  obtain ⟨nc, nt, nd⟩ := Ctx.nodup_plug (c := .right l p c) (t := r) h.nodup
  obtain ⟨n, hbc, hbr, -⟩ := (rb_plug m.color (.right l p c) r).1 hrb
  have hn0 : n = 0 := by
    rcases hlr with rfl | rfl
    · rcases hbc with ⟨_, k, _⟩ | ⟨_, k, _⟩ <;> exact k
    · exact hbr
  subst hn0
  have hcpos : ∀ i ∈ (Ctx.right l p c).ids, 2 ≤ i ∧ i ≠ x := by
    intro i hi
    have hm : i ∈ ((Ctx.right l p c).plug r).ids := Ctx.mem_plug.2 (.inl hi)
    exact ⟨h.pos i hm, by rintro rfl; exact hxi hm⟩
  have hxc : x ∉ (Ctx.right l p c).ids := fun hi => (hcpos x hi).2 rfl
  have hids : ((Ctx.right l p c).plug (.node .nil x .nil)).ids = c.before ++ l.ids ++ p :: x :: c.after := by
    rw [ids_plug]; simp [Ctx.before, Ctx.after, T.ids]
  have hh : Holds m1 ((Ctx.right l p c).plug (.node .nil x .nil)) := by
    refine .of ?_ ?_ ?_ ?_
    · refine hc.refill' (q' := some x) nc ?_ ?_ ?_ ?_
      · intro i hi; rw [l1, if_neg (hcpos i hi).2]; simp [Ctx.lpar]
      · intro i hi
        rw [r1, if_neg (hcpos i hi).2]
        by_cases hip : i = p
        · subst hip; simp [Ctx.rpar]
        · have := (hcpos i hi).1
          rw [if_neg hip, if_neg (by omega)]
          simp only [Ctx.rpar, Option.some.injEq]; rw [if_neg (fun e => hip e.symm)]
      · intro i hi; rw [p1, if_neg (hcpos i hi).2]
      · rw [p1, if_neg (by omega)]; simp [Ctx.par]
    · refine ⟨?_, ?_, ?_, trivial, trivial⟩
      · rw [p1, if_pos rfl]; rfl
      · rw [l1, if_pos rfl]; rfl
      · rw [r1, if_pos rfl]; rfl
    · rw [hids]
      simp only [Ctx.ids, Ctx.before, Ctx.after] at nc hxc
      simp only [List.nodup_append, List.nodup_cons, List.mem_append, List.mem_cons, List.mem_singleton] at nc hxc ⊢
      grind
    · intro i hi
      rw [Ctx.mem_plug] at hi
      rcases hi with hi | hi
      · exact (hcpos i hi).1
      · simp [T.ids] at hi; omega
  have hcx : m1.color x = Red := by rw [c1]; simp
  have hbc' : BalC m1.color (.right l p c) 0 := by rw [c1]; exact (balC_upd hxc).2 hbc
  have hbx : Bal m1.color (.node .nil x .nil) 0 := .inr ⟨by rw [c1]; simp, rfl, rfl, trivial, trivial⟩
  obtain ⟨m', t', e, f, hshape, hpt⟩ : ∃ m' t', putRebalanced m1 (some x) = .ok m' ∧ Fixed m1 m' ((Ctx.right l p c).plug (.node .nil x .nil)) t' ∧
      (m.color p = Black → t' = c.plug (.node l p (.node .nil x .nil))) ∧
      ∀ (A : Type) (f : Nat → A), paint m'.color f t' = CT.fixPut (paintC m1.color f (.right l p c)) (paint m1.color f (.node .nil x .nil)) := by
    by_cases hpb : m.color p = Black
    · have hpb1 : m1.color p = Black := by rw [c1, upd_ne _ _ (Ne.symm hxp), hpb]
      obtain ⟨m', e, f, hcl⟩ := putRebalanced_black hh (by show m1.color p = Black; rw [c1, upd_ne _ _ (Ne.symm hxp), hpb]) hbc' hbx
      exact ⟨m', _, e, f, fun _ => rfl, fun A g => by rw [paint_plug, hcl]; simp only [paintC, hpb1, CT.fixPut, CT.climb]⟩
    · obtain ⟨m', t', e, f, pt⟩ := putRebalanced_spec _ (Nat.le_refl _) hh hcx hbc' hbx
      exact ⟨m', t', e, f, fun hh => absurd hh hpb, pt⟩
  refine ⟨m', t', by rw [e1, e], f.holds, by rw [f.ids, hids], f.rb, by rw [f.kv, k1], ?_, ?_, ?_, hshape, fun A g => ?_⟩
  · rw [f.frame.hl, l1, if_neg (by omega)]
  · rw [f.frame.hr, r1, if_neg (by omega), if_neg (by omega)]; simp
  · intro i h0 hi hix
    have hi' : i ∉ ((Ctx.right l p c).plug (.node .nil x .nil)).ids := by
      rw [Ctx.mem_plug]; rintro (hh | hh)
      · exact hi (Ctx.mem_plug (c := .right l p c) (t := r).2 (.inl hh))
      · simp [T.ids] at hh; exact hix hh
    have hip : i ≠ p := by rintro rfl; exact hi (by rw [Ctx.mem_plug]; simp [T.ids])
    obtain ⟨a, b, d⟩ := f.frame.out i hi' h0
    exact ⟨by rw [a, p1, if_neg hix], by rw [b, l1, if_neg hix], by rw [d, r1, if_neg hix, if_neg hip, if_neg (by omega)]⟩
  · have w : paintC m1.color g (.right l p c) = paintC m.color g (.right l p c) :=
      paintC_recol (fun j hj => by rw [c1]; exact upd_ne _ _ (hcpos j hj).2)
    rw [hpt, w]
    simp only [paintC, paint, hcx]

theorem link_spec {m : Heap K V} {c : Ctx} {l r : T} {p x : Nat} (h : Holds m (c.plug (.node l p r))) (hrb : RB m.color (c.plug (.node l p r)))
    (hlr : l = .nil ∨ r = .nil) (hx : 2 ≤ x) (hxi : x ∉ (c.plug (.node l p r)).ids) :
    ∃ m' t', link m (some x) (some p) = .ok m' ∧ Holds m' t' ∧ t'.ids = c.before ++ l.ids ++ p :: x :: c.after ∧ RB m'.color t' ∧ m'.kv = m.kv ∧
      m'.left 0 = m.left 0 ∧ m'.right 0 = (if m.right 0 = some p then some x else m.right 0) ∧
      (∀ i, i ≠ 0 → i ∉ (c.plug (.node l p r)).ids → i ≠ x → Same m m' i) ∧
      (m.color p = Black → t' = c.plug (.node l p (.node .nil x .nil))) := by
  obtain ⟨m', t', h1, h2, h3, h4, h5, h6, h7, h8, h9, -⟩ := link_exact h hrb hlr hx hxi
  exact ⟨m', t', h1, h2, h3, h4, h5, h6, h7, h8, h9⟩

/-! ### Unlinking -/

/-- The part of `unlink` after the choice of the node to take out. -/
def unlinkAt (m : Heap K V) (node rm : Option Nat) : Res (Option Nat × Heap K V) := do
  let rl ← m.leftOf rm
  let rr ← m.rightOf rm
  let child := if rl ≠ none then rl else rr
  let par ← m.parentOf rm
  let m ← if child ≠ none then m.setParent child par else pure m
  let m ← if par = none then m.setParent (some 0) child
    else do
      let pl ← m.leftOf par
      if rm = pl then m.setLeft par child else m.setRight par child
  let m ← if rm ≠ node then do
      let kv ← m.kvOf rm
      m.setKv node kv
    else pure m
  let c ← m.colorOf rm
  let m ← if c = Black then deleteRebalanced m child par else pure m
  pure (rm, m)

theorem unlink_eq (m : Heap K V) (node : Option Nat) : unlink m node = (do
    let l ← m.leftOf node
    let r ← m.rightOf node
    let rm ← if l = none ∨ r = none then pure node else next m node
    unlinkAt m node rm) := by
  simp only [unlink, unlinkAt]

/-- The pointers after taking out `s`, whose only child is the root of `X`. -/
theorem splice_spec {m m1 : Heap K V} {c : Ctx} {l r X : T} {s : Nat} (h : Holds m (c.plug (.node l s r)))
    (hX : (l = .nil ∧ X = r) ∨ (r = .nil ∧ X = l))
    (hl : ∀ j, m1.left j = if c.lpar = some j then X.root else m.left j)
    (hr : ∀ j, m1.right j = if c.rpar = some j then X.root else m.right j)
    (hp : ∀ j, m1.parent j = if X.root = some j then c.par else if j = 0 ∧ c.par = none then X.root else m.parent j) :
    Holds m1 (c.plug X) ∧ Frame m m1 (c.plug (.node l s r)).ids ∧ (c.plug X).ids = c.before ++ l.ids ++ r.ids ++ c.after := by
  obtain ⟨hc, h1, h2, h3, h4, h5⟩ := h.split
  obtain ⟨nc, nt, nd⟩ := Ctx.nodup_plug h.nodup
  have hpos := h.pos
  have hids : (c.plug X).ids = c.before ++ l.ids ++ r.ids ++ c.after := by
    rcases hX with ⟨rfl, rfl⟩ | ⟨rfl, rfl⟩ <;> simp [ids_plug, T.ids]
  have hXids : ∀ i ∈ X.ids, i ∈ (T.node l s r).ids := by
    intro i hi; rcases hX with ⟨rfl, rfl⟩ | ⟨rfl, rfl⟩ <;> simp [T.ids, hi]
  have hXn : X.ids.Nodup := by
    simp only [T.ids, List.nodup_append, List.nodup_cons] at nt
    rcases hX with ⟨rfl, rfl⟩ | ⟨rfl, rfl⟩
    · exact nt.2.1.2
    · exact nt.1
  have hXr : Rep m (some s) X := by rcases hX with ⟨rfl, rfl⟩ | ⟨rfl, rfl⟩ <;> assumption
  have hXm : ∀ j, X.root = some j → j ∈ (T.node l s r).ids := fun j e => hXids j (T.root_mem e)
  have hcp : ∀ j, c.par = some j → j ∈ c.ids := fun j => Ctx.par_mem
  have hlp : ∀ j, c.lpar = some j → j ∈ c.ids := fun j => Ctx.lpar_mem
  have hrp : ∀ j, c.rpar = some j → j ∈ c.ids := fun j => Ctx.rpar_mem
  have hmem : ∀ i, i ∈ (c.plug (.node l s r)).ids ↔ i ∈ c.ids ∨ i ∈ (T.node l s r).ids := fun i => Ctx.mem_plug
  have p0 : 0 ∉ c.ids ∧ 0 ∉ (T.node l s r).ids := by
    refine ⟨fun h => ?_, fun h => ?_⟩
    · have := hpos 0 ((hmem 0).2 (.inl h)); omega
    · have := hpos 0 ((hmem 0).2 (.inr h)); omega
  refine ⟨.of ?_ ?_ ?_ ?_, ⟨?_, ?_, ?_⟩, hids⟩
  · refine hc.refill' nc ?_ ?_ ?_ ?_
    · intro i hi; rw [hl]
    · intro i hi; rw [hr]
    · intro i hi; rw [hp]; grind
    · rw [hp]; grind
  · refine hXr.reparent hXn ?_
    intro i hi
    have := hXids i hi
    refine ⟨by rw [hl]; grind, by rw [hr]; grind, by rw [hp]; grind⟩
  · rw [hids]
    have := h.nodup
    rw [ids_plug, T.ids] at this
    refine this.sublist ?_
    simp only [List.append_assoc]
    refine List.Sublist.append_left (List.Sublist.append_left (List.Sublist.cons _ (List.Sublist.refl _)) _) _ 
  · intro i hi
    rw [Ctx.mem_plug] at hi
    rcases hi with hi | hi
    · exact hpos i ((hmem i).2 (.inl hi))
    · exact hpos i ((hmem i).2 (.inr (hXids i hi)))
  · rw [hl]; grind
  · rw [hr]; grind
  · intro i hi h0
    rw [hmem] at hi
    refine ⟨by rw [hp]; grind, by rw [hl]; grind, by rw [hr]; grind⟩

/-- The heap with one entry overwritten. -/
def rekv (m : Heap K V) (i : Nat) (e : K × V) : Heap K V := { m with kv := fun j => if j = i then e else m.kv j }

theorem Holds.rekv {m : Heap K V} {t : T} (h : Holds m t) (i : Nat) (e : K × V) : Holds (rekv m i e) t :=
  ⟨h.root, h.rep.congr (fun _ _ => ⟨rfl, rfl, rfl⟩), h.nodup, h.pos⟩

/-- The only subtree. -/
def T.only : T → T → T
  | .nil, r => r
  | l, _ => l

theorem unlinkAt_spec {m : Heap K V} {c : Ctx} {l r : T} {s i : Nat} (h : Holds m (c.plug (.node l s r))) (hrb : RB m.color (c.plug (.node l s r)))
    (hlr : l = .nil ∨ r = .nil) :
    ∃ m' t', unlinkAt m (some i) (some s) = .ok (some s, m') ∧ Holds m' t' ∧ RB m'.color t' ∧ t'.ids = c.before ++ l.ids ++ r.ids ++ c.after ∧
      (∀ j, m'.kv j = if j = i then m.kv s else m.kv j) ∧ Frame m m' (c.plug (.node l s r)).ids ∧ Same m m' s ∧
      (∀ q, m.left s = none → m.right s = some q → m.left q = none ∧ m'.left q = none) ∧
      ∀ (A : Type) (f : Nat → A), paint m'.color f t' = CT.takeOut (paintC m.color f c) (m.color s) (paint m.color f (l.only r)) := by
  obtain ⟨hc, h1, h2, h3, h4, h5⟩ := h.split
  obtain ⟨nc, nt, nd⟩ := Ctx.nodup_plug h.nodup
  obtain ⟨X, hX, hXroot⟩ : ∃ X : T, ((l = .nil ∧ X = r) ∨ (r = .nil ∧ X = l)) ∧ (if l.root ≠ none then l.root else r.root) = X.root := by
    cases l with
    | nil => exact ⟨r, .inl ⟨rfl, rfl⟩, by simp⟩
    | node l1 k l2 =>
      rcases hlr with hh | rfl
      · cases hh
      · exact ⟨_, .inr ⟨rfl, rfl⟩, by simp⟩
  have hXo : l.only r = X := by
    cases l with
    | nil =>
      rcases hX with ⟨_, h⟩ | ⟨rfl, rfl⟩
      · exact h.symm
      · rfl
    | node l1 k l2 =>
      rcases hX with ⟨h, _⟩ | ⟨_, h⟩
      · cases h
      · exact h.symm
  rw [hXo]
  have hXids : ∀ i ∈ X.ids, i ∈ (T.node l s r).ids := by
    intro i hi; rcases hX with ⟨rfl, rfl⟩ | ⟨rfl, rfl⟩ <;> simp [T.ids, hi]
  have hX0 : X.root ≠ some 0 := by
    intro e; have := h.pos 0 (by rw [Ctx.mem_plug]; exact .inr (hXids 0 (T.root_mem e))); omega
  -- the pointers, before rebalancing
  obtain ⟨m1, e1, l1, r1, p1, c1, k1⟩ : ∃ m1, unlinkAt m (some i) (some s) = (do
        let m ← if m.color s = Black then deleteRebalanced m1 X.root c.par else pure m1
        pure (some s, m)) ∧
      (∀ j, m1.left j = if c.lpar = some j then X.root else m.left j) ∧
      (∀ j, m1.right j = if c.rpar = some j then X.root else m.right j) ∧
      (∀ j, m1.parent j = if X.root = some j then c.par else if j = 0 ∧ c.par = none then X.root else m.parent j) ∧
      m1.color = m.color ∧ (∀ j, m1.kv j = if j = i then m.kv s else m.kv j) := by
    have hside : ∀ q, c.rpar = some q → m.left q ≠ some s := by
      intro q hq e
      cases c with
      | top => simp [Ctx.rpar] at hq
      | left => simp [Ctx.rpar] at hq
      | right l' q' c' =>
        simp only [Ctx.rpar, Option.some.injEq] at hq; subst hq
        rw [hc.2.1] at e
        exact nd s (by simp [Ctx.ids, Ctx.before, T.root_mem e]) (by simp [T.ids])
    have hside' : ∀ q, c.lpar = some q → m.left q = some s := by
      intro q hq
      cases c with
      | top => simp [Ctx.lpar] at hq
      | right => simp [Ctx.lpar] at hq
      | left q' r' c' => simp only [Ctx.lpar, Option.some.injEq] at hq; subst hq; exact hc.1
    rw [← h2, ← h3] at hXroot
    simp only [unlinkAt, leftOf_some, rightOf_some, parentOf_some, Res.bind_ok, hXroot, h1]
    clear hX hXo hXids h2 h3 h4 h5 nt nd nc hc hrb
    generalize X.root = x at *
    have hsi : (if some s ≠ some i then True else False) ↔ s ≠ i := by simp
    cases c with
    | top =>
      cases x with
      | none =>
        by_cases hs : s = i
        · subst hs
          refine ⟨{ m with parent := fun j => if j = 0 then none else m.parent j }, ?_, ?_, ?_, ?_, rfl, ?_⟩
          · simp [Ctx.par, Heap.setParent]
          all_goals simp [Ctx.par, Ctx.lpar, Ctx.rpar]
        · refine ⟨rekv { m with parent := fun j => if j = 0 then none else m.parent j } i (m.kv s), ?_, ?_, ?_, ?_, rfl, ?_⟩
          · simp [Ctx.par, Heap.setParent, Heap.setKv, hs, rekv]
          all_goals simp [Ctx.par, Ctx.lpar, Ctx.rpar, rekv]
      | some x =>
        by_cases hs : s = i
        · subst hs
          refine ⟨{ m with parent := fun j => if j = 0 then some x else if j = x then none else m.parent j }, ?_, ?_, ?_, ?_, rfl, ?_⟩
          · simp [Ctx.par, Heap.setParent]
          all_goals simp [Ctx.par, Ctx.lpar, Ctx.rpar]
          · grind
        · refine ⟨rekv { m with parent := fun j => if j = 0 then some x else if j = x then none else m.parent j } i (m.kv s), ?_, ?_, ?_, ?_, rfl, ?_⟩
          · simp [Ctx.par, Heap.setParent, Heap.setKv, hs, rekv]
          all_goals simp [Ctx.par, Ctx.lpar, Ctx.rpar, rekv]
          · grind
    | left q r' c' =>
      have hq := hside' q rfl
      cases x with
      | none =>
        by_cases hs : s = i
        · subst hs
          refine ⟨{ m with left := fun j => if j = q then none else m.left j }, ?_, ?_, ?_, ?_, rfl, ?_⟩
          · simp [Ctx.par, Heap.setLeft, hq]
          all_goals simp [Ctx.par, Ctx.lpar, Ctx.rpar]
          all_goals grind
        · refine ⟨rekv { m with left := fun j => if j = q then none else m.left j } i (m.kv s), ?_, ?_, ?_, ?_, rfl, ?_⟩
          · simp [Ctx.par, Heap.setLeft, Heap.setKv, hs, rekv, hq]
          all_goals simp [Ctx.par, Ctx.lpar, Ctx.rpar, rekv]
          all_goals grind
      | some x =>
        by_cases hs : s = i
        · subst hs
          refine ⟨{ m with left := fun j => if j = q then some x else m.left j, parent := fun j => if j = x then some q else m.parent j }, ?_, ?_, ?_, ?_, rfl, ?_⟩
          · simp [Ctx.par, Heap.setParent, Heap.setLeft, hq]
          all_goals simp [Ctx.par, Ctx.lpar, Ctx.rpar]
          all_goals grind
        · refine ⟨rekv { m with left := fun j => if j = q then some x else m.left j, parent := fun j => if j = x then some q else m.parent j } i (m.kv s), ?_, ?_, ?_, ?_, rfl, ?_⟩
          · simp [Ctx.par, Heap.setParent, Heap.setLeft, Heap.setKv, hs, rekv, hq]
          all_goals simp [Ctx.par, Ctx.lpar, Ctx.rpar, rekv]
          all_goals grind
    | right l' q c' =>
      have hq := hside q rfl
      have hq' : ¬ some s = m.left q := fun e => hq e.symm
      cases x with
      | none =>
        by_cases hs : s = i
        · subst hs
          refine ⟨{ m with right := fun j => if j = q then none else m.right j }, ?_, ?_, ?_, ?_, rfl, ?_⟩
          · simp [Ctx.par, Heap.setRight, hq']
          all_goals simp [Ctx.par, Ctx.lpar, Ctx.rpar]
          all_goals grind
        · refine ⟨rekv { m with right := fun j => if j = q then none else m.right j } i (m.kv s), ?_, ?_, ?_, ?_, rfl, ?_⟩
          · simp [Ctx.par, Heap.setRight, Heap.setKv, hs, rekv, hq']
          all_goals simp [Ctx.par, Ctx.lpar, Ctx.rpar, rekv]
          all_goals grind
      | some x =>
        by_cases hs : s = i
        · subst hs
          refine ⟨{ m with right := fun j => if j = q then some x else m.right j, parent := fun j => if j = x then some q else m.parent j }, ?_, ?_, ?_, ?_, rfl, ?_⟩
          · simp [Ctx.par, Heap.setParent, Heap.setRight, hq']
          all_goals simp [Ctx.par, Ctx.lpar, Ctx.rpar]
          all_goals grind
        · refine ⟨rekv { m with right := fun j => if j = q then some x else m.right j, parent := fun j => if j = x then some q else m.parent j } i (m.kv s), ?_, ?_, ?_, ?_, rfl, ?_⟩
          · simp [Ctx.par, Heap.setParent, Heap.setRight, Heap.setKv, hs, rekv, hq']
          all_goals simp [Ctx.par, Ctx.lpar, Ctx.rpar, rekv]
          all_goals grind
  obtain ⟨hh, hf, hids⟩ := splice_spec h hX l1 r1 p1
  have hle : ∀ L : List Nat, ∀ {m' : Heap K V}, Frame m1 m' (c.plug X).ids → Frame m m' (c.plug (.node l s r)).ids := by
    intro _ m' f
    refine hf.trans ⟨f.hl, f.hr, fun j hj h0 => f.out j ?_ h0⟩
    intro hj'; apply hj
    rw [Ctx.mem_plug] at hj' ⊢
    exact hj'.imp_right (hXids j)
  have hsX : s ∉ (c.plug X).ids := by
    rw [hids]
    have := h.nodup
    rw [ids_plug, T.ids] at this
    simp only [List.nodup_append, List.nodup_cons, List.mem_append, List.mem_cons] at this ⊢
    grind
  have hs0 : s ≠ 0 := by have := h.pos s (by rw [ids_plug]; simp [T.ids]); omega
  have hsame : ∀ {m' : Heap K V}, Frame m1 m' (c.plug X).ids → Same m m' s := by
    intro m' f
    obtain ⟨f1, f2, f3⟩ := f.out s hsX hs0
    rw [Ctx.mem_plug, not_or] at hsX
    have q1 : c.lpar ≠ some s := fun e => hsX.1 (Ctx.lpar_mem e)
    have q2 : c.rpar ≠ some s := fun e => hsX.1 (Ctx.rpar_mem e)
    have q3 : X.root ≠ some s := fun e => hsX.2 (T.root_mem e)
    exact ⟨by rw [f1, p1, if_neg q3, if_neg (by simp [hs0])], by rw [f2, l1, if_neg q1], by rw [f3, r1, if_neg q2]⟩
  have hnil : ∀ {col : Nat → Bool} {t : T}, Bal col t 0 → rootBlack col t → t = .nil := by
    intro col t hb hr
    cases t with
    | nil => rfl
    | node a x b =>
      rcases hb with ⟨_, k, hk, _⟩ | ⟨hx, _⟩
      · omega
      · have hr' : col x = Black := hr
        rw [hx] at hr'; cases hr'
  obtain ⟨n, hbc, hbt, hor⟩ := (rb_plug ..).1 hrb
  -- an only right child is a red leaf
  have hleaf : ∀ q, m.left s = none → m.right s = some q → m.color s = Black ∧ X = .node .nil q .nil ∧ m.color q = Red ∧ m.left q = none := by
    intro q hl0 hq
    rw [h2] at hl0
    have hl : l = .nil := by cases l with
      | nil => rfl
      | node => cases hl0
    have hr : r ≠ .nil := by rintro rfl; rw [h3] at hq; cases hq
    have hXr : X = r := by
      rcases hX with ⟨_, h⟩ | ⟨h, _⟩
      · exact h
      · exact absurd h hr
    subst hl
    rcases hbt with ⟨hsb, k, rfl, b1, b2⟩ | ⟨hsr, b1, b2, b3, b4⟩
    · obtain rfl : k = 0 := b1
      cases r with
      | nil => exact absurd rfl hr
      | node a x b =>
        rw [h3, T.root_node, Option.some.injEq] at hq; subst hq
        rcases b2 with ⟨_, k, hk, _⟩ | ⟨hx, d1, d2, d3, d4⟩
        · omega
        · have hqn := h5.2.1
          rw [hnil d1 d3] at hqn
          rw [hXr, hnil d1 d3, hnil d2 d4]; exact ⟨hsb, rfl, hx, hqn⟩
    · obtain rfl : n = 0 := b1
      exact absurd (hnil b2 b4) hr
  by_cases hs : m.color s = Black
  · obtain ⟨k, rfl, hXb⟩ : ∃ k, n = k + 1 ∧ Bal m.color X k := by
      rcases hbt with ⟨_, k, rfl, b1, b2⟩ | ⟨b, _⟩
      · refine ⟨k, rfl, ?_⟩
        rcases hX with ⟨rfl, rfl⟩ | ⟨rfl, rfl⟩ <;> assumption
      · rw [hs] at b; cases b
    rw [if_pos hs] at e1
    rw [← c1] at hbc hXb
    have hd : ∃ m' t', deleteRebalanced m1 X.root c.par = .ok m' ∧ Fixed m1 m' (c.plug X) t' ∧ (¬ rootBlack m1.color X → t' = c.plug X) ∧
        ∀ (A : Type) (f : Nat → A), paint m'.color f t' = CT.takeOut (paintC m1.color f c) true (paint m1.color f X) := by
      by_cases hXbl : rootBlack m1.color X
      · obtain ⟨m', t', e, f, pt⟩ := deleteRebalanced_spec _ (Nat.le_refl _) hh hXb hXbl hbc
        exact ⟨m', t', e, f, fun h => absurd hXbl h, fun A g => by rw [pt]; simp [CT.takeOut, isRed_paint_false hXbl]⟩
      · cases X with
        | nil => simp [rootBlack] at hXbl
        | node x1 x x2 =>
          have hx : m1.color x = Red := by simp only [rootBlack] at hXbl; cases hh : m1.color x <;> simp_all
          rcases hXb with ⟨b, _⟩ | ⟨_, b1, b2, _⟩
          · rw [hx] at b; cases b
          · obtain ⟨m', e, f, hcl⟩ := deleteRebalanced_red hh hx b1 b2 hbc c.par
            refine ⟨m', _, e, f, fun _ => rfl, fun A g => ?_⟩
            obtain ⟨nc', nt', nd'⟩ := Ctx.nodup_plug hh.nodup
            simp only [T.ids, List.nodup_append, List.nodup_cons, List.mem_append, List.mem_cons] at nt' nd'
            have w0 : paintC m'.color g c = paintC m1.color g c := paintC_recol (fun j hj => by rw [hcl]; exact upd_ne _ _ (by grind))
            have w1 : paint m'.color g x1 = paint m1.color g x1 := paint_recol (fun j hj => by rw [hcl]; exact upd_ne _ _ (by grind))
            have w2 : paint m'.color g x2 = paint m1.color g x2 := paint_recol (fun j hj => by rw [hcl]; exact upd_ne _ _ (by grind))
            have w3 : m'.color x = Black := by rw [hcl]; exact upd_same ..
            rw [paint_plug]
            simp only [paint, CT.takeOut, CT.isRed, CT.blacken, hx, w0, w1, w2, w3, if_true]
    obtain ⟨m2, t2, e2, f2, hsh, hpt⟩ := hd
    refine ⟨m2, t2, ?_, f2.holds, f2.rb, by rw [f2.ids, hids], fun j => by rw [f2.kv, k1], hle [] f2.frame, hsame f2.frame, ?_, fun A g => by rw [hpt, c1, hs]⟩
    · rw [e1, e2]; rfl
    · intro q hl0 hq
      obtain ⟨-, hXq, hqr, hqn⟩ := hleaf q hl0 hq
      refine ⟨hqn, ?_⟩
      have hnb : ¬ rootBlack m1.color X := by rw [hXq, c1]; show ¬ m.color q = Black; rw [hqr]; simp
      have h2' := f2.holds
      rw [hsh hnb, hXq] at h2'
      exact h2'.split.2.2.1
  · have hsr : m.color s = Red := by cases hh : m.color s <;> simp_all
    rw [if_neg hs] at e1
    refine ⟨m1, c.plug X, e1, hh, ?_, hids, k1, hf, hsame (Frame.refl ..), fun q hl0 hq => absurd (hleaf q hl0 hq).1 hs,
      fun A g => by rw [paint_plug, c1, hsr]; simp [CT.takeOut]⟩
    rw [c1]
    rcases hbt with ⟨b, _⟩ | ⟨_, b1, b2, b3, b4⟩
    · rw [hsr] at b; cases b
    · refine (rb_plug ..).2 ⟨n, hbc, ?_, .inl ?_⟩ <;> rcases hX with ⟨rfl, rfl⟩ | ⟨rfl, rfl⟩ <;> assumption

/-- `unlink` takes one entry out of the sequence.  With two children the node stays, takes over its successor's entry, and the
successor's node is the one that leaves. -/
theorem unlink_ctx {m : Heap K V} {as bs : List Nat} {i : Nat} {c : Ctx} {l r : T} (h : Holds m (c.plug (.node l i r)))
    (hrb : RB m.color (c.plug (.node l i r))) (e : (c.plug (.node l i r)).ids = as ++ i :: bs) :
    ∃ m' t' rm, unlink m (some i) = .ok (some rm, m') ∧ Holds m' t' ∧ RB m'.color t' ∧ rm ∈ (c.plug (.node l i r)).ids ∧ Frame m m' (c.plug (.node l i r)).ids ∧
      (∀ j, m'.kv j = if j = i then m.kv rm else m.kv j) ∧
      ((rm = i ∧ t'.ids = as ++ bs) ∨ (as ≠ [] ∧ ∃ bs', bs = rm :: bs' ∧ t'.ids = as ++ i :: bs')) ∧
      (rm = i ↔ m.left i = none ∨ m.right i = none) ∧ Same m m' rm ∧ (∀ q, m.left rm = none → m.right rm = some q → m.left q = none ∧ m'.left q = none) ∧
      (rm ≠ i → m.left rm = none ∧ ∃ y, m.parent rm = some y ∧ (y = i ∧ m.right i = some rm ∨ m.left y = some rm)) ∧
      CT.removeAt (paintC m.color m.kv c) (paint m.color m.kv (.node l i r)) = (some (m.kv rm), paint m'.color m'.kv t') := by
  obtain ⟨hc, h1, h2, h3, h4, h5⟩ := h.split
  have e' : (c.plug (.node l i r)).ids = (c.before ++ l.ids) ++ i :: (r.ids ++ c.after) := by rw [ids_plug]; simp [T.ids]
  obtain ⟨rfl, rfl⟩ := split_unique h.nodup e e'
  rw [unlink_eq]
  by_cases hlr : l = .nil ∨ r = .nil
  · obtain ⟨m', t', u, a1, a2, a3, a4, a5, a6, a7, a8⟩ := unlinkAt_spec (i := i) h hrb hlr
    refine ⟨m', t', i, ?_, a1, a2, by rw [e]; simp, a5, a4, .inl ⟨rfl, by rw [a3]; simp⟩, ?_, a6, a7, fun hh => absurd rfl hh, ?_⟩
    · have : l.root = none ∨ r.root = none := by rcases hlr with rfl | rfl <;> simp
      simp [h2, h3, this, u]
    · rw [h2, h3]; rcases hlr with rfl | rfl <;> simp
    · have hk : m'.kv = m.kv := by
        funext j; rw [a4]; split
        · rename_i hj; rw [hj]
        · rfl
      rw [a8, hk]
      rcases hlr with rfl | rfl
      · simp only [paint, CT.removeAt, T.only]
      · cases l with
        | nil => simp only [paint, CT.removeAt, T.only]
        | node => simp only [paint, CT.removeAt, T.only]
  · obtain ⟨hl, hr⟩ := not_or.1 hlr
    obtain ⟨c', s, r', ep, hs, hb, hside, hlm⟩ := min_ctx r hr (.right l i c)
    simp only [Ctx.plug] at ep
    have hlroot : ¬ (l.root = none ∨ r.root = none) := by
      cases l <;> cases r <;> simp_all
    have hnx : next m (some i) = .ok (some s) := by rw [next_ctx h, List.head?_append, hs]; rfl
    rw [ep] at h hrb
    obtain ⟨m', t', u, a1, a2, a3, a4, a5, a6, a7, a8⟩ := unlinkAt_spec (i := i) h hrb (.inl rfl)
    obtain ⟨q, hq⟩ : ∃ q, r.ids = s :: q := by
      cases hh : r.ids with
      | nil => rw [hh] at hs; simp at hs
      | cons a q => rw [hh] at hs; simp at hs; subst hs; exact ⟨q, rfl⟩
    have hsi : s ≠ i := by
      rintro rfl
      have hn := h.nodup
      rw [← ep, e, hq] at hn
      simp only [List.nodup_append, List.nodup_cons, List.mem_append, List.mem_cons] at hn
      exact hn.2.1.1 (by simp)
    have e2 := e
    rw [ep, ids_plug, hb, hq] at e2
    simp only [Ctx.before, T.ids, List.nil_append, List.append_assoc, List.cons_append, List.append_cancel_left_eq, List.cons.injEq, true_and] at e2
    refine ⟨m', t', s, ?_, a1, a2, by rw [e, hq]; simp, by rw [ep]; exact a5, a4, .inr ⟨?_, q ++ c.after, by rw [hq]; rfl, ?_⟩, by rw [h2, h3]; simp only [hsi, hlroot], a6, a7, fun _ => ?_, ?_⟩
    · simp [h2, h3, hlroot, hnx, u]
    · cases l with
      | nil => exact absurd rfl hl
      | node => simp [T.ids]
    · rw [a3, hb]; simp [Ctx.before, T.ids, e2]
    · obtain ⟨hc', g1, g2, -⟩ := h.split
      refine ⟨g2, ?_⟩
      rw [g1]
      rcases hside with ⟨rfl, -⟩ | ⟨y, t2, c2, rfl⟩
      · exact ⟨i, rfl, .inl ⟨rfl, hc'.1⟩⟩
      · exact ⟨y, rfl, .inr hc'.1⟩
    · rw [← ep] at h
      obtain ⟨nc, nt, nd⟩ := Ctx.nodup_plug h.nodup
      simp only [T.ids, List.nodup_append, List.nodup_cons, List.mem_append, List.mem_cons] at nt nd
      have hk : ∀ j, j ≠ i → m'.kv j = m.kv j := fun j hj => by rw [a4, if_neg hj]
      have w0 : paintC m.color m'.kv c = paintC m.color m.kv c := paintC_congr (fun _ _ => rfl) (fun j hj => hk j (by grind))
      have w1 : paint m.color m'.kv l = paint m.color m.kv l := paint_congr (fun _ _ => rfl) (fun j hj => hk j (by grind))
      have w2 : paint m.color m'.kv r = paint m.color m.kv r := paint_congr (fun _ _ => rfl) (fun j hj => hk j (by grind))
      have w3 : m'.kv i = m.kv s := by rw [a4, if_pos rfl]
      have k1 := (hlm m.color _ m'.kv).2
      simp only [paintC, w0, w1, w2, w3] at k1
      have k2 := (hlm m.color _ m.kv).1
      rw [a8]
      cases l with
      | nil => exact absurd rfl hl
      | node l1 j l2 =>
        cases r with
        | nil => exact absurd rfl hr
        | node r1 q r2 =>
          simp only [paint] at k1 k2 ⊢
          simp only [CT.removeAt, k1, k2, T.only]

theorem unlink_spec {m : Heap K V} {t : T} {as bs : List Nat} {i : Nat} (h : Holds m t) (hrb : RB m.color t) (e : t.ids = as ++ i :: bs) :
    ∃ m' t' rm, unlink m (some i) = .ok (some rm, m') ∧ Holds m' t' ∧ RB m'.color t' ∧ rm ∈ t.ids ∧ Frame m m' t.ids ∧
      (∀ j, m'.kv j = if j = i then m.kv rm else m.kv j) ∧
      ((rm = i ∧ t'.ids = as ++ bs) ∨ (as ≠ [] ∧ ∃ bs', bs = rm :: bs' ∧ t'.ids = as ++ i :: bs')) ∧
      (rm = i ↔ m.left i = none ∨ m.right i = none) ∧ Same m m' rm ∧ (∀ q, m.left rm = none → m.right rm = some q → m.left q = none ∧ m'.left q = none) ∧
      (rm ≠ i → m.left rm = none ∧ ∃ y, m.parent rm = some y ∧ (y = i ∧ m.right i = some rm ∨ m.left y = some rm)) := by
  obtain ⟨c, l, r, ht⟩ := exists_ctx t i (by rw [e]; simp) .top
  simp only [Ctx.plug] at ht; subst ht
  obtain ⟨m', t', rm, h1, h2, h3, h4, h5, h6, h7, h8, h9, h10, h11, -⟩ := unlink_ctx h hrb e
  exact ⟨m', t', rm, h1, h2, h3, h4, h5, h6, h7, h8, h9, h10, h11⟩

end Gds.RBTree
