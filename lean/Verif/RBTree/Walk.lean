import Verif.RBTree.Del

/-! Walking through the tree: neighbours, iteration, searching. -/

namespace Gds.RBTree

variable {K V : Type}

/-- Every address of a tree is the root of one of its subtrees. -/
theorem exists_ctx (t : T) (i : Nat) (hi : i ∈ t.ids) : ∀ c0 : Ctx, ∃ (c : Ctx) (l r : T), c0.plug t = c.plug (.node l i r) := by
  induction t with
  | nil => simp [T.ids] at hi
  | node l j r ihl ihr =>
    intro c0
    simp only [T.ids, List.mem_append, List.mem_cons] at hi
    rcases hi with hi | hi | hi
    · exact ihl hi (.left j r c0)
    · subst hi; exact ⟨c0, l, r, rfl⟩
    · exact ihr hi (.right l j c0)

/-- The subtree at the first address. -/
theorem min_ctx (t : T) (ht : t ≠ .nil) : ∀ c0 : Ctx, ∃ (c : Ctx) (s : Nat) (r : T), c0.plug t = c.plug (.node .nil s r) ∧ t.ids.head? = some s ∧ c.before = c0.before ∧
    (c = c0 ∧ t = .node .nil s r ∨ ∃ y t' c', c = .left y t' c') ∧
    ∀ (col : Nat → Bool) (A : Type) (f : Nat → A), (paint col f t).first = some (f s) ∧
      CT.leftmost (paintC col f c0) (paint col f t) = (paintC col f c, paint col f (.node .nil s r)) := by
  induction t with
  | nil => exact absurd rfl ht
  | node l j r ihl ihr =>
    intro c0
    cases l with
    | nil => exact ⟨c0, j, r, rfl, by simp [T.ids], rfl, .inl ⟨rfl, rfl⟩, fun _ _ _ => ⟨rfl, rfl⟩⟩
    | node l1 k l2 =>
      obtain ⟨c, s, r', e, h, hb, hs, hp⟩ := ihl (by simp) (.left j r c0)
      refine ⟨c, s, r', e, ?_, hb, .inr ?_, fun col A f => ?_⟩
      · rw [T.ids, List.head?_append, h]; rfl
      · rcases hs with ⟨rfl, -⟩ | hs
        · exact ⟨_, _, _, rfl⟩
        · exact hs
      · exact hp col A f

theorem minChild_spec {m : Heap K V} {p : Option Nat} {t : T} (h : Rep m p t) (ht : t ≠ .nil) : minChild m t.root = .ok t.ids.head? := by
  induction t generalizing p with
  | nil => exact absurd rfl ht
  | node l j r ihl ihr =>
    obtain ⟨h1, h2, h3, h4, h5⟩ := h
    rw [minChild]
    cases l with
    | nil => simp [h2, T.ids]
    | node l1 k l2 =>
      have := ihl h4 (by simp)
      simp only [T.root_node] at h2 this ⊢
      simp only [leftOf_some, h2, Res.bind_ok, ne_eq, reduceCtorEq, not_false_eq_true, if_true, this]
      simp [T.ids]

theorem maxChild_spec {m : Heap K V} {p : Option Nat} {t : T} (h : Rep m p t) (ht : t ≠ .nil) : maxChild m t.root = .ok t.ids.getLast? := by
  induction t generalizing p with
  | nil => exact absurd rfl ht
  | node l j r ihl ihr =>
    obtain ⟨h1, h2, h3, h4, h5⟩ := h
    rw [maxChild]
    cases r with
    | nil => simp [h3, T.ids]
    | node r1 k r2 =>
      have := ihr h5 (by simp)
      simp only [T.root_node] at h3 this ⊢
      simp only [rightOf_some, h3, Res.bind_ok, ne_eq, reduceCtorEq, not_false_eq_true, if_true, this]
      have e : ∀ (a b : List Nat) (x : Nat), (a ++ x :: b).getLast? = (x :: b).getLast? := by
        intro a b x; rw [List.getLast?_append]; cases hh : (x :: b).getLast? <;> simp_all
      simp only [T.ids]; rw [e, e]; rw [← List.cons_append, e]

theorem climbNext_spec {m : Heap K V} {c : Ctx} {x : Nat} (h : RepC m (some x) c) (hn : c.ids.Nodup) (hx : x ∉ c.ids) :
    climbNext m (some x) c.par = .ok c.after.head? := by
  induction c generalizing x with
  | top => rw [climbNext]; simp [Ctx.par, Ctx.after]
  | left i r c ih =>
    obtain ⟨h1, h2, h3, h4, h5⟩ := h
    have : ¬ some x = r.root := fun e => hx (by simp [Ctx.ids, Ctx.after, T.root_mem e.symm])
    rw [climbNext]
    simp [Ctx.par, Ctx.after, h2, this]
  | right l i c ih =>
    obtain ⟨h1, h2, h3, h4, h5⟩ := h
    rw [climbNext]
    have hn' : c.ids.Nodup ∧ i ∉ c.ids := by
      simp only [Ctx.ids, Ctx.before, Ctx.after, List.nodup_append, List.mem_append, List.mem_singleton] at hn ⊢
      grind
    have := ih h5 hn'.1 hn'.2
    rw [← h3] at this
    simp [Ctx.par, Ctx.after, h1, this]

theorem climbPrev_spec {m : Heap K V} {c : Ctx} {x : Nat} (h : RepC m (some x) c) (hn : c.ids.Nodup) (hx : x ∉ c.ids) :
    climbPrev m (some x) c.par = .ok c.before.getLast? := by
  induction c generalizing x with
  | top => rw [climbPrev]; simp [Ctx.par, Ctx.before]
  | right l i c ih =>
    obtain ⟨h1, h2, h3, h4, h5⟩ := h
    have : ¬ l.root = some x := fun e => hx (by simp [Ctx.ids, Ctx.before, T.root_mem e])
    rw [climbPrev]
    simp [Ctx.par, Ctx.before, h2, this]
  | left i r c ih =>
    obtain ⟨h1, h2, h3, h4, h5⟩ := h
    rw [climbPrev]
    have hn' : c.ids.Nodup ∧ i ∉ c.ids := by
      simp only [Ctx.ids, Ctx.before, Ctx.after, List.nodup_append, List.mem_append, List.mem_cons, List.cons_append, List.nodup_cons] at hn ⊢
      grind
    have := ih h5 hn'.1 hn'.2
    rw [← h3] at this
    simp [Ctx.par, Ctx.before, h1, this]

theorem next_ctx {m : Heap K V} {c : Ctx} {l r : T} {i : Nat} (h : Holds m (c.plug (.node l i r))) :
    next m (some i) = .ok (r.ids ++ c.after).head? := by
  obtain ⟨hc, h1, h2, h3, h4, h5⟩ := h.split
  obtain ⟨nc, nt, nd⟩ := Ctx.nodup_plug h.nodup
  rw [next]
  cases r with
  | nil =>
    have := climbNext_spec hc nc (fun hi => nd i hi (by simp [T.ids]))
    simp only [T.root_nil] at h3
    simp [h3, h1, T.ids, this]
  | node r1 k r2 =>
    have := minChild_spec h5 (by simp)
    simp only [T.root_node] at h3 this
    have he : (T.node r1 k r2).ids ≠ [] := by simp [T.ids]
    simp only [rightOf_some, h3, Res.bind_ok, ne_eq, reduceCtorEq, not_false_eq_true, if_true, this]
    rw [List.head?_append, List.head?_eq_some_head he]; rfl

theorem prev_ctx {m : Heap K V} {c : Ctx} {l r : T} {i : Nat} (h : Holds m (c.plug (.node l i r))) :
    prev m (some i) = .ok (c.before ++ l.ids).getLast? := by
  obtain ⟨hc, h1, h2, h3, h4, h5⟩ := h.split
  obtain ⟨nc, nt, nd⟩ := Ctx.nodup_plug h.nodup
  rw [prev]
  cases l with
  | nil =>
    have := climbPrev_spec hc nc (fun hi => nd i hi (by simp [T.ids]))
    simp only [T.root_nil] at h2
    simp [h2, h1, T.ids, this]
  | node r1 k r2 =>
    have := maxChild_spec h4 (by simp)
    simp only [T.root_node] at h2 this
    have he : (T.node r1 k r2).ids ≠ [] := by simp [T.ids]
    simp only [leftOf_some, h2, Res.bind_ok, ne_eq, reduceCtorEq, not_false_eq_true, if_true, this]
    rw [List.getLast?_append, List.getLast?_eq_some_getLast he]; rfl

/-- An address splits the addresses of a tree in one way. -/
theorem split_unique {L as bs as' bs' : List Nat} {i : Nat} (hn : L.Nodup) (h : L = as ++ i :: bs) (h' : L = as' ++ i :: bs') : as = as' ∧ bs = bs' := by
  subst h
  induction as generalizing as' with
  | nil =>
    cases as' with
    | nil => simpa using h'
    | cons a as' =>
      simp only [List.nil_append, List.cons_append, List.cons.injEq] at h'
      simp only [List.nil_append, List.nodup_cons] at hn
      exfalso; apply hn.1; rw [h'.2]; simp
  | cons a as ih =>
    cases as' with
    | nil =>
      simp only [List.nil_append, List.cons_append, List.cons.injEq] at h'
      simp only [List.cons_append, List.nodup_cons] at hn
      exfalso; apply hn.1; rw [h'.1]; simp
    | cons a' as' =>
      simp only [List.cons_append, List.cons.injEq] at h'
      obtain ⟨rfl, h'⟩ := h'
      simp only [List.cons_append, List.nodup_cons] at hn
      obtain ⟨rfl, rfl⟩ := ih hn.2 h'
      exact ⟨rfl, rfl⟩

theorem next_spec {m : Heap K V} {t : T} {as bs : List Nat} {i : Nat} (h : Holds m t) (e : t.ids = as ++ i :: bs) : next m (some i) = .ok bs.head? := by
  obtain ⟨c, l, r, ht⟩ := exists_ctx t i (by rw [e]; simp) .top
  simp only [Ctx.plug] at ht; subst ht
  rw [next_ctx h]
  have e' : (c.plug (.node l i r)).ids = (c.before ++ l.ids) ++ i :: (r.ids ++ c.after) := by rw [ids_plug]; simp [T.ids]
  obtain ⟨rfl, rfl⟩ := split_unique h.nodup e e'
  rfl

theorem prev_spec {m : Heap K V} {t : T} {as bs : List Nat} {i : Nat} (h : Holds m t) (e : t.ids = as ++ i :: bs) : prev m (some i) = .ok as.getLast? := by
  obtain ⟨c, l, r, ht⟩ := exists_ctx t i (by rw [e]; simp) .top
  simp only [Ctx.plug] at ht; subst ht
  rw [prev_ctx h]
  have e' : (c.plug (.node l i r)).ids = (c.before ++ l.ids) ++ i :: (r.ids ++ c.after) := by rw [ids_plug]; simp [T.ids]
  obtain ⟨rfl, rfl⟩ := split_unique h.nodup e e'
  rfl

theorem drain_spec {m : Heap K V} {t : T} (h : Holds m t) : ∀ (bs as : List Nat), t.ids = as ++ bs → drain m bs.head? = .ok (bs.map m.kv) := by
  intro bs
  induction bs with
  | nil => intro as _; rw [drain]; simp [iterCall]
  | cons i bs ih =>
    intro as e
    have := ih (as ++ [i]) (by simp [e])
    rw [drain]
    simp [iterCall, next_spec h e, this]

/-! ### Searching -/

/-- Whatever the comparator: a search ends at an address of the tree or below a node with a free place. -/
theorem descend_any (cmp : Compare K) {m : Heap K V} (key : K) : ∀ (t : T) (c : Ctx), Holds m (c.plug t) →
    (∃ i ∈ t.ids, descend cmp m key t.root c.par = .ok (.found i)) ∨
    (t = .nil ∧ descend cmp m key t.root c.par = .ok (.missing c.par)) ∨
    ∃ (c' : Ctx) (l r : T) (i : Nat), c.plug t = c'.plug (.node l i r) ∧ (l = .nil ∨ r = .nil) ∧
      descend cmp m key t.root c.par = .ok (.missing (some i)) := by
  intro t
  induction t with
  | nil => intro c h; right; left; refine ⟨rfl, ?_⟩; rw [T.root_nil, descend]; rfl
  | node l i r ihl ihr =>
    intro c h
    obtain ⟨hc, h1, h2, h3, h4, h5⟩ := h.split
    rw [T.root_node, descend]
    by_cases k1 : cmp key (m.kv i).1 = -1
    · simp only [k1, if_true, h2]
      rcases ihl (.left i r c) h with ⟨j, hj, e⟩ | ⟨rfl, e⟩ | ⟨c', l', r', j, hp, hlr, e⟩
      · exact .inl ⟨j, by simp [T.ids, hj], e⟩
      · exact .inr (.inr ⟨c, .nil, r, i, rfl, .inl rfl, e⟩)
      · exact .inr (.inr ⟨c', l', r', j, hp, hlr, e⟩)
    · by_cases k2 : cmp key (m.kv i).1 = 1
      · simp only [k2, if_true, h3]
        rcases ihr (.right l i c) h with ⟨j, hj, e⟩ | ⟨rfl, e⟩ | ⟨c', l', r', j, hp, hlr, e⟩
        · exact .inl ⟨j, by simp [T.ids, hj], e⟩
        · exact .inr (.inr ⟨c, l, .nil, i, rfl, .inr rfl, e⟩)
        · exact .inr (.inr ⟨c', l', r', j, hp, hlr, e⟩)
      · exact .inl ⟨i, by simp [T.ids], by simp [k1, k2]⟩

/-- A hit compares equal. -/
theorem descend_hit {cmp : Compare K} {m : Heap K V} {key : K} {i : Nat} : ∀ (t : T) (p q : Option Nat), Rep m p t →
    descend cmp m key t.root q = .ok (.found i) → cmp key (m.kv i).1 ≠ -1 ∧ cmp key (m.kv i).1 ≠ 1 := by
  intro t
  induction t with
  | nil => intro p q h e; rw [T.root_nil, descend] at e; simp at e
  | node l j r ihl ihr =>
    intro p q h e
    obtain ⟨h1, h2, h3, h4, h5⟩ := h
    rw [T.root_node, descend] at e
    by_cases k1 : cmp key (m.kv j).1 = -1
    · simp only [k1, if_true, h2] at e; exact ihl _ _ h4 e
    · by_cases k2 : cmp key (m.kv j).1 = 1
      · simp only [k2, if_true, h3] at e; exact ihr _ _ h5 e
      · simp only [k1, k2, if_false, Res.pure_eq, Res.ok.injEq, Hit.found.injEq] at e
        subst e; exact ⟨k1, k2⟩

theorem searchFrom_hit {cmp : Compare K} {m : Heap K V} {key : K} {i : Nat} : ∀ (t : T) (p : Option Nat), Rep m p t →
    searchFrom cmp m key t.root = .ok (some i) → cmp key (m.kv i).1 ≠ -1 ∧ cmp key (m.kv i).1 ≠ 1 := by
  intro t
  induction t with
  | nil => intro p h e; rw [T.root_nil, searchFrom] at e; simp at e
  | node l j r ihl ihr =>
    intro p h e
    obtain ⟨h1, h2, h3, h4, h5⟩ := h
    rw [T.root_node, searchFrom] at e
    by_cases k1 : cmp key (m.kv j).1 = -1
    · simp only [k1, if_true, h2] at e; exact ihl _ h4 e
    · by_cases k2 : cmp key (m.kv j).1 = 1
      · simp only [k2, if_true, h3] at e; exact ihr _ h5 e
      · simp only [k1, k2, if_false, Res.pure_eq, Res.ok.injEq, Option.some.injEq] at e
        subst e; exact ⟨k1, k2⟩

theorem searchFrom_any (cmp : Compare K) {m : Heap K V} (key : K) : ∀ (t : T) (p : Option Nat), Rep m p t →
    (∃ i ∈ t.ids, searchFrom cmp m key t.root = .ok (some i)) ∨ searchFrom cmp m key t.root = .ok none := by
  intro t
  induction t with
  | nil => intro p h; right; rw [T.root_nil, searchFrom]; rfl
  | node l i r ihl ihr =>
    intro p h
    obtain ⟨h1, h2, h3, h4, h5⟩ := h
    rw [T.root_node, searchFrom]
    by_cases k1 : cmp key (m.kv i).1 = -1
    · simp only [k1, if_true, h2]
      rcases ihl _ h4 with ⟨j, hj, e⟩ | e
      · exact .inl ⟨j, by simp [T.ids, hj], e⟩
      · exact .inr e
    · by_cases k2 : cmp key (m.kv i).1 = 1
      · simp only [k2, if_true, h3]
        rcases ihr _ h5 with ⟨j, hj, e⟩ | e
        · exact .inl ⟨j, by simp [T.ids, hj], e⟩
        · exact .inr e
      · exact .inl ⟨i, by simp [T.ids], by simp [k1, k2]⟩

/-- A found key is found by both searches, at the same node. -/
theorem descend_of_search {cmp : Compare K} {m : Heap K V} {key : K} {i : Nat} : ∀ (t : T) (p q : Option Nat), Rep m p t →
    searchFrom cmp m key t.root = .ok (some i) → descend cmp m key t.root q = .ok (.found i) := by
  intro t
  induction t with
  | nil => intro p q h e; rw [T.root_nil, searchFrom] at e; cases e
  | node l j r ihl ihr =>
    intro p q h e
    obtain ⟨h1, h2, h3, h4, h5⟩ := h
    rw [T.root_node, searchFrom] at e
    rw [T.root_node, descend]
    by_cases k1 : cmp key (m.kv j).1 = -1
    · simp only [k1, if_true, h2] at e ⊢
      exact ihl _ _ h4 e
    · by_cases k2 : cmp key (m.kv j).1 = 1
      · simp only [k2, if_true, h3] at e ⊢
        exact ihr _ _ h5 e
      · simp [k1, k2] at e ⊢; exact e

/-- The keys at these addresses ascend. -/
def Asc (cmp : Compare K) (m : Heap K V) (L : List Nat) : Prop := L.Pairwise (fun i j => cmp (m.kv i).1 (m.kv j).1 < 0)

/-- In an ordered tree a search finds the node of the key, if there is one. -/
theorem searchFrom_spec {cmp : Compare K} (hc : cmp.ThreeWay) {m : Heap K V} (key : K) : ∀ (t : T) (p : Option Nat), Rep m p t → Asc cmp m t.ids →
    (∃ i ∈ t.ids, searchFrom cmp m key t.root = .ok (some i) ∧ cmp key (m.kv i).1 = 0) ∨
    (searchFrom cmp m key t.root = .ok none ∧ ∀ i ∈ t.ids, cmp key (m.kv i).1 ≠ 0) := by
  intro t
  induction t with
  | nil => intro p h _; right; refine ⟨by rw [T.root_nil, searchFrom]; rfl, by simp [T.ids]⟩
  | node l i r ihl ihr =>
    intro p h ha
    obtain ⟨h1, h2, h3, h4, h5⟩ := h
    rw [T.root_node, searchFrom]
    simp only [Asc, T.ids, List.pairwise_append, List.pairwise_cons, List.mem_cons] at ha
    obtain ⟨al, ⟨ai, ar⟩, alr⟩ := ha
    by_cases k1 : cmp key (m.kv i).1 = -1
    · simp only [k1, if_true, h2]
      rcases ihl _ h4 al with ⟨j, hj, e⟩ | ⟨e, hno⟩
      · exact .inl ⟨j, by simp [T.ids, hj], e⟩
      · refine .inr ⟨e, ?_⟩
        intro j hj
        simp only [T.ids, List.mem_append, List.mem_cons] at hj
        rcases hj with hj | rfl | hj
        · exact hno j hj
        · omega
        · have h1 : cmp key (m.kv i).1 < 0 := by omega
          have := hc.lt_trans h1 (ai j hj); omega
    · by_cases k2 : cmp key (m.kv i).1 = 1
      · simp only [k2, if_true, h3]
        rcases ihr _ h5 ar with ⟨j, hj, e⟩ | ⟨e, hno⟩
        · exact .inl ⟨j, by simp [T.ids, hj], e⟩
        · refine .inr ⟨e, ?_⟩
          intro j hj
          simp only [T.ids, List.mem_append, List.mem_cons] at hj
          rcases hj with hj | rfl | hj
          · have h1 := alr j hj i (by simp)
            have h2 : cmp (m.kv i).1 key < 0 := by have := hc.flip (m.kv i).1 key; omega
            have := hc.lt_trans h1 h2
            have := hc.flip (m.kv j).1 key; omega
          · omega
          · exact hno j hj
      · exact .inl ⟨i, by simp [T.ids], by simp [k1, k2], by have := hc.range key (m.kv i).1; omega⟩

/-- A key above all others ends below the last node. -/
theorem descend_max {cmp : Compare K} {m : Heap K V} {key : K} : ∀ (t : T) (c : Ctx), Holds m (c.plug t) → t ≠ .nil → c.after = [] →
    (∀ i ∈ t.ids, cmp key (m.kv i).1 = 1) →
    ∃ (c' : Ctx) (l : T) (i : Nat), c.plug t = c'.plug (.node l i .nil) ∧ c'.after = [] ∧ descend cmp m key t.root c.par = .ok (.missing (some i)) := by
  intro t
  induction t with
  | nil => intro c _ h; exact absurd rfl h
  | node l i r ihl ihr =>
    intro c h _ ha hk
    obtain ⟨hc, h1, h2, h3, h4, h5⟩ := h.split
    rw [T.root_node, descend]
    have k := hk i (by simp [T.ids])
    simp only [k, h3]
    rw [if_neg (by decide), if_pos trivial]
    cases r with
    | nil => exact ⟨c, l, i, rfl, ha, by rw [T.root_nil, descend]; rfl⟩
    | node r1 j r2 =>
      exact ihr (.right l i c) h (by simp) ha (fun j hj => hk j (by simp [T.ids] at hj ⊢; tauto))

end Gds.RBTree
