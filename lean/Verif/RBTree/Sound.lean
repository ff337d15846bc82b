import Verif.RBTree.Ends

/-! C88: what lookups return was put, in every history. -/

namespace Gds.RBTree

variable {K V : Type}

theorem zero_trans {cmp : Compare K} (hc : cmp.ThreeWay) {a b c : K} (h1 : cmp a b = 0) (h2 : cmp b c = 0) : cmp a c = 0 := by
  have h3 := hc.trans a b c (by omega) (by omega)
  have h4 := hc.trans c b a (by have := hc.zero_symm h2; omega) (by have := hc.zero_symm h1; omega)
  have := hc.flip a c
  omega

/-- The structure, and every entry in a node handed out so far satisfies `P`. -/
def InvP (P : K × V → Prop) (z : K × V) (s : Tree K V × List Nat) : Prop :=
  ∃ tr U, OK z s.1 tr U ∧ s.2.Nodup ∧ (∀ o ∈ s.2, o ∈ U ∧ o ∉ tr.ids) ∧ ∀ u ∈ U, P (s.1.heap.kv u)

theorem step_invP {P : K × V → Prop} {cmp : Compare K} (hc : cmp.ThreeWay) (hP : ∀ a k, P a → cmp a.1 k = 0 → P (k, a.2))
    {z : K × V} {s s' : Tree K V × List Nat} (h : InvP P z s) (op : Op K V) (hop : ∀ k v, op = .put k v → P (k, v)) (e : step cmp s op = .ok s') : InvP P z s' := by
  obtain ⟨tr, U, ok, hn, ho, hp⟩ := h
  have h0 : ∀ {a b : K}, cmp a b ≠ -1 ∧ cmp a b ≠ 1 → cmp a b = 0 := by
    intro a b h; have := hc.range a b; omega
  cases op with
  | put k v =>
    obtain ⟨b, t', tr', U', e', ok', h1, h2, u, x, hk1, hk2, hk3, hk4⟩ := put_any ok cmp k v
    simp only [step, e', Res.bind_ok, Res.pure_eq, Res.ok.injEq] at e
    subst e
    have hx : P x := by
      have hkv := hop k v rfl
      obtain ⟨x1, x2⟩ := x
      cases hk2
      rcases hk3 with rfl | hk3
      · exact hkv
      · exact hP _ _ hkv (h0 hk3)
    refine ⟨tr', U', ok', hn, fun o hh => ⟨h1 o (ho o hh).1, h2 o (ho o hh).1 (ho o hh).2⟩, ?_⟩
    intro w hw
    show P (t'.heap.kv w)
    rw [hk1]
    by_cases hwu : w = u
    · rw [if_pos hwu]; exact hx
    · rw [if_neg hwu]; exact hp w ((hk4 w hw).resolve_left hwu)
  | delete k =>
    rcases delete_any ok cmp k with e' | e' | ⟨rm, t', tr', e', ok', h1, h2, h3, h4⟩
    · simp [step, e'] at e
    · simp only [step, e', Res.bind_ok, Res.pure_eq, Res.ok.injEq] at e
      subst e
      exact ⟨tr, U, ok, hn, ho, hp⟩
    · simp only [step, e', Res.bind_ok, Res.pure_eq, Res.ok.injEq] at e
      subst e
      refine ⟨tr', U, ok', ?_, ?_, ?_⟩
      · simp only [Option.toList, List.cons_append, List.nil_append, List.nodup_cons]
        exact ⟨fun hh => (ho rm hh).2 h1, hn⟩
      · intro o hh
        simp only [Option.toList, List.cons_append, List.nil_append, List.mem_cons] at hh
        rcases hh with rfl | hh
        · exact ⟨ok.sub o h1, h2⟩
        · exact ⟨(ho o hh).1, fun hj => (ho o hh).2 (h3 o hj)⟩
      · intro u hu
        obtain ⟨w, hw, hw'⟩ := h4 u hu
        show P (t'.heap.kv u); rw [hw']; exact hp w hw
  | deleteKeys ks =>
    rcases deleteKeys_any cmp ks ok with e' | ⟨n, t', tr', U', e', ok', h1, h2, h3⟩
    · simp [step, e'] at e
    · simp only [step, e', Res.bind_ok, Res.pure_eq, Res.ok.injEq] at e
      subst e
      refine ⟨tr', U', ok', hn, fun o hh => ⟨h2 o (ho o hh).1 (ho o hh).2, fun hj => (ho o hh).2 (h1 o hj)⟩, ?_⟩
      intro u hu
      obtain ⟨-, w, hw, hw'⟩ := h3 u hu
      show P (t'.heap.kv u); rw [hw']; exact hp w hw
  | deleteMapping k v vc =>
    rcases deleteMapping_any ok cmp vc k v with e' | ⟨n, t', tr', U', e', ok', h1, h2, h3⟩
    · simp [step, e'] at e
    · simp only [step, e', Res.bind_ok, Res.pure_eq, Res.ok.injEq] at e
      subst e
      refine ⟨tr', U', ok', hn, fun o hh => ⟨h2 o (ho o hh).1 (ho o hh).2, fun hj => (ho o hh).2 (h1 o hj)⟩, ?_⟩
      intro u hu
      obtain ⟨-, w, hw, hw'⟩ := h3 u hu
      show P (t'.heap.kv u); rw [hw']; exact hp w hw
  | clear =>
    simp only [step, Res.pure_eq, Res.ok.injEq] at e
    subst e
    exact ⟨.nil, U, ok.clear, hn, fun o hh => ⟨(ho o hh).1, by simp [T.ids]⟩, hp⟩
  | putNode j =>
    simp only [step] at e
    cases hj : s.2[j]? with
    | none => rw [hj] at e; simp only [Res.pure_eq, Res.ok.injEq] at e; subst e; exact ⟨tr, U, ok, hn, ho, hp⟩
    | some x =>
      rw [hj] at e
      have hx : x ∈ s.2 := List.mem_of_getElem? hj
      obtain ⟨b, t', tr', e', ok', -, h1, h2, -, h3⟩ := putNode_any ok cmp (ho x hx).1 (ho x hx).2
      simp only [e', Res.bind_ok, Res.pure_eq, Res.ok.injEq] at e
      subst e
      have hp' : ∀ u ∈ U, P (t'.heap.kv u) := by
        intro u hu
        rcases h3 u with e3 | ⟨e3, e4⟩
        · rw [e3]; exact hp u hu
        · rw [e3]; exact hP _ _ (hp x (ho x hx).1) (h0 e4)
      cases b with
      | false =>
        obtain rfl := h2 rfl
        exact ⟨tr', U, ok', hn, ho, hp'⟩
      | true =>
        refine ⟨tr', U, ok', hn.sublist (List.eraseIdx_sublist ..), ?_, hp'⟩
        intro o hh
        simp only [if_true] at hh
        have hos : o ∈ s.2 := List.mem_of_mem_eraseIdx hh
        refine ⟨(ho o hos).1, h1 o (ho o hos).1 (ho o hos).2 ?_⟩
        rintro rfl
        obtain ⟨k, hk, hk'⟩ := List.mem_eraseIdx_iff_getElem?.1 hh
        have hkl : k < s.2.length := by rw [List.getElem?_eq_some_iff] at hk'; exact hk'.1
        have hjl : j < s.2.length := by rw [List.getElem?_eq_some_iff] at hj; exact hj.1
        exact hk ((List.getElem?_inj hkl hn).1 (hk'.trans hj.symm))

theorem run_invP {P : K × V → Prop} {cmp : Compare K} (hc : cmp.ThreeWay) (hP : ∀ a k, P a → cmp a.1 k = 0 → P (k, a.2))
    {z : K × V} (ops : List (Op K V)) {s s' : Tree K V × List Nat} (h : InvP P z s) (hop : ∀ k v, .put k v ∈ ops → P (k, v))
    (e : run cmp s ops = .ok s') : InvP P z s' := by
  induction ops generalizing s with
  | nil => simp only [run, Res.pure_eq, Res.ok.injEq] at e; subst e; exact h
  | cons op ops ih =>
    rw [run] at e
    cases e1 : step cmp s op with
    | ok s1 =>
      rw [e1] at e
      exact ih (step_invP hc hP h op (fun k v hh => hop k v (by simp [hh])) e1) (fun k v hh => hop k v (by simp [hh])) e
    | panic k => rw [e1] at e; cases e
    | hang => rw [e1] at e; cases e

/-- C88: in every history that returns (any order of keys, deletions, `PutNode`s, `Clear`s), a lookup that hits returns a value that a
`Put` of an equal key has put. -/
theorem lookup_sound {cmp : Compare K} (hc : cmp.ThreeWay) (z : K × V) (ops : List (Op K V)) {s : Tree K V × List Nat}
    (e : run cmp (new z, []) ops = .ok s) (k : K) :
    (∀ v, get cmp s.1 k = .ok (some v) → ∃ k', .put k' v ∈ ops ∧ cmp k k' = 0) ∧
    (has cmp s.1 k = .ok true → ∃ k' v, .put k' v ∈ ops ∧ cmp k k' = 0) := by
  obtain ⟨tr, U, ok, -, -, hp⟩ := run_invP (P := fun e => ∃ k', .put k' e.2 ∈ ops ∧ cmp k' e.1 = 0) hc
    (fun a k ⟨k', h1, h2⟩ h => ⟨k', h1, zero_trans hc h2 h⟩) ops (s := (new z, [])) ⟨.nil, [], ok_new z, by simp, by simp, by simp⟩
    (fun k v h => ⟨k, h, hc.self k⟩) e
  have key : ∀ i, search cmp s.1.heap k = .ok (some i) → ∃ k', .put k' (s.1.heap.kv i).2 ∈ ops ∧ cmp k k' = 0 := by
    intro i hi
    rcases search_any ok cmp k with ⟨j, hj, e'⟩ | e'
    · rw [e'] at hi; cases hi
      rw [search, ok.holds.root] at e'
      have h1 := searchFrom_hit tr none ok.holds.rep e'
      obtain ⟨k', h2, h3⟩ := hp i (ok.sub i hj)
      have := hc.range k (s.1.heap.kv i).1
      exact ⟨k', h2, zero_trans hc (by omega) (hc.zero_symm h3)⟩
    · rw [e'] at hi; cases hi
  constructor
  · intro v hv
    rw [get] at hv
    cases hs : search cmp s.1.heap k with
    | ok r =>
      rw [hs] at hv
      cases r with
      | none => simp at hv
      | some i => simp only [Res.bind_ok, Res.pure_eq, Res.ok.injEq, Option.some.injEq] at hv; subst hv; exact key i hs
    | panic p => rw [hs] at hv; cases hv
    | hang => rw [hs] at hv; cases hv
  · intro hv
    rw [has] at hv
    cases hs : search cmp s.1.heap k with
    | ok r =>
      rw [hs] at hv
      cases r with
      | none => simp at hv
      | some i => obtain ⟨k', h1, h2⟩ := key i hs; exact ⟨k', _, h1, h2⟩
    | panic p => rw [hs] at hv; cases hv
    | hang => rw [hs] at hv; cases hv

/-- A history with keys in no order, a deletion and a `PutNode`: every hit afterwards is a value put. -/
example : ∃ s, run Fn.comp (new ((0 : Nat), (0 : Nat)), []) [.put 5 50, .put 2 20, .put 9 90, .put 2 21, .delete 5, .putNode 0] = .ok s ∧
    ∀ k v, get Fn.comp s.1 k = .ok (some v) → ∃ k', (.put k' v : Op Nat Nat) ∈ [.put 5 50, .put 2 20, .put 9 90, .put 2 21, .delete 5, .putNode 0] ∧
      Fn.comp k k' = 0 := by
  obtain ⟨s, e⟩ := calls_return_partial (cmp := Fn.comp) (z := ((0 : Nat), (0 : Nat))) (by intro k; unfold Fn.comp; grind)
    [.put 5 50, .put 2 20, .put 9 90, .put 2 21, .delete 5, .putNode 0]
  exact ⟨s, e, fun k v => (lookup_sound Fn.comp_strict.toThreeWay (0, 0) _ e k).1 v⟩

/-! ### C61: `Size` never undercounts -/

/-- The structure, with at most `Size` nodes in the tree. -/
def InvL (z : K × V) (t : Tree K V) : Prop := ∃ tr U, OK z t tr U ∧ (tr.ids.length : Int) ≤ t.size

theorem Removed.len {z : K × V} {cmp : Compare K} {t t' : Tree K V} {tr tr' : T} {U as bs : List Nat} {i rm : Nat}
    (R : Removed z cmp t t' tr tr' U as i bs rm) (e : tr.ids = as ++ i :: bs) : tr'.ids.length + 1 = tr.ids.length := by
  rw [e]
  rcases R.ids with ⟨-, h⟩ | ⟨-, bs', h1, h2⟩
  · rw [h]; simp; omega
  · rw [h2, h1]; simp; omega

theorem InvL.remove {z : K × V} {t : Tree K V} {tr : T} {U : List Nat} (ok : OK z t tr U) (h : (tr.ids.length : Int) ≤ t.size) (cmp : Compare K)
    {i : Nat} (hi : i ∈ tr.ids) {r : Option Nat} {t' : Tree K V} (e : removeNode cmp t i = .ok (r, t')) :
    ∃ rm tr', r = some rm ∧ OK z t' tr' U ∧ (tr'.ids.length : Int) ≤ t'.size ∧ rm ∈ U ∧ rm ∉ tr'.ids := by
  obtain ⟨as, bs, hab⟩ := List.append_of_mem hi
  rcases removeNode_spec ok hab cmp with ⟨_, _, e'⟩ | ⟨_, rm, t1, tr', e', R⟩
  · rw [e'] at e; cases e
  · rw [e'] at e; cases e
    refine ⟨rm, tr', rfl, R.ok, ?_, ok.sub rm R.mem, (rm_out ok.holds.nodup hab R.ids).1⟩
    have := R.len hab; have := R.size; omega

theorem InvL.delete {z : K × V} {t : Tree K V} {tr : T} {U : List Nat} (ok : OK z t tr U) (h : (tr.ids.length : Int) ≤ t.size) (cmp : Compare K)
    (k : K) {r : Option Nat} {t' : Tree K V} (e : RBTree.delete cmp t k = .ok (r, t')) :
    (r = none ∧ t' = t) ∨ ∃ rm tr', r = some rm ∧ OK z t' tr' U ∧ (tr'.ids.length : Int) ≤ t'.size ∧ rm ∈ U ∧ rm ∉ tr'.ids := by
  rw [RBTree.delete] at e
  rcases search_any ok cmp k with ⟨i, hi, e'⟩ | e'
  · rw [e'] at e; exact .inr (InvL.remove ok h cmp hi e)
  · rw [e'] at e; cases e; exact .inl ⟨rfl, rfl⟩

theorem InvL.deleteKeys {z : K × V} (cmp : Compare K) (ks : List K) {t : Tree K V} {tr : T} {U : List Nat} (ok : OK z t tr U)
    (h : (tr.ids.length : Int) ≤ t.size) {n : Nat} {t' : Tree K V} (e : RBTree.deleteKeys cmp t ks = .ok (n, t')) : InvL z t' := by
  induction ks generalizing t tr U n with
  | nil => cases e; exact ⟨tr, U, ok, h⟩
  | cons k ks ih =>
    rw [RBTree.deleteKeys] at e
    rcases delete_any ok cmp k with e1 | e1 | ⟨rm, t1, -, e1, -⟩
    · rw [e1] at e; cases e
    · rw [e1] at e; simp only [Res.bind_ok, ne_eq, not_true_eq_false, if_false] at e; exact ih ok h e
    · rcases InvL.delete ok h cmp k e1 with ⟨h1, -⟩ | ⟨rm', tr1, h1, ok1, hl, hu, hnu⟩
      · cases h1
      · cases h1
        obtain ⟨t2, e2, ok2, hs, -, -⟩ := freeNode_spec ok1 hu hnu
        rw [e1] at e
        simp only [Res.bind_ok, ne_eq, reduceCtorEq, not_false_eq_true, if_true, e2] at e
        cases e3 : RBTree.deleteKeys cmp t2 ks with
        | ok x =>
          rw [e3] at e; cases e
          exact ih ok2 (by omega) e3
        | panic p => rw [e3] at e; cases e
        | hang => rw [e3] at e; cases e

theorem InvL.step {z : K × V} {cmp : Compare K} {s s' : Tree K V × List Nat} (h : InvL z s.1) (op : Op K V) (hop : ∀ j, op ≠ .putNode j)
    (e : RBTree.step cmp s op = .ok s') : InvL z s'.1 := by
  obtain ⟨tr, U, ok, hl⟩ := h
  cases op with
  | put k v =>
    obtain ⟨b, t', tr', U', e', ok', h0, -, -, hb, hlen, -⟩ := putInner_any ok cmp k v
    rw [RBTree.step, RBTree.put, e'] at e
    cases b with
    | false => obtain rfl := hb rfl; cases e; exact ⟨tr', U', ok', by show _ ≤ t'.size; omega⟩
    | true =>
      cases e
      exact ⟨tr', U', ⟨ok'.holds, ok'.rb, ok'.buf, ok'.sub, ok'.zero⟩, by show _ ≤ t'.size + 1; omega⟩
  | delete k =>
    rw [RBTree.step] at e
    cases e1 : RBTree.delete cmp s.1 k with
    | ok x =>
      rw [e1] at e; cases e
      rcases InvL.delete ok hl cmp k e1 with ⟨-, h1⟩ | ⟨rm', tr1, h1, ok1, hl, -, -⟩
      · rw [h1]; exact ⟨tr, U, ok, hl⟩
      · exact ⟨tr1, U, ok1, hl⟩
    | panic p => rw [e1] at e; cases e
    | hang => rw [e1] at e; cases e
  | deleteKeys ks =>
    rw [RBTree.step] at e
    cases e1 : RBTree.deleteKeys cmp s.1 ks with
    | ok x => rw [e1] at e; cases e; exact InvL.deleteKeys cmp ks ok hl e1
    | panic p => rw [e1] at e; cases e
    | hang => rw [e1] at e; cases e
  | deleteMapping k v vc =>
    rw [RBTree.step, deleteByWholeMapping] at e
    rcases search_any ok cmp k with ⟨i, hi, e'⟩ | e'
    · rw [e'] at e
      simp only [Res.bind_ok] at e
      by_cases hv : vc v (s.1.heap.kv i).2 = 0
      · rw [if_pos hv] at e
        cases e1 : removeNode cmp s.1 i with
        | ok x =>
          obtain ⟨rm, tr1, h1, ok1, hl1, hu, hnu⟩ := InvL.remove ok hl cmp hi e1
          obtain ⟨r, t1⟩ := x
          cases h1
          obtain ⟨t2, e2, ok2, hs, -, -⟩ := freeNode_spec ok1 hu hnu
          rw [e1] at e
          simp only [Res.bind_ok, e2] at e
          cases e
          exact ⟨tr1, _, ok2, by show _ ≤ t2.size; omega⟩
        | panic p => rw [e1] at e; cases e
        | hang => rw [e1] at e; cases e
      · rw [if_neg hv] at e; cases e; exact ⟨tr, U, ok, hl⟩
    · rw [e'] at e; cases e; exact ⟨tr, U, ok, hl⟩
  | clear => cases e; exact ⟨.nil, U, ok.clear, by simp [T.ids, RBTree.clear]⟩
  | putNode j => exact absurd rfl (hop j)

/-- C61, for every history without `PutNode`, whatever the order of the keys and the comparator: the entries that stepping with `Next`
enumerates are at most `Size` many. -/
theorem size_bound_partial (cmp : Compare K) (z : K × V) (ops : List (Op K V)) (hops : ∀ j, .putNode j ∉ ops) {s : Tree K V × List Nat}
    (e : run cmp (new z, []) ops = .ok s) :
    ∃ t : T, Holds s.1.heap t ∧ drain s.1.heap t.ids.head? = .ok (t.ids.map s.1.heap.kv) ∧ (t.ids.length : Int) ≤ sizeOf s.1 := by
  have key : ∀ (ops : List (Op K V)), (∀ j, .putNode j ∉ ops) → ∀ {s0 : Tree K V × List Nat}, InvL z s0.1 → run cmp s0 ops = .ok s → InvL z s.1 := by
    intro ops
    induction ops with
    | nil => intro _ s0 h e; simp only [run, Res.pure_eq, Res.ok.injEq] at e; subst e; exact h
    | cons op ops ih =>
      intro hh s0 h e
      rw [run] at e
      cases e1 : step cmp s0 op with
      | ok s1 => rw [e1] at e; exact ih (fun j hj => hh j (by simp [hj])) (h.step op (fun j hj => hh j (by simp [hj])) e1) e
      | panic k => rw [e1] at e; cases e
      | hang => rw [e1] at e; cases e
  obtain ⟨tr, U, ok, hl⟩ := key ops hops (s0 := (new z, [])) ⟨.nil, [], ok_new z, by simp [T.ids, new]⟩ e
  exact ⟨tr, ok.holds, drain_spec ok.holds tr.ids [] rfl, hl⟩

end Gds.RBTree
