import Verif.RBTree.Ops

/-! Histories of calls, and the sorted map they should implement. -/

namespace Gds.RBTree

variable {K V : Type}

/-! ### The specification -/

/-- A call. `putNode j` puts back the `j`-th of the nodes earlier calls of `Delete` returned. -/
inductive Op (K V : Type) where
  | put (k : K) (v : V)
  | delete (k : K)
  | deleteKeys (ks : List K)
  | deleteMapping (k : K) (v : V) (valComp : Compare V)
  | clear
  | putNode (j : Nat)

/-- A sorted map after `Put k v`. -/
def specPut (cmp : Compare K) (k : K) (v : V) : List (K × V) → List (K × V)
  | [] => [(k, v)]
  | e :: L => if cmp k e.1 < 0 then (k, v) :: e :: L else if cmp k e.1 = 0 then (e.1, v) :: L else e :: specPut cmp k v L

/-- A map after `Delete k`. -/
def specDel (cmp : Compare K) (k : K) (L : List (K × V)) : List (K × V) := L.filter (fun e => decide (cmp k e.1 ≠ 0))

/-- The value of a key. -/
def specGet (cmp : Compare K) (k : K) (L : List (K × V)) : Option V := (L.find? (fun e => decide (cmp k e.1 = 0))).map (·.2)

/-- The map after one call (`putNode` is not part of this specification). -/
def specStep (cmp : Compare K) (L : List (K × V)) : Op K V → List (K × V)
  | .put k v => specPut cmp k v L
  | .delete k => specDel cmp k L
  | .deleteKeys ks => ks.foldl (fun L k => specDel cmp k L) L
  | .deleteMapping k v vc => match specGet cmp k L with
    | none => L
    | some w => if vc v w = 0 then specDel cmp k L else L
  | .clear => []
  | .putNode _ => L

/-- The map after a history. -/
def specRun (cmp : Compare K) (L : List (K × V)) (ops : List (Op K V)) : List (K × V) := ops.foldl (specStep cmp) L

/-- Every key put is stored already or above all stored keys, and `PutNode` is not used. -/
def Ascending (cmp : Compare K) : List (K × V) → List (Op K V) → Prop
  | _, [] => True
  | L, op :: ops => (match op with
      | .put k _ => (∃ e ∈ L, cmp k e.1 = 0) ∨ ∀ e ∈ L, 0 < cmp k e.1
      | .putNode _ => False
      | _ => True) ∧ Ascending cmp (specStep cmp L op) ops

/-! ### Running the model -/

/-- One call, on the tree and the list of nodes the user holds. -/
def step (cmp : Compare K) (s : Tree K V × List Nat) : Op K V → Res (Tree K V × List Nat)
  | .put k v => do
    let (_, t) ← put cmp s.1 k v
    pure (t, s.2)
  | .delete k => do
    let (n, t) ← delete cmp s.1 k
    pure (t, n.toList ++ s.2)
  | .deleteKeys ks => do
    let (_, t) ← deleteKeys cmp s.1 ks
    pure (t, s.2)
  | .deleteMapping k v vc => do
    let (_, t) ← deleteByWholeMapping cmp vc s.1 k v
    pure (t, s.2)
  | .clear => pure (clear s.1, s.2)
  | .putNode j => match s.2[j]? with
    | none => pure s
    | some x => do
      let (b, t) ← putNode cmp s.1 x
      pure (t, if b then s.2.eraseIdx j else s.2)

/-- A history. -/
def run (cmp : Compare K) (s : Tree K V × List Nat) : List (Op K V) → Res (Tree K V × List Nat)
  | [] => pure s
  | op :: ops => do
    let s ← step cmp s op
    run cmp s ops

/-! ### Any history keeps the structure -/

/-- The structure, and the nodes the user holds. -/
def Inv (z : K × V) (s : Tree K V × List Nat) : Prop :=
  ∃ tr U, OK z s.1 tr U ∧ s.2.Nodup ∧ ∀ o ∈ s.2, o ∈ U ∧ o ∉ tr.ids

theorem rm_out {tr tr' : T} {as bs : List Nat} {i rm : Nat} (hn : tr.ids.Nodup) (e : tr.ids = as ++ i :: bs)
    (h : (rm = i ∧ tr'.ids = as ++ bs) ∨ (as ≠ [] ∧ ∃ bs', bs = rm :: bs' ∧ tr'.ids = as ++ i :: bs')) :
    rm ∉ tr'.ids ∧ ∀ j ∈ tr'.ids, j ∈ tr.ids := by
  rw [e] at hn ⊢
  rcases h with ⟨rfl, h⟩ | ⟨_, bs', rfl, h⟩ <;> rw [h] <;>
    simp only [List.nodup_append, List.nodup_cons, List.mem_append, List.mem_cons] at hn ⊢ <;> grind

theorem Removed.kv_from {z : K × V} {cmp : Compare K} {t t' : Tree K V} {tr tr' : T} {U as bs : List Nat} {i rm : Nat}
    (R : Removed z cmp t t' tr tr' U as i bs rm) (hs : ∀ j ∈ tr.ids, j ∈ U) : ∀ u ∈ U, ∃ w ∈ U, t'.heap.kv u = t.heap.kv w := by
  intro u hu
  by_cases h : u = i
  · exact ⟨rm, hs _ R.mem, by rw [R.kv, if_pos h]⟩
  · exact ⟨u, hu, by rw [R.kv, if_neg h]⟩

theorem delete_any {z : K × V} {t : Tree K V} {tr : T} {U : List Nat} (h : OK z t tr U) (cmp : Compare K) (key : K) :
    delete cmp t key = .panic .nilDeref ∨ delete cmp t key = .ok (none, t) ∨
    ∃ rm t' tr', delete cmp t key = .ok (some rm, t') ∧ OK z t' tr' U ∧ rm ∈ tr.ids ∧ rm ∉ tr'.ids ∧ (∀ j ∈ tr'.ids, j ∈ tr.ids) ∧
      ∀ u ∈ U, ∃ w ∈ U, t'.heap.kv u = t.heap.kv w := by
  rw [delete]
  rcases search_any h cmp key with ⟨i, hi, e⟩ | e
  · rw [e]
    obtain ⟨as, bs, hab⟩ := List.append_of_mem hi
    rcases removeNode_spec h hab cmp with ⟨_, _, e'⟩ | ⟨_, rm, t', tr', e', R⟩
    · left; simp [e']
    · right; right
      obtain ⟨h1, h2⟩ := rm_out h.holds.nodup hab R.ids
      exact ⟨rm, t', tr', by simp [e'], R.ok, R.mem, h1, h2, R.kv_from h.sub⟩
  · right; left; rw [e]; rfl

theorem deleteKeys_any {z : K × V} (cmp : Compare K) (ks : List K) {t : Tree K V} {tr : T} {U : List Nat} (h : OK z t tr U) :
    deleteKeys cmp t ks = .panic .nilDeref ∨
    ∃ n t' tr' U', deleteKeys cmp t ks = .ok (n, t') ∧ OK z t' tr' U' ∧ (∀ j ∈ tr'.ids, j ∈ tr.ids) ∧ (∀ u ∈ U, u ∉ tr.ids → u ∈ U') ∧
      ∀ u ∈ U', u ∈ U ∧ ∃ w ∈ U, t'.heap.kv u = t.heap.kv w := by
  induction ks generalizing t tr U with
  | nil => exact .inr ⟨0, t, tr, U, rfl, h, fun _ h => h, fun _ h _ => h, fun u hu => ⟨hu, u, hu, rfl⟩⟩
  | cons k ks ih =>
    rw [deleteKeys]
    rcases delete_any h cmp k with e | e | ⟨rm, t', tr', e, ok', h1, h2, h3, h6⟩
    · left; rw [e]; rfl
    · rw [e]; simp only [Res.bind_ok, ne_eq, not_true_eq_false, if_false]; exact ih h
    · rw [e]
      obtain ⟨t2, e2, ok2, -, hkv2, -⟩ := freeNode_spec ok' (h.sub rm h1) h2
      simp only [Res.bind_ok, ne_eq, reduceCtorEq, not_false_eq_true, if_true, e2]
      rcases ih ok2 with e3 | ⟨n, t3, tr3, U3, e3, ok3, h4, h5, h7⟩
      · left; rw [e3]; rfl
      · right
        refine ⟨n + 1, t3, tr3, U3, by rw [e3]; rfl, ok3, fun j hj => h3 j (h4 j hj), ?_, ?_⟩
        rotate_left
        · intro u hu
          obtain ⟨hu1, w, hw, hw'⟩ := h7 u hu
          rw [hkv2] at hw'
          obtain ⟨w2, hw2, hw2'⟩ := h6 w (List.mem_filter.1 hw).1
          exact ⟨(List.mem_filter.1 hu1).1, w2, hw2, hw'.trans hw2'⟩
        intro u hu hut
        refine h5 u ?_ (fun hh => hut (h3 u hh))
        simp only [List.mem_filter, hu, true_and]; simp; rintro rfl; exact hut h1

theorem deleteMapping_any {z : K × V} {t : Tree K V} {tr : T} {U : List Nat} (h : OK z t tr U) (cmp : Compare K) (vc : Compare V) (key : K) (val : V) :
    deleteByWholeMapping cmp vc t key val = .panic .nilDeref ∨
    ∃ b t' tr' U', deleteByWholeMapping cmp vc t key val = .ok (b, t') ∧ OK z t' tr' U' ∧ (∀ j ∈ tr'.ids, j ∈ tr.ids) ∧ (∀ u ∈ U, u ∉ tr.ids → u ∈ U') ∧
      ∀ u ∈ U', u ∈ U ∧ ∃ w ∈ U, t'.heap.kv u = t.heap.kv w := by
  rw [deleteByWholeMapping]
  rcases search_any h cmp key with ⟨i, hi, e⟩ | e
  · rw [e]
    simp only [Res.bind_ok]
    by_cases hv : vc val (t.heap.kv i).2 = 0
    · rw [if_pos hv]
      obtain ⟨as, bs, hab⟩ := List.append_of_mem hi
      rcases removeNode_spec h hab cmp with ⟨_, _, e'⟩ | ⟨_, rm, t', tr', e', R⟩
      · left; simp [e']
      · right
        obtain ⟨h1, h2⟩ := rm_out h.holds.nodup hab R.ids
        obtain ⟨t2, e2, ok2, -, hkv2, -⟩ := freeNode_spec R.ok (h.sub rm R.mem) h1
        refine ⟨true, t2, tr', _, by simp [e', e2], ok2, h2, ?_, ?_⟩
        rotate_left
        · intro u hu
          have hu := (List.mem_filter.1 hu).1
          rw [hkv2]; exact ⟨hu, R.kv_from h.sub u hu⟩
        intro u hu hut
        simp only [List.mem_filter, hu, true_and]; simp; rintro rfl; exact hut R.mem
    · rw [if_neg hv]; exact .inr ⟨false, t, tr, U, rfl, h, fun _ h => h, fun _ h _ => h, fun u hu => ⟨hu, u, hu, rfl⟩⟩
  · rw [e]; exact .inr ⟨false, t, tr, U, rfl, h, fun _ h => h, fun _ h _ => h, fun u hu => ⟨hu, u, hu, rfl⟩⟩

theorem put_any {z : K × V} {t : Tree K V} {tr : T} {U : List Nat} (h : OK z t tr U) (cmp : Compare K) (key : K) (val : V) :
    ∃ b t' tr' U', put cmp t key val = .ok (b, t') ∧ OK z t' tr' U' ∧ (∀ u ∈ U, u ∈ U') ∧ (∀ u ∈ U, u ∉ tr.ids → u ∉ tr'.ids) ∧
      ∃ u e, (∀ j, t'.heap.kv j = if j = u then e else t.heap.kv j) ∧ e.2 = val ∧ (e.1 = key ∨ cmp key e.1 ≠ -1 ∧ cmp key e.1 ≠ 1) ∧ ∀ w ∈ U', w = u ∨ w ∈ U := by
  obtain ⟨b, t', tr', U', e, ok', -, h1, h2, -, -, -, -, u, x, hk1, hk2, hk3, hk4, -⟩ := putInner_any h cmp key val
  rw [put, e]
  cases b with
  | false => exact ⟨false, t', tr', U', rfl, ok', h1, h2, u, x, hk1, hk2, hk3, hk4⟩
  | true => exact ⟨true, { t' with size := t'.size + 1 }, tr', U', rfl, ⟨ok'.holds, ok'.rb, ok'.buf, ok'.sub, ok'.zero⟩, h1, h2, u, x, hk1, hk2, hk3, hk4⟩

theorem step_inv {z : K × V} {s s' : Tree K V × List Nat} (cmp : Compare K) (h : Inv z s) (op : Op K V) (e : step cmp s op = .ok s') : Inv z s' := by
  obtain ⟨tr, U, ok, hn, ho⟩ := h
  cases op with
  | put k v =>
    obtain ⟨b, t', tr', U', e', ok', h1, h2, -⟩ := put_any ok cmp k v
    simp only [step, e', Res.bind_ok, Res.pure_eq, Res.ok.injEq] at e
    subst e
    exact ⟨tr', U', ok', hn, fun o hh => ⟨h1 o (ho o hh).1, h2 o (ho o hh).1 (ho o hh).2⟩⟩
  | delete k =>
    rcases delete_any ok cmp k with e' | e' | ⟨rm, t', tr', e', ok', h1, h2, h3, -⟩
    · simp [step, e'] at e
    · simp only [step, e', Res.bind_ok, Res.pure_eq, Res.ok.injEq] at e
      subst e
      exact ⟨tr, U, ok, hn, ho⟩
    · simp only [step, e', Res.bind_ok, Res.pure_eq, Res.ok.injEq] at e
      subst e
      refine ⟨tr', U, ok', ?_, ?_⟩
      · simp only [Option.toList, List.cons_append, List.nil_append, List.nodup_cons]
        exact ⟨fun hh => (ho rm hh).2 h1, hn⟩
      · intro o hh
        simp only [Option.toList, List.cons_append, List.nil_append, List.mem_cons] at hh
        rcases hh with rfl | hh
        · exact ⟨ok.sub o h1, h2⟩
        · exact ⟨(ho o hh).1, fun hj => (ho o hh).2 (h3 o hj)⟩
  | deleteKeys ks =>
    rcases deleteKeys_any cmp ks ok with e' | ⟨n, t', tr', U', e', ok', h1, h2, -⟩
    · simp [step, e'] at e
    · simp only [step, e', Res.bind_ok, Res.pure_eq, Res.ok.injEq] at e
      subst e
      exact ⟨tr', U', ok', hn, fun o hh => ⟨h2 o (ho o hh).1 (ho o hh).2, fun hj => (ho o hh).2 (h1 o hj)⟩⟩
  | deleteMapping k v vc =>
    rcases deleteMapping_any ok cmp vc k v with e' | ⟨n, t', tr', U', e', ok', h1, h2, -⟩
    · simp [step, e'] at e
    · simp only [step, e', Res.bind_ok, Res.pure_eq, Res.ok.injEq] at e
      subst e
      exact ⟨tr', U', ok', hn, fun o hh => ⟨h2 o (ho o hh).1 (ho o hh).2, fun hj => (ho o hh).2 (h1 o hj)⟩⟩
  | clear =>
    simp only [step, Res.pure_eq, Res.ok.injEq] at e
    subst e
    exact ⟨.nil, U, ok.clear, hn, fun o hh => ⟨(ho o hh).1, by simp [T.ids]⟩⟩
  | putNode j =>
    simp only [step] at e
    cases hj : s.2[j]? with
    | none => rw [hj] at e; simp only [Res.pure_eq, Res.ok.injEq] at e; subst e; exact ⟨tr, U, ok, hn, ho⟩
    | some x =>
      rw [hj] at e
      have hx : x ∈ s.2 := List.mem_of_getElem? hj
      obtain ⟨b, t', tr', e', ok', -, h1, h2, -⟩ := putNode_any ok cmp (ho x hx).1 (ho x hx).2
      simp only [e', Res.bind_ok, Res.pure_eq, Res.ok.injEq] at e
      subst e
      cases b with
      | false =>
        obtain rfl := h2 rfl
        exact ⟨tr', U, ok', hn, ho⟩
      | true =>
        refine ⟨tr', U, ok', hn.sublist (List.eraseIdx_sublist ..), ?_⟩
        intro o hh
        simp only [if_true] at hh
        have hos : o ∈ s.2 := List.mem_of_mem_eraseIdx hh
        refine ⟨(ho o hos).1, h1 o (ho o hos).1 (ho o hos).2 ?_⟩
        rintro rfl
        obtain ⟨k, hk, hk'⟩ := List.mem_eraseIdx_iff_getElem?.1 hh
        have hkl : k < s.2.length := by rw [List.getElem?_eq_some_iff] at hk'; exact hk'.1
        have hjl : j < s.2.length := by rw [List.getElem?_eq_some_iff] at hj; exact hj.1
        exact hk ((List.getElem?_inj hkl hn).1 (hk'.trans hj.symm))

theorem run_inv {z : K × V} (cmp : Compare K) (ops : List (Op K V)) {s s' : Tree K V × List Nat} (h : Inv z s) (e : run cmp s ops = .ok s') : Inv z s' := by
  induction ops generalizing s with
  | nil => simp only [run, Res.pure_eq, Res.ok.injEq] at e; subst e; exact h
  | cons op ops ih =>
    rw [run] at e
    cases e1 : step cmp s op with
    | ok s1 => rw [e1] at e; exact ih (step_inv cmp h op e1) e
    | panic k => rw [e1] at e; cases e
    | hang => rw [e1] at e; cases e

theorem inv_new (z : K × V) : Inv z (new z, []) := ⟨.nil, [], ok_new z, by simp, by simp⟩

end Gds.RBTree
