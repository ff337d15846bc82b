import Verif.RBTree.IterEdit

/-! C101: what `Put` does to the entries, in every history. -/

namespace Gds.RBTree

variable {K V : Type}

/-- A search for `k` from node `i` leaves the tree at node `e`: it turns left (right) at nodes to which `k` compares -1 (1), and `e` has no
child on that side. -/
inductive Leaves (cmp : Compare K) (m : Heap K V) (k : K) : Nat → Nat → Prop
  | leftEnd {i} (h : cmp k (m.kv i).1 = -1) (hl : m.left i = none) : Leaves cmp m k i i
  | rightEnd {i} (h : cmp k (m.kv i).1 = 1) (hr : m.right i = none) : Leaves cmp m k i i
  | left {i j e} (h : cmp k (m.kv i).1 = -1) (hl : m.left i = some j) (hj : Leaves cmp m k j e) : Leaves cmp m k i e
  | right {i j e} (h : cmp k (m.kv i).1 = 1) (hr : m.right i = some j) (hj : Leaves cmp m k j e) : Leaves cmp m k i e

/-- Where the descent of `put` ends, with the answer of `search` and the side it left the tree on. -/
theorem descend_exact (cmp : Compare K) {m : Heap K V} (key : K) : ∀ (t : T) (c : Ctx), Holds m (c.plug t) →
    (∃ i ∈ t.ids, descend cmp m key t.root c.par = .ok (.found i) ∧ searchFrom cmp m key t.root = .ok (some i)) ∨
    searchFrom cmp m key t.root = .ok none ∧
    ((t = .nil ∧ descend cmp m key t.root c.par = .ok (.missing c.par)) ∨
    ∃ (c' : Ctx) (l r : T) (i : Nat), c.plug t = c'.plug (.node l i r) ∧
      (l = .nil ∧ cmp key (m.kv i).1 = -1 ∨ r = .nil ∧ cmp key (m.kv i).1 = 1) ∧ (∃ j, t.root = some j ∧ Leaves cmp m key j i) ∧
      descend cmp m key t.root c.par = .ok (.missing (some i))) := by
  intro t
  induction t with
  | nil => intro c h; right; refine ⟨?_, .inl ⟨rfl, ?_⟩⟩ <;> rw [T.root_nil]; · rw [searchFrom]; rfl
           · rw [descend]; rfl
  | node l i r ihl ihr =>
    intro c h
    obtain ⟨hc, h1, h2, h3, h4, h5⟩ := h.split
    rw [T.root_node, descend, searchFrom]
    by_cases k1 : cmp key (m.kv i).1 = -1
    · simp only [k1, if_true, h2]
      rcases ihl (.left i r c) h with ⟨j, hj, e⟩ | ⟨es, ⟨rfl, e⟩ | ⟨c', l', r', j, hp, hlr, ⟨o, ho, lv⟩, e⟩⟩
      · exact .inl ⟨j, by simp [T.ids, hj], e⟩
      · exact .inr ⟨es, .inr ⟨c, .nil, r, i, rfl, .inl ⟨rfl, k1⟩, ⟨i, rfl, .leftEnd k1 h2⟩, e⟩⟩
      · exact .inr ⟨es, .inr ⟨c', l', r', j, hp, hlr, ⟨i, rfl, .left k1 (h2.trans ho) lv⟩, e⟩⟩
    · by_cases k2 : cmp key (m.kv i).1 = 1
      · simp only [k2, if_true, h3]
        rcases ihr (.right l i c) h with ⟨j, hj, e⟩ | ⟨es, ⟨rfl, e⟩ | ⟨c', l', r', j, hp, hlr, ⟨o, ho, lv⟩, e⟩⟩
        · exact .inl ⟨j, by simp [T.ids, hj], by simpa [Ctx.par] using e⟩
        · exact .inr ⟨by simpa using es, .inr ⟨c, l, .nil, i, rfl, .inr ⟨rfl, k2⟩, ⟨i, rfl, .rightEnd k2 h3⟩, by simpa [Ctx.par] using e⟩⟩
        · exact .inr ⟨by simpa using es, .inr ⟨c', l', r', j, hp, hlr, ⟨i, rfl, .right k2 (h3.trans ho) lv⟩, by simpa [Ctx.par] using e⟩⟩
      · exact .inl ⟨i, by simp [T.ids], by simp [k1, k2], by simp [k1, k2]⟩

/-- In a balanced tree a node without a left child has at most one node on its right. -/
theorem right_small {col : Nat → Bool} {c : Ctx} {r : T} {i : Nat} (h : RB col (c.plug (.node .nil i r))) : r.ids = r.root.toList := by
  obtain ⟨n, -, hb, -⟩ := (rb_plug col c _).1 h
  cases r with
  | nil => rfl
  | node rl j rr =>
    have key : ∀ k, Bal col .nil k → Bal col (.node rl j rr) k → rl = .nil ∧ rr = .nil := by
      intro k h0 h1
      have h0 : k = 0 := h0
      subst h0
      rcases h1 with ⟨-, k, hk, -⟩ | ⟨hc, hl, hr, bl, br⟩
      · omega
      · have sub : ∀ t : T, Bal col t 0 → rootBlack col t → t = .nil := by
          intro t ht hb
          cases t with
          | nil => rfl
          | node a b d =>
            rcases ht with ⟨-, k, hk, -⟩ | ⟨hc, -⟩
            · omega
            · simp only [rootBlack] at hb; rw [hb] at hc; cases hc
        exact ⟨sub _ hl bl, sub _ hr br⟩
    have : rl = .nil ∧ rr = .nil := by
      rcases hb with ⟨-, k, -, h0, h1⟩ | ⟨-, h0, h1, -⟩
      · exact key k h0 h1
      · exact key n h0 h1
    obtain ⟨rfl, rfl⟩ := this
    rfl

/-- C101, exactly, for every history of every operation and every comparator; `L` are the nodes below the root in the order of `Next`.
If `search` finds the key, `Put` answers false and changes the value of that node only.  Otherwise it answers true, counts, and puts a fresh
node directly behind the node `i` at which the search left the tree (also when the key is less), in place of the right child of `i`, if any:
that entry, at most one, is lost; all others stay, in their order. -/
theorem put_exact (cmp : Compare K) (z : K × V) (ops : List (Op K V)) {s : Tree K V × List Nat} (e : run cmp (new z, []) ops = .ok s)
    {L : List Nat} (hL : Navigable s.1.heap (s.1.heap.parent 0) L) (k : K) (v : V) :
    ∃ b t' L', put cmp s.1 k v = .ok (b, t') ∧ Navigable t'.heap (t'.heap.parent 0) L' ∧
      ((∃ i ∈ L, search cmp s.1.heap k = .ok (some i) ∧ b = false ∧ L' = L ∧ sizeOf t' = sizeOf s.1 ∧
          ∀ j, t'.heap.kv j = if j = i then ((s.1.heap.kv i).1, v) else s.1.heap.kv j) ∨
       (search cmp s.1.heap k = .ok none ∧ b = true ∧ sizeOf t' = sizeOf s.1 + 1 ∧
        ∃ n, n ∉ L ∧ n ∉ s.2 ∧ (∀ j, t'.heap.kv j = if j = n then (k, v) else s.1.heap.kv j) ∧
          ((L = [] ∧ L' = [n]) ∨
           ∃ as i bs, L = as ++ i :: ((s.1.heap.right i).toList ++ bs) ∧ L' = as ++ i :: n :: bs ∧
            (∃ o, s.1.heap.parent 0 = some o ∧ Leaves cmp s.1.heap k o i)))) := by
  obtain ⟨tr, U, h, -, ho⟩ := run_inv cmp ops (inv_new z) e
  obtain rfl := hL.unique h.holds.navigable
  have hroot := h.holds.root
  rcases descend_exact cmp k tr .top h.holds with ⟨i, hi, e, es⟩ | ⟨es, ⟨rfl, e⟩ | ⟨c, l, r, i, rfl, hlr, ⟨o, hor, lv⟩, e⟩⟩
  · refine ⟨false, { s.1 with heap := rekv s.1.heap i ((s.1.heap.kv i).1, v) }, tr.ids, ?_, (h.rekv (h.holds.pos i hi) _).holds.navigable,
      .inl ⟨i, hi, ?_, rfl, rfl, rfl, fun _ => rfl⟩⟩
    · rw [put, putInner, hroot]; simp only [Ctx.par] at e; rw [e]; rfl
    · rw [search, hroot]; exact es
  · obtain ⟨n, t', e', hn, ok', hsz, hkv, hl, -⟩ := insertAt_empty h k v
    refine ⟨true, { t' with size := t'.size + 1 }, [n], ?_, ok'.holds.navigable,
      .inr ⟨?_, rfl, ?_, n, by simp [T.ids], fun hh => hn (ho n hh).1, hkv, .inl ⟨rfl, rfl⟩⟩⟩
    · have : putInner cmp s.1 k v = .ok (true, t') := by rw [putInner, hroot]; simp only [Ctx.par] at e; rw [e]; exact e'
      rw [put, this]; rfl
    · rw [search, hroot]; exact es
    · show t'.size + 1 = _; rw [hsz]; rfl
  · have hlr' : l = .nil ∨ r = .nil := by rcases hlr with h | h <;> [exact .inl h.1; exact .inr h.1]
    obtain ⟨n, t', tr', e', hn, ok', hsz, hids, hkv, hl, -⟩ := insertAt_spec h hlr' k v
    obtain ⟨-, -, h2, h3, -⟩ := h.holds.split
    refine ⟨true, { t' with size := t'.size + 1 }, tr'.ids, ?_, ok'.holds.navigable,
      .inr ⟨?_, rfl, ?_, n, fun hh => hn (h.sub n hh), fun hh => hn (ho n hh).1, hkv, .inr ⟨c.before ++ l.ids, i, c.after, ?_, by rw [hids], ?_⟩⟩⟩
    · have : putInner cmp s.1 k v = .ok (true, t') := by rw [putInner, hroot]; simp only [Ctx.par, Ctx.plug] at e; rw [e]; exact e'
      rw [put, this]; rfl
    · rw [search, hroot]; exact es
    · show t'.size + 1 = _; rw [hsz]; rfl
    · have : r.ids = (s.1.heap.right i).toList := by
        rw [h3]
        rcases hlr with ⟨rfl, -⟩ | ⟨rfl, -⟩
        · exact right_small h.rb
        · rfl
      rw [ids_plug, ← this]; simp [T.ids]
    · exact ⟨o, by rw [hroot, hor], lv⟩

/-- The nodes at which a search leaves a tree have a free place on that side. -/
theorem Leaves.end {cmp : Compare K} {m : Heap K V} {k : K} {o i : Nat} (h : Leaves cmp m k o i) :
    cmp k (m.kv i).1 = -1 ∧ m.left i = none ∨ cmp k (m.kv i).1 = 1 ∧ m.right i = none := by
  induction h with
  | leftEnd h hl => exact .inl ⟨h, hl⟩
  | rightEnd h hr => exact .inr ⟨h, hr⟩
  | left _ _ _ ih => exact ih
  | right _ _ _ ih => exact ih

/-- C101: when the search leaves the tree on the right, nothing is lost. -/
theorem put_no_loss (cmp : Compare K) (z : K × V) (ops : List (Op K V)) {s : Tree K V × List Nat} (e : run cmp (new z, []) ops = .ok s)
    {L : List Nat} (hL : Navigable s.1.heap (s.1.heap.parent 0) L) (k : K) (v : V) (hs : search cmp s.1.heap k = .ok none)
    (hk : ∀ o i, s.1.heap.parent 0 = some o → Leaves cmp s.1.heap k o i → cmp k (s.1.heap.kv i).1 = 1) :
    ∃ t' n L' as bs, put cmp s.1 k v = .ok (true, t') ∧ Navigable t'.heap (t'.heap.parent 0) L' ∧ L = as ++ bs ∧ L' = as ++ n :: bs ∧
      L'.map t'.heap.kv = as.map s.1.heap.kv ++ (k, v) :: bs.map s.1.heap.kv := by
  obtain ⟨b, t', L', e1, nav, h | ⟨-, rfl, -, n, hn, -, hkv, h⟩⟩ := put_exact cmp z ops e hL k v
  · obtain ⟨i, -, h, -⟩ := h; rw [hs] at h; cases h
  · have main : ∀ as bs, L = as ++ bs → L' = as ++ n :: bs → L'.map t'.heap.kv = as.map s.1.heap.kv ++ (k, v) :: bs.map s.1.heap.kv := by
      rintro as bs rfl rfl
      have c1 : ∀ M : List Nat, n ∉ M → M.map t'.heap.kv = M.map s.1.heap.kv := by
        intro M hM
        refine List.map_congr_left (fun j hj => ?_)
        rw [hkv, if_neg]; rintro rfl; exact hM hj
      rw [List.map_append, List.map_cons, hkv n, if_pos rfl, c1 as (by simp at hn; exact hn.1), c1 bs (by simp at hn; exact hn.2)]
    rcases h with ⟨rfl, rfl⟩ | ⟨as, i, bs, h1, h2, o, ho, lv⟩
    · exact ⟨t', n, _, [], [], e1, nav, rfl, rfl, main [] [] rfl rfl⟩
    · have hr : s.1.heap.right i = none := by
        rcases lv.end with ⟨h, -⟩ | ⟨-, h⟩
        · rw [hk o i ho lv] at h; cases h
        · exact h
      rw [hr] at h1
      have h1' : L = (as ++ [i]) ++ bs := by simpa using h1
      have h2' : L' = (as ++ [i]) ++ n :: bs := by simpa using h2
      exact ⟨t', n, L', as ++ [i], bs, e1, nav, h1', h2', main _ _ h1' h2'⟩

/-- C101: `Put` of one key and then of any number of smaller ones, in any order: the tree holds two entries, the first and the last put,
only the first key is found, and `Size` counts them all. -/
theorem smaller_keys_lost {cmp : Compare K} (hc : cmp.ThreeWay) (z : K × V) (k0 : K) (v0 : V) (kvs : List (K × V)) (hk : ∀ e ∈ kvs, cmp e.1 k0 < 0)
    (e1 : K × V) (he1 : cmp e1.1 k0 < 0) :
    ∃ s L, run cmp (new z, []) (.put k0 v0 :: (kvs ++ [e1]).map (fun e => .put e.1 e.2)) = .ok s ∧
      Navigable s.1.heap (s.1.heap.parent 0) L ∧ L.map s.1.heap.kv = [(k0, v0), e1] ∧ sizeOf s.1 = kvs.length + 2 ∧
      ∀ k, get cmp s.1 k = .ok (if cmp k k0 = 0 then some v0 else none) := by
  obtain ⟨a, t1, p1, ha, ok1, s1, kv1, -, -⟩ := put_first (ok_new z) cmp k0 v0
  have main : ∀ (kvs : List (K × V)) (_ : ∀ e ∈ kvs, cmp e.1 k0 < 0) (t : Tree K V) (R : T) (U : List Nat), OK z t (.node .nil a R) U → t.heap.kv a = (k0, v0) →
      ∃ t' n U', run cmp (t, []) ((kvs ++ [e1]).map (fun e => .put e.1 e.2)) = .ok (t', []) ∧ OK z t' (.node .nil a (.node .nil n .nil)) U' ∧
        t'.heap.kv a = (k0, v0) ∧ t'.heap.kv n = e1 ∧ t'.size = t.size + kvs.length + 1 := by
    intro kvs
    induction kvs with
    | nil =>
      intro _ t R U ok hkv
      obtain ⟨n, t2, p2, hn, ok2, s2, kv2, o2, -⟩ := put_second ok cmp e1.1 e1.2 (.inl (by rw [hkv]; have := hc.range e1.1 k0; show cmp e1.1 k0 = -1; omega))
      refine ⟨t2, n, _, ?_, ok2, by rw [o2 a (ok.sub a (by simp [T.ids])), hkv], kv2, by rw [s2]; simp⟩
      show run cmp (t, []) [.put e1.1 e1.2] = _
      rw [run_cons (s' := (t2, [])) (by rw [step, p2]; rfl)]; rfl
    | cons x kvs ih =>
      intro hx t R U ok hkv
      obtain ⟨n, t2, p2, hn, ok2, s2, kv2, o2, -⟩ := put_second ok cmp x.1 x.2 (.inl (by
        rw [hkv]; have := hc.range x.1 k0; have := hx x (by simp); show cmp x.1 k0 = -1; omega))
      obtain ⟨t3, n3, U3, p3, ok3, a3, b3, c3⟩ := ih (fun e he => hx e (by simp [he])) t2 _ _ ok2 (by rw [o2 a (ok.sub a (by simp [T.ids])), hkv])
      refine ⟨t3, n3, U3, ?_, ok3, a3, b3, by rw [c3, s2]; simp; omega⟩
      show run cmp (t, []) (.put x.1 x.2 :: _) = _
      rw [run_cons (s' := (t2, [])) (by rw [step, p2]; rfl)]; exact p3
  obtain ⟨t', n, U', p', ok', ka, kn, hsz⟩ := main kvs hk t1 _ _ ok1 kv1
  refine ⟨(t', []), _, ?_, ok'.holds.navigable, by simp [T.ids, ka, kn], ?_, ?_⟩
  · rw [run_cons (s' := (t1, [])) (by rw [step, p1]; rfl)]; exact p'
  · show t'.size = _; rw [hsz, s1]; simp [new]; omega
  · intro k
    obtain ⟨-, la, ra, -, -, ln, rn, -⟩ := ok'.holds.rep
    have hsr : search cmp t'.heap k = .ok (if cmp k k0 = 0 then some a else none) := by
      rw [search, ok'.holds.root, T.root_node, searchFrom]
      simp only [ka, la, ra, T.root_nil, T.root_node]
      have hrg := hc.range k k0
      by_cases h1 : cmp k k0 = -1
      · simp only [h1, if_true]; rw [searchFrom]; rfl
      · by_cases h2 : cmp k k0 = 1
        · have h3 : cmp k e1.1 = 1 := by
            have := hc.range k e1.1
            have h4 := (hc.flip e1.1 k).1 (hc.lt_trans he1 ((hc.flip k0 k).2 (by omega)))
            omega
          simp only [h2]
          rw [if_neg (by decide), if_pos trivial, searchFrom]
          simp only [kn, h3, rn, T.root_nil]
          rw [if_neg (by decide), if_pos trivial, searchFrom]; rfl
        · have h3 : cmp k k0 = 0 := by omega
          simp [h3]
    show get cmp t' k = _
    rw [get, hsr]
    by_cases h3 : cmp k k0 = 0
    · simp [h3, ka]
    · simp [h3]

/-! ### The hypotheses are met -/

/-- C101 as stated is false, on integers: after 5 and five smaller keys, two entries are left and only 5 is found. -/
theorem put_keeps_refuted : ∃ s L, run Fn.comp (new ((0 : Int), (0 : Int)), []) [.put 5 50, .put 3 30, .put 4 40, .put 1 10, .put 2 20] = .ok s ∧
    Navigable s.1.heap (s.1.heap.parent 0) L ∧ L.map s.1.heap.kv = [(5, 50), (2, 20)] ∧ sizeOf s.1 = 5 ∧
    get Fn.comp s.1 5 = .ok (some 50) ∧ get Fn.comp s.1 3 = .ok none ∧ get Fn.comp s.1 2 = .ok none := by
  obtain ⟨s, L, e, nav, h1, h2, h3⟩ := smaller_keys_lost Fn.comp_strict.toThreeWay ((0 : Int), (0 : Int)) 5 50 [(3, 30), (4, 40), (1, 10)]
    (by decide) (2, 20) (by decide)
  exact ⟨s, L, e, nav, h1, h2, h3 5, h3 3, h3 2⟩

/-- `put_exact` and `put_no_loss` on the tree of that history: 6 is put behind 5's block or behind 2, nothing is lost. -/
example : ∃ s L, run Fn.comp (new ((0 : Int), (0 : Int)), []) [.put 5 50, .put 3 30, .put 4 40, .put 1 10, .put 2 20] = .ok s ∧
    Navigable s.1.heap (s.1.heap.parent 0) L ∧ ∃ b t' L', put Fn.comp s.1 6 60 = .ok (b, t') ∧ Navigable t'.heap (t'.heap.parent 0) L' := by
  obtain ⟨s, L, e, nav, -⟩ := put_keeps_refuted
  obtain ⟨b, t', L', h1, h2, -⟩ := put_exact _ _ _ e nav 6 60
  exact ⟨s, L, e, nav, b, t', L', h1, h2⟩

end Gds.RBTree
