import Verif.RBTree.Loss

/-! C113: what one `Put` can break in a correct map. -/

namespace Gds.RBTree

variable {K V : Type}

/-- What a search for `x` meets in a tree. -/
def lookT (cmp : Compare K) (m : Heap K V) (x : K) : T → Option Nat
  | .nil => none
  | .node l i r => if cmp x (m.kv i).1 = -1 then lookT cmp m x l else if cmp x (m.kv i).1 = 1 then lookT cmp m x r else some i

/-- The first node of the list whose key is equal to `x`. -/
def findL (cmp : Compare K) (m : Heap K V) (x : K) (L : List Nat) : Option Nat := L.find? (fun i => decide (cmp x (m.kv i).1 = 0))

theorem searchFrom_look (cmp : Compare K) {m : Heap K V} (x : K) : ∀ (t : T) (p : Option Nat), Rep m p t →
    searchFrom cmp m x t.root = .ok (lookT cmp m x t) := by
  intro t
  induction t with
  | nil => intro p _; rw [T.root_nil, searchFrom]; rfl
  | node l i r ihl ihr =>
    rintro p ⟨h1, h2, h3, h4, h5⟩
    rw [T.root_node, searchFrom, lookT]
    by_cases k1 : cmp x (m.kv i).1 = -1
    · simp only [k1, if_true, h2]; exact ihl _ h4
    · by_cases k2 : cmp x (m.kv i).1 = 1
      · simp only [k2, if_true, h3]; simpa using ihr _ h5
      · simp [k1, k2]

theorem findL_none {cmp : Compare K} {m : Heap K V} {x : K} {L : List Nat} (h : ∀ y ∈ L, cmp x (m.kv y).1 ≠ 0) : findL cmp m x L = none := by
  rw [findL, List.find?_eq_none]; simpa using h

theorem findL_append {cmp : Compare K} {m : Heap K V} {x : K} {A B : List Nat} : findL cmp m x (A ++ B) = (findL cmp m x A).or (findL cmp m x B) := by
  simp [findL, List.find?_append]

theorem findL_cons {cmp : Compare K} {m : Heap K V} {x : K} {a : Nat} {B : List Nat} :
    findL cmp m x (a :: B) = if cmp x (m.kv a).1 = 0 then some a else findL cmp m x B := by
  by_cases h : cmp x (m.kv a).1 = 0 <;> simp [findL, List.find?_cons, h]

/-- A node whose subtrees answer as the lists do. -/
theorem look_node {cmp : Compare K} (hc : cmp.ThreeWay) {m : Heap K V} {x : K} {l r : T} {i : Nat} {A B : List Nat}
    (hl : cmp x (m.kv i).1 = -1 → lookT cmp m x l = findL cmp m x A) (hr : cmp x (m.kv i).1 = 1 → lookT cmp m x r = findL cmp m x B)
    (hA : ∀ y ∈ A, cmp (m.kv y).1 (m.kv i).1 < 0) (hB : ∀ y ∈ B, cmp (m.kv i).1 (m.kv y).1 < 0) :
    lookT cmp m x (.node l i r) = findL cmp m x (A ++ i :: B) := by
  rw [lookT, findL_append, findL_cons]
  rcases hc.range x (m.kv i).1 with h | h | h
  · rw [if_pos h, hl h, if_neg (by omega), findL_none (L := B), Option.or_none]
    intro y hy; have := hc.lt_trans (show cmp x (m.kv i).1 < 0 by omega) (hB y hy); omega
  · rw [if_neg (by omega), if_neg (by omega), if_pos h, findL_none (L := A), Option.none_or]
    intro y hy hh
    have h1 := hA y hy
    have h2 := hc.lt_of_le_of_lt (show cmp x (m.kv y).1 ≤ 0 by omega) h1
    omega
  · rw [if_neg (by omega), if_pos h, if_neg (by omega), hr h, findL_none (L := A), Option.none_or]
    intro y hy hh
    have h2 := hc.lt_of_le_of_lt (show cmp x (m.kv y).1 ≤ 0 by omega) (hA y hy)
    omega

/-- In a tree with ascending keys a search finds what is there. -/
theorem look_sorted {cmp : Compare K} (hc : cmp.ThreeWay) {m : Heap K V} (x : K) : ∀ (t : T), Asc cmp m t.ids → lookT cmp m x t = findL cmp m x t.ids := by
  intro t
  induction t with
  | nil => intro _; rfl
  | node l i r ihl ihr =>
    intro ha
    simp only [Asc, T.ids, List.pairwise_append, List.pairwise_cons, List.mem_cons] at ha
    obtain ⟨al, ⟨ai, ar⟩, alr⟩ := ha
    exact look_node hc (fun _ => ihl al) (fun _ => ihr ar) (fun y hy => alr y hy i (.inl rfl)) ai

/-- A tree with two neighbours in the wrong order: a search answers as if one of the two were not there, always the same. -/
theorem look_swap {cmp : Compare K} (hc : cmp.ThreeWay) {m : Heap K V} : ∀ (t : T) (A : List Nat) (a b : Nat) (B : List Nat), t.ids = A ++ a :: b :: B →
    Asc cmp m (A ++ b :: a :: B) →
    (∀ x, lookT cmp m x t = findL cmp m x (A ++ a :: B)) ∨ (∀ x, lookT cmp m x t = findL cmp m x (A ++ b :: B)) := by
  intro t
  induction t with
  | nil => intro A a b B h; simp [T.ids] at h
  | node l i r ihl ihr =>
    intro A a b B h ha
    have ha' := ha
    simp only [Asc, List.pairwise_append, List.pairwise_cons, List.mem_cons] at ha
    obtain ⟨aA, ⟨hb, hA, aB⟩, hAB⟩ := ha
    have hba : cmp (m.kv b).1 (m.kv a).1 < 0 := hb a (.inl rfl)
    rw [T.ids] at h
    rcases List.append_eq_append_iff.1 h with ⟨C, h1, h2⟩ | ⟨C, h1, h2⟩
    · -- the root is in `A`, or is `a`
      cases C with
      | nil =>
        simp only [List.nil_append, List.cons.injEq] at h2
        obtain ⟨rfl, h2⟩ := h2
        simp only [List.append_nil] at h1
        subst h1
        left
        intro x
        refine look_node hc (fun _ => look_sorted hc x l aA) (fun hx => ?_) (fun y hy => hAB y hy i (.inr (.inl rfl))) hA
        rw [look_sorted hc x r (by rw [h2, Asc, List.pairwise_cons]; exact ⟨fun y hy => hb y (.inr hy), aB⟩), h2, findL_cons, if_neg]
        intro hh
        have := hc.lt_of_le_of_lt (show cmp x (m.kv b).1 ≤ 0 by omega) hba
        omega
      | cons c C =>
        simp only [List.cons_append, List.cons.injEq] at h2
        obtain ⟨rfl, h2⟩ := h2
        subst h1
        have asc2 : Asc cmp m (C ++ b :: a :: B) := by
          rw [Asc, List.append_assoc, List.pairwise_append] at ha'
          exact (List.pairwise_cons.1 ha'.2.1).2
        simp only [List.pairwise_append, List.pairwise_cons] at aA
        have below : ∀ y, y ∈ C ∨ y = a ∨ y = b ∨ y ∈ B → cmp (m.kv i).1 (m.kv y).1 < 0 := by
          rintro y (hy | rfl | rfl | hy)
          · exact aA.2.1.1 y hy
          · exact hAB i (by simp) y (by simp)
          · exact hAB i (by simp) y (by simp)
          · exact hAB i (by simp) y (by simp [hy])
        rcases ihr C a b B h2 asc2 with g | g
        · left; intro x
          rw [List.append_assoc, List.cons_append]
          exact look_node hc (fun _ => look_sorted hc x l aA.1) (fun _ => g x) (fun y hy => aA.2.2 y hy i (by simp))
            (fun y hy => below y (by simp at hy; tauto))
        · right; intro x
          rw [List.append_assoc, List.cons_append]
          exact look_node hc (fun _ => look_sorted hc x l aA.1) (fun _ => g x) (fun y hy => aA.2.2 y hy i (by simp))
            (fun y hy => below y (by simp at hy; tauto))
    · cases C with
      | nil =>
        simp only [List.nil_append, List.cons.injEq] at h2
        obtain ⟨rfl, h2⟩ := h2
        simp only [List.append_nil] at h1
        left
        intro x
        refine look_node hc (fun _ => (look_sorted hc x l (h1 ▸ aA)).trans (by rw [h1])) (fun hx => ?_) (fun y hy => hAB y hy a (.inr (.inl rfl))) hA
        rw [look_sorted hc x r (by rw [← h2, Asc, List.pairwise_cons]; exact ⟨fun y hy => hb y (.inr hy), aB⟩), ← h2, findL_cons, if_neg]
        intro hh
        have := hc.lt_of_le_of_lt (show cmp x (m.kv b).1 ≤ 0 by omega) hba
        omega
      | cons c C =>
        simp only [List.cons_append, List.cons.injEq] at h2
        obtain ⟨rfl, h2⟩ := h2
        cases C with
        | nil =>
          simp only [List.nil_append, List.cons.injEq] at h2
          obtain ⟨rfl, rfl⟩ := h2
          right
          intro x
          refine look_node hc (fun hx => ?_) (fun _ => look_sorted hc x r aB) (fun y hy => hAB y hy b (.inl rfl)) (fun y hy => hb y (.inr hy))
          rw [look_sorted hc x l (by rw [h1, Asc, List.pairwise_append]; exact ⟨aA, by simp, fun y hy z hz => by simp at hz; subst hz; exact hAB y hy _ (by simp)⟩), h1,
            findL_append, findL_none (L := [a]), Option.or_none]
          intro y hy
          simp at hy; subst hy
          have := hc.lt_trans (show cmp x (m.kv b).1 < 0 by omega) hba
          omega
        | cons d C =>
          simp only [List.cons_append, List.cons.injEq] at h2
          obtain ⟨rfl, rfl⟩ := h2
          have asc2 : Asc cmp m (A ++ b :: a :: C) := by
            have e : A ++ b :: a :: (C ++ i :: r.ids) = (A ++ b :: a :: C) ++ i :: r.ids := by simp
            rw [Asc, e, List.pairwise_append] at ha'
            exact ha'.1
          have above : ∀ y, y ∈ A ∨ y = a ∨ y = b ∨ y ∈ C → cmp (m.kv y).1 (m.kv i).1 < 0 := by
            rintro y (hy | rfl | rfl | hy)
            · exact hAB y hy i (by simp)
            · exact hA i (by simp)
            · exact hb i (by simp)
            · simp only [List.pairwise_append, List.pairwise_cons] at aB
              exact aB.2.2 y hy i (by simp)
          simp only [List.pairwise_append, List.pairwise_cons] at aB
          rcases ihl A a b C h1 asc2 with g | g
          · left; intro x
            have := look_node (r := r) (B := r.ids) hc (fun _ => g x) (fun _ => look_sorted hc x r aB.2.1.2) (fun y hy => above y (by simp at hy; tauto)) aB.2.1.1
            simpa using this
          · right; intro x
            have := look_node (r := r) (B := r.ids) hc (fun _ => g x) (fun _ => look_sorted hc x r aB.2.1.2) (fun y hy => above y (by simp at hy; tauto)) aB.2.1.1
            simpa using this

/-- Where in the order a search leaves a tree with ascending keys. -/
theorem leaves_place {cmp : Compare K} (hc : cmp.ThreeWay) {m : Heap K V} {k : K} : ∀ (t : T) (p : Option Nat), Rep m p t → Asc cmp m t.ids →
    ∀ o i, t.root = some o → Leaves cmp m k o i →
    ∃ A B, t.ids = A ++ i :: B ∧ (∀ y ∈ A, cmp (m.kv y).1 k < 0) ∧ (∀ y ∈ B, cmp k (m.kv y).1 < 0) := by
  intro t
  induction t with
  | nil => intro p _ _ o i h; cases h
  | node l j r ihl ihr =>
    rintro p ⟨h1, h2, h3, h4, h5⟩ ha o i ho lv
    simp only [T.root, Option.some.injEq] at ho
    subst ho
    simp only [Asc, T.ids, List.pairwise_append, List.pairwise_cons, List.mem_cons] at ha
    obtain ⟨al, ⟨ai, ar⟩, alr⟩ := ha
    have low : cmp k (m.kv j).1 = -1 → ∀ y ∈ r.ids, cmp k (m.kv y).1 < 0 := fun h y hy => hc.lt_trans (by omega) (ai y hy)
    have high : cmp k (m.kv j).1 = 1 → ∀ y ∈ l.ids, cmp (m.kv y).1 k < 0 := fun h y hy =>
      hc.lt_trans (alr y hy j (.inl rfl)) ((hc.pos_iff _ _).1 (by omega))
    have nilOf : ∀ t : T, t.root = none → t.ids = [] := by intro t h; cases t; rfl; cases h
    cases lv with
    | leftEnd h hl =>
      refine ⟨[], r.ids, ?_, by simp, low h⟩
      rw [T.ids, nilOf l (h2 ▸ hl)]
    | rightEnd h hr =>
      refine ⟨l.ids, [], ?_, high h, by simp⟩
      rw [T.ids, nilOf r (h3 ▸ hr)]
    | left h hl hj =>
      obtain ⟨A, B, e, f, g⟩ := ihl _ h4 al _ i (h2 ▸ hl) hj
      refine ⟨A, B ++ j :: r.ids, by simp [T.ids, e], f, ?_⟩
      intro y hy
      simp only [List.mem_append, List.mem_cons] at hy
      rcases hy with hy | rfl | hy
      · exact g y hy
      · omega
      · exact low h y hy
    | right h hr hj =>
      obtain ⟨A, B, e, f, g⟩ := ihr _ h5 ar _ i (h3 ▸ hr) hj
      refine ⟨l.ids ++ j :: A, B, by simp [T.ids, e], ?_, g⟩
      intro y hy
      simp only [List.mem_append, List.mem_cons] at hy
      rcases hy with hy | rfl | hy
      · exact high h y hy
      · exact (hc.pos_iff _ _).1 (by omega)
      · exact f y hy

theorem find_map {cmp : Compare K} {m : Heap K V} {x : K} (L : List Nat) :
    (findL cmp m x L).map (fun i => (m.kv i).2) = specGet cmp x (L.map m.kv) := by
  rw [findL, specGet, List.find?_map, Option.map_map]; rfl

theorem get_look {cmp : Compare K} {t : Tree K V} {tr : T} (h : Holds t.heap tr) (x : K) {L : List Nat} (hl : lookT cmp t.heap x tr = findL cmp t.heap x L) :
    get cmp t x = .ok (specGet cmp x (L.map t.heap.kv)) := by
  rw [get, search, h.root, searchFrom_look cmp x tr none h.rep, hl, ← find_map]
  cases findL cmp t.heap x L <;> rfl

/-- A search leaves the tree at one node only. -/
theorem Leaves.det {cmp : Compare K} {m : Heap K V} {k : K} {o i j : Nat} (h : Leaves cmp m k o i) (h' : Leaves cmp m k o j) : i = j := by
  induction h with
  | leftEnd h hl =>
    cases h' with
    | leftEnd => rfl
    | rightEnd => rfl
    | left h1 h2 _ => rw [hl] at h2; cases h2
    | right h1 _ _ => rw [h] at h1; cases h1
  | rightEnd h hl =>
    cases h' with
    | leftEnd => rfl
    | rightEnd => rfl
    | left h1 _ _ => rw [h] at h1; cases h1
    | right h1 h2 _ => rw [hl] at h2; cases h2
  | left h hl _ ih =>
    cases h' with
    | leftEnd h1 h2 => rw [hl] at h2; cases h2
    | rightEnd h1 _ => rw [h] at h1; cases h1
    | left h1 h2 h3 => rw [hl, Option.some.injEq] at h2; subst h2; exact ih h3
    | right h1 _ _ => rw [h] at h1; cases h1
  | right h hl _ ih =>
    cases h' with
    | leftEnd h1 h2 => rw [h] at h1; cases h1
    | rightEnd h1 h2 => rw [hl] at h2; cases h2
    | left h1 _ _ => rw [h] at h1; cases h1
    | right h1 h2 h3 => rw [hl, Option.some.injEq] at h2; subst h2; exact ih h3

/-- C113: one `Put` of a new key into a tree whose keys ascend, after any history.  `as` are the entries below the key, `bs` those above.
Either the search for the key leaves the tree on the right: then the key gets its place and every lookup answers as the map does.
Or it leaves it on the left, at the successor `a` of the key: then the key is placed behind `a`, the entry behind `a` may be lost (`d`), and
every lookup answers as the map with all the other entries and one of the two, `a` or the new one: the other is never found. -/
theorem put_break {cmp : Compare K} (hc : cmp.ThreeWay) (z : K × V) (ops : List (Op K V)) {s : Tree K V × List Nat} (e : run cmp (new z, []) ops = .ok s)
    {L : List Nat} (hL : Navigable s.1.heap (s.1.heap.parent 0) L) (ha : (L.map s.1.heap.kv).Pairwise (fun a b => cmp a.1 b.1 < 0))
    (k : K) (v : V) (hk : has cmp s.1 k = .ok false) :
    ∃ t' L' as bs, put cmp s.1 k v = .ok (true, t') ∧ Navigable t'.heap (t'.heap.parent 0) L' ∧ L.map s.1.heap.kv = as ++ bs ∧
      (∀ e ∈ as, cmp e.1 k < 0) ∧ (∀ e ∈ bs, cmp k e.1 < 0) ∧
      ((L'.map t'.heap.kv = as ++ (k, v) :: bs ∧ (∀ x, get cmp t' x = .ok (specGet cmp x (as ++ (k, v) :: bs))) ∧
          ∀ o i, s.1.heap.parent 0 = some o → Leaves cmp s.1.heap k o i → cmp k (s.1.heap.kv i).1 = 1) ∨
       ∃ (a : K × V) (d : Option (K × V)) (bs' : List (K × V)), bs = a :: (d.toList ++ bs') ∧ L'.map t'.heap.kv = as ++ a :: (k, v) :: bs' ∧
          ((∀ x, get cmp t' x = .ok (specGet cmp x (as ++ a :: bs'))) ∨ (∀ x, get cmp t' x = .ok (specGet cmp x (as ++ (k, v) :: bs')))) ∧
          ∃ o i, s.1.heap.parent 0 = some o ∧ Leaves cmp s.1.heap k o i ∧ cmp k (s.1.heap.kv i).1 = -1 ∧ s.1.heap.kv i = a) := by
  obtain ⟨b, t', L', e1, nav, h⟩ := put_exact cmp z ops e hL k v
  have e2 : run cmp (new z, []) (ops ++ [.put k v]) = .ok (t', s.2) := by
    rw [run_append cmp ops _ e, run_cons (s' := (t', s.2)) (by rw [step, e1]; rfl)]; rfl
  obtain ⟨tr, U, ok, -, -⟩ := run_inv cmp ops (inv_new z) e
  obtain ⟨tr', U', ok', -, -⟩ := run_inv cmp _ (inv_new z) e2
  obtain rfl := hL.unique ok.holds.navigable
  obtain rfl := nav.unique ok'.holds.navigable
  have hs : search cmp s.1.heap k = .ok none := by
    rw [has] at hk
    cases hh : search cmp s.1.heap k with
    | ok r => rw [hh] at hk; cases r with
      | none => rfl
      | some i => cases hk
    | panic p => rw [hh] at hk; cases hk
    | hang => rw [hh] at hk; cases hk
  have asc : Asc cmp s.1.heap tr.ids := by rw [List.pairwise_map] at ha; exact ha
  rcases h with ⟨i, -, h, -⟩ | ⟨-, rfl, -, n, hn, -, hkv, h⟩
  · rw [hs] at h; cases h
  have kvn : t'.heap.kv n = (k, v) := by rw [hkv, if_pos rfl]
  have kvo : ∀ j ∈ tr.ids, t'.heap.kv j = s.1.heap.kv j := fun j hj => by rw [hkv, if_neg]; rintro rfl; exact hn hj
  have mapo : ∀ M : List Nat, (∀ j ∈ M, j ∈ tr.ids) → M.map t'.heap.kv = M.map s.1.heap.kv := fun M hM => List.map_congr_left (fun j hj => kvo j (hM j hj))
  -- lists of old nodes with the new one at a place that fits
  have ascT : ∀ A B : List Nat, Asc cmp s.1.heap (A ++ B) → (∀ j ∈ A ++ B, j ∈ tr.ids) → (∀ y ∈ A, cmp (s.1.heap.kv y).1 k < 0) → (∀ y ∈ B, cmp k (s.1.heap.kv y).1 < 0) →
      Asc cmp t'.heap (A ++ n :: B) := by
    intro A B h1 hsub h2 h3
    rw [Asc, List.pairwise_append] at h1 ⊢
    refine ⟨?_, ?_, ?_⟩
    · exact List.Pairwise.imp_of_mem (fun {a b} pa pb h => by rw [kvo a (hsub a (by simp [pa])), kvo b (hsub b (by simp [pb]))]; exact h) h1.1
    · rw [List.pairwise_cons]
      refine ⟨fun y hy => by rw [kvn, kvo y (hsub y (by simp [hy]))]; exact h3 y hy, ?_⟩
      exact List.Pairwise.imp_of_mem (fun {a b} pa pb h => by rw [kvo a (hsub a (by simp [pa])), kvo b (hsub b (by simp [pb]))]; exact h) h1.2.1
    · intro a pa b pb
      rw [kvo a (hsub a (by simp [pa]))]
      rcases List.mem_cons.1 pb with rfl | pb
      · rw [kvn]; exact h2 a pa
      · rw [kvo b (hsub b (by simp [pb]))]; exact h1.2.2 a pa b pb
  rcases h with ⟨h1, h2⟩ | ⟨as, i, bs, h1, h2, o, ho, lv⟩
  · refine ⟨t', _, [], [], e1, nav, by simp [h1], by simp, by simp, .inl ⟨by simp [h2, kvn], fun x => ?_, ?_⟩⟩
    · have := get_look (cmp := cmp) ok'.holds x (L := tr'.ids) (look_sorted hc x tr' (by rw [h2]; exact List.pairwise_singleton _ _))
      rw [this, h2]; simp [kvn]
    · intro o i ho
      rw [ok.holds.root] at ho
      cases tr with
      | nil => cases ho
      | node l j r => simp [T.ids] at h1
  obtain ⟨A, B, hAB, hA, hB⟩ := leaves_place hc tr none ok.holds.rep asc o i (ok.holds.root ▸ ho) lv
  have hpos : as = A ∧ (s.1.heap.right i).toList ++ bs = B := by
    have hnd := ok.holds.nodup
    rw [hAB] at h1 hnd
    rw [List.nodup_append] at hnd
    obtain ⟨n1, n2, n3⟩ := hnd
    rcases List.append_eq_append_iff.1 h1 with ⟨C, c1, c2⟩ | ⟨C, c1, c2⟩
    · cases C with
      | nil => simp at c1 c2; exact ⟨c1, c2.symm⟩
      | cons c C =>
        simp only [List.cons_append, List.cons.injEq] at c2
        exact absurd c2.2 (fun hh => (List.nodup_cons.1 n2).1 (by rw [hh]; simp))
    · cases C with
      | nil => simp at c1 c2; exact ⟨c1.symm, c2⟩
      | cons c C =>
        simp only [List.cons_append, List.cons.injEq] at c2
        exact absurd rfl (n3 i (by rw [c1, ← c2.1]; simp) i (by simp))
  obtain ⟨rfl, rfl⟩ := hpos
  have sub1 : ∀ j, j ∈ as ∨ j = i ∨ j ∈ bs → j ∈ tr.ids := by intro j hj; rw [hAB]; simp; tauto
  rcases lv.end with ⟨hki, hl⟩ | ⟨hki, hr⟩
  · -- on the left
    have hlt : cmp k (s.1.heap.kv i).1 < 0 := by omega
    have hsubl : (as ++ i :: bs).Sublist tr.ids := by
      rw [hAB]; exact List.Sublist.append_left (List.Sublist.cons_cons _ (List.sublist_append_right _ _)) _
    have asc2 : Asc cmp s.1.heap (as ++ i :: bs) := List.Pairwise.sublist hsubl asc
    have swap := look_swap hc (m := t'.heap) tr' as i n bs h2 (ascT as (i :: bs) asc2 (fun j hj => sub1 j (by simpa using hj)) hA (by
      intro y hy
      rcases List.mem_cons.1 hy with rfl | hy
      · exact hlt
      · exact hB y (by simp [hy])))
    refine ⟨t', _, as.map s.1.heap.kv, (i :: ((s.1.heap.right i).toList ++ bs)).map s.1.heap.kv, e1, nav, by rw [hAB]; simp, ?_, ?_,
      .inr ⟨s.1.heap.kv i, (s.1.heap.right i).map s.1.heap.kv, bs.map s.1.heap.kv, ?_, ?_, ?_, o, i, ho, lv, hki, rfl⟩⟩
    · simpa using hA
    · intro y hy
      simp only [List.mem_map, List.mem_cons] at hy
      obtain ⟨y, rfl | hy, rfl⟩ := hy
      · exact hlt
      · exact hB y hy
    · cases s.1.heap.right i <;> simp
    · rw [h2]; simp only [List.map_append, List.map_cons, kvn, kvo i (sub1 i (by simp)), mapo as (fun j hj => sub1 j (.inl hj)), mapo bs (fun j hj => sub1 j (.inr (.inr hj)))]
    · rcases swap with g | g
      · left; intro x
        rw [get_look ok'.holds x (g x)]
        simp only [List.map_append, List.map_cons, kvo i (sub1 i (by simp)), mapo as (fun j hj => sub1 j (.inl hj)), mapo bs (fun j hj => sub1 j (.inr (.inr hj)))]
      · right; intro x
        rw [get_look ok'.holds x (g x)]
        simp only [List.map_append, List.map_cons, kvn, mapo as (fun j hj => sub1 j (.inl hj)), mapo bs (fun j hj => sub1 j (.inr (.inr hj)))]
  · rw [hr] at hAB hB
    simp only [Option.toList_none, List.nil_append] at hAB hB
    have hlt : cmp (s.1.heap.kv i).1 k < 0 := (hc.pos_iff _ _).1 (by omega)
    have h2' : tr'.ids = (as ++ [i]) ++ n :: bs := by simp [h2]
    have mapL : tr'.ids.map t'.heap.kv = (as ++ [i]).map s.1.heap.kv ++ (k, v) :: bs.map s.1.heap.kv := by
      rw [h2', List.map_append, List.map_cons, kvn, mapo (as ++ [i]) (fun j hj => sub1 j (by simp at hj; tauto)), mapo bs (fun j hj => sub1 j (.inr (.inr hj)))]
    have asc2 : Asc cmp t'.heap tr'.ids := by
      rw [h2']
      refine ascT (as ++ [i]) bs (by have := asc; rw [hAB] at this; simpa using this) (fun j hj => sub1 j (by simp at hj; tauto)) ?_ (fun y hy => hB y hy)
      intro y hy
      simp only [List.mem_append, List.mem_singleton] at hy
      rcases hy with hy | rfl
      · exact hA y hy
      · exact hlt
    refine ⟨t', _, (as ++ [i]).map s.1.heap.kv, bs.map s.1.heap.kv, e1, nav, by rw [hAB]; simp, ?_, by simpa using hB, .inl ⟨mapL, fun x => ?_, ?_⟩⟩
    · intro y hy
      simp only [List.mem_map, List.mem_append, List.mem_singleton] at hy
      obtain ⟨y, hy | rfl, rfl⟩ := hy
      · exact hA y hy
      · exact hlt
    · rw [get_look ok'.holds x (look_sorted hc x tr' asc2), mapL]
    · intro o' i' ho' lv'
      rw [ho, Option.some.injEq] at ho'; subst ho'
      rw [← lv.det lv']; exact hki

/-- C113: the entries that stand neither directly nor next to directly above the new key are all still found with their values. -/
theorem put_others_kept {cmp : Compare K} (hc : cmp.ThreeWay) (z : K × V) (ops : List (Op K V)) {s : Tree K V × List Nat} (e : run cmp (new z, []) ops = .ok s)
    {L : List Nat} (hL : Navigable s.1.heap (s.1.heap.parent 0) L) (ha : (L.map s.1.heap.kv).Pairwise (fun a b => cmp a.1 b.1 < 0))
    (k : K) (v : V) (hk : has cmp s.1 k = .ok false) :
    ∃ t', put cmp s.1 k v = .ok (true, t') ∧ ∀ A B, L.map s.1.heap.kv = A ++ B → (∀ e ∈ A, cmp e.1 k < 0) → (∀ e ∈ B, cmp k e.1 < 0) →
      ∀ y ∈ A ++ B.drop 2, get cmp t' y.1 = .ok (some y.2) := by
  obtain ⟨t', L', as, bs, e1, -, hab, h1, h2, h⟩ := put_break hc z ops e hL ha k v hk
  refine ⟨t', e1, fun A B hAB hA hB y hy => ?_⟩
  obtain ⟨rfl, rfl⟩ : A = as ∧ B = bs := by
    rw [hab] at hAB
    rcases List.append_eq_append_iff.1 hAB with ⟨C, c1, c2⟩ | ⟨C, c1, c2⟩
    · cases C with
      | nil => simp at c1 c2; exact ⟨c1, c2.symm⟩
      | cons c C => have a1 := hA c (by rw [c1]; simp); have a2 := (hc.flip _ _).1 (h2 c (by rw [c2]; simp)); omega
    · cases C with
      | nil => simp at c1 c2; exact ⟨c1.symm, c2⟩
      | cons c C => have a1 := h1 c (by rw [c1]; simp); have a2 := (hc.flip _ _).1 (hB c (by rw [c2]; simp)); omega
  have pick : ∀ (X : List (K × V)), X.Pairwise (fun a b => cmp a.1 b.1 < 0) → y ∈ X → specGet cmp y.1 X = some y.2 := by
    intro X hX hy
    obtain ⟨P, Q, rfl⟩ := List.append_of_mem hy
    refine specGet_found (fun a pa => ?_) (hc.self _)
    have := (List.pairwise_append.1 hX).2.2 a pa y (by simp)
    have := (hc.flip _ _).1 this; omega
  rw [hab] at ha
  have ins : ∀ Q : List (K × V), Q.Sublist B → (A ++ (k, v) :: Q).Pairwise (fun a b => cmp a.1 b.1 < 0) := by
    intro Q hQ
    have := List.Pairwise.sublist (List.Sublist.append_left hQ A) ha
    rw [List.pairwise_append] at this ⊢
    refine ⟨this.1, List.pairwise_cons.2 ⟨fun y hy => h2 y (hQ.subset hy), this.2.1⟩, fun a pa b pb => ?_⟩
    rcases List.mem_cons.1 pb with rfl | pb
    · exact h1 a pa
    · exact this.2.2 a pa b pb
  rcases h with ⟨-, g, -⟩ | ⟨a, d, bs', rfl, -, g, -⟩
  · rw [g, pick _ (ins B (List.Sublist.refl _))]
    simp only [List.mem_append, List.mem_cons] at hy ⊢
    exact hy.imp_right (fun h => .inr (List.mem_of_mem_drop h))
  · have hy' : y ∈ A ∨ y ∈ bs' := by
      simp only [List.mem_append] at hy
      refine hy.imp_right (fun h => ?_)
      cases d with
      | none => simp at h; exact List.mem_of_mem_tail h
      | some d => simpa using h
    have sub : (a :: bs').Sublist (a :: (d.toList ++ bs')) := List.Sublist.cons_cons _ (List.sublist_append_right _ _)
    rcases g with g | g
    · rw [g, pick _ (List.Pairwise.sublist (List.Sublist.append_left sub A) ha)]
      simp; tauto
    · rw [g, pick _ (ins bs' ((List.sublist_cons_self _ _).trans sub))]
      simp; tauto

/-! ### The hypotheses are met, and all three cases occur -/

/-- Applying a check to the result of a run. -/
def chk {α : Type} (r : Res α) (p : α → Bool) : Bool := match r with | .ok a => p a | _ => false

theorem chk_ok {α : Type} {r : Res α} {p : α → Bool} (h : chk r p = true) : ∃ a, r = .ok a ∧ p a = true := by
  cases r with
  | ok a => exact ⟨a, rfl, h⟩
  | panic => cases h
  | hang => cases h

/-- What a history and one more `Put` make of a map of integers: the entries before, those after, in the order of iteration, and the answers
of `Get` after. -/
def probe (ops : List (Op Int Int)) (k v : Int) (before after : List (Int × Int)) (gets : List (Int × Option Int)) : Bool :=
  chk (run Fn.comp (new ((0 : Int), (0 : Int)), []) ops) (fun s => chk (toList s.1) (fun l => l == before) &&
    chk (put Fn.comp s.1 k v) (fun r => r.1 && chk (minChild r.2.heap (r.2.heap.parent 0)) (fun o => chk (drain r.2.heap o) (fun l => l == after)) &&
      gets.all (fun g => chk (get Fn.comp r.2 g.1) (fun x => x == g.2))))

/-- The key gets its place. -/
theorem case_right : probe [.put 1 10, .put 3 30, .put 4 40] 2 20 [(1, 10), (3, 30), (4, 40)] [(1, 10), (2, 20), (3, 30), (4, 40)]
    [(1, some 10), (2, some 20), (3, some 30), (4, some 40)] = true := by cbv

/-- The key goes behind its successor and is not found; the entry behind that one is lost. -/
theorem case_new_hidden : probe [.put 1 10, .put 2 20, .put 4 40, .put 5 50] 3 30 [(1, 10), (2, 20), (4, 40), (5, 50)] [(1, 10), (2, 20), (4, 40), (3, 30)]
    [(1, some 10), (2, some 20), (3, none), (4, some 40), (5, none)] = true := by cbv

/-- The key goes behind its successor and hides it. -/
theorem case_old_hidden : probe [.put 1 10, .put 2 20, .put 3 30, .delete 3] 0 5 [(1, 10), (2, 20)] [(1, 10), (0, 5), (2, 20)]
    [(0, some 5), (1, none), (2, some 20)] = true := by cbv

/-- The hypotheses of `put_break` at the states of the three histories (here the third). -/
example : ∃ s L, run Fn.comp (new ((0 : Int), (0 : Int)), []) [.put 1 10, .put 2 20, .put 3 30, .delete 3] = .ok s ∧
    Navigable s.1.heap (s.1.heap.parent 0) L ∧ (L.map s.1.heap.kv).Pairwise (fun a b => Fn.comp a.1 b.1 < 0) ∧ has Fn.comp s.1 0 = .ok false := by
  have h : chk (run Fn.comp (new ((0 : Int), (0 : Int)), []) [.put 1 10, .put 2 20, .put 3 30, .delete 3]) (fun s => chk (has Fn.comp s.1 0) (fun b => !b)) = true := by cbv
  obtain ⟨s, e, h⟩ := chk_ok h
  obtain ⟨b, hb, h⟩ := chk_ok h
  have ha : Ascending Fn.comp [] [.put (1 : Int) (10 : Int), .put 2 20, .put 3 30, .delete 3] := by
    simp [Ascending, specStep, specPut, Fn.comp]
  obtain ⟨s', e', tr, U, hh⟩ := Sim.run Fn.comp_strict.toThreeWay _ (g := False) (s := (new ((0 : Int), (0 : Int)), [])) (Sim.new _ Fn.comp _) ha (by simp)
  rw [e, Res.ok.injEq] at e'
  subst e'
  refine ⟨s, tr.ids, e, hh.ok.holds.navigable, List.pairwise_map.2 hh.asc, by rw [hb]; simpa using h⟩

end Gds.RBTree
