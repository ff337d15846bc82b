import Verif.BPlus.Hist

/-! Where `Delete` is exact: maps that fit into one leaf, and the least key. -/

namespace Gds.BPlus
open BT Tree
variable {K V : Type} [Inhabited K] [Inhabited V]

/-- The least key is always found. -/
theorem searchLoop_min (cmp : Compare K) (t : Tree K V) (key : K) (hdeg : 2 ≤ t.degree) : ∀ (d : Nat) (b : BT K V d), Rep t.h b →
    b.KidsOcc t.degree → b.vals.length ≤ 2 * t.degree - 1 → MinHyp cmp key b →
    ∃ q i, searchLoop cmp t (some b.ptr) key = .ok (some q, i, true) := by
  intro d
  induction d with
  | zero =>
    intro b hr ho hlen m
    obtain ⟨q, i, ex, h1, -, h3⟩ := searchLoop_spec cmp t key hdeg 0 b hr ho hlen
    have := h3 m.lawful m.sorted (by simp [seps]) m.mem
    subst this
    exact ⟨q, i, h1⟩
  | succ d ih =>
    intro b hr hocc hlen m
    obtain ⟨p, vs, ks, rfl⟩ := exists_inner b
    obtain ⟨r1, r2, r3, r4, r5, r6⟩ := (rep_inner _ _ _ _).1 hr
    simp only [inner_ptr, inner_vals] at hlen ⊢
    obtain ⟨pos, mid', ex, h1, h2, h3, h4, h5⟩ := bsearch_post cmp t p vs.length key hlen _ 0 vs.length 0 (Nat.le_refl _) (Nat.zero_le _) (Nat.le_refl _)
    have hsv := sorted_vals r4 m.sorted
    have hpos : pos = 0 := by
      by_contra hne
      obtain ⟨h6, -⟩ := h5 (by
        intro i j hij hj
        rw [r3 i (by omega), r3 j hj]
        exact List.pairwise_iff_getElem.1 hsv i j (by omega) hj hij) m.lawful (by omega) (by intros; omega)
      have h7 := h6 0 (by omega)
      rw [r3 0 (by omega)] at h7
      have hmem : vs[0] ∈ (inner p vs ks).inter := by
        cases ks with
        | nil => simp at r4
        | cons k ks =>
          cases vs with
          | nil => simp at h3; omega
          | cons v vs =>
            cases ks with
            | nil => simp at r4
            | cons k2 ks =>
              rw [inner_inter0, List.zip_cons_cons, List.flatMap_cons]
              simp
      have := m.le _ hmem
      omega
    subst hpos
    cases ks with
    | nil => simp at r4
    | cons k ks =>
      have hk : t.h.children p 0 = some k.ptr := r5 0 (by simp)
      have hb : 0 < 2 * t.degree := by omega
      have hko := (inner_kidsOcc _ _ _ _).1 hocc k (by simp)
      obtain ⟨q, i, e⟩ := ih k (r6 k (by simp)) hko.2 hko.1.2 (m.kid hdeg hr hocc)
      refine ⟨q, i, ?_⟩
      rw [searchLoop]
      simp only [getNum, r2, Res.bind_ok, h1, getLeaf, r1, Bool.false_eq_true, if_false, getKid, hb, if_true, hk, e]

/-- The first of a tree in order is an entry. -/
theorem inter_head {h : Heap K V} {M : Nat} (hM : 2 ≤ M) : ∀ {d : Nat} (b : BT K V d), Rep h b → b.KidsOcc M → 1 ≤ b.vals.length →
    b.inter.head? = b.entries.head?
  | 0, b, _, _, _ => rfl
  | d + 1, b, hr, ho, _ => by
    obtain ⟨p, vs, ks, rfl⟩ := exists_inner b
    obtain ⟨r1, r2, r3, r4, r5, r6⟩ := (rep_inner _ _ _ _).1 hr
    cases ks with
    | nil => simp at r4
    | cons k ks =>
      have hko := (inner_kidsOcc _ _ _ _).1 ho k (by simp)
      have ih := inter_head hM k (r6 k (by simp)) hko.2 (by omega)
      have hne := entries_ne_nil hM k (r6 k (by simp)) hko.2 (by omega)
      rw [inner_inter0, inner_entries, List.flatMap_cons]
      cases he : k.entries with
      | nil => exact absurd he hne
      | cons a l =>
        rw [he] at ih
        cases hi : k.inter with
        | nil => rw [hi] at ih; simp at ih
        | cons a' l' => rw [hi] at ih; simpa using ih

/-- A least stored key of a tree in order. -/
theorem minHyp_of {cmp : Compare K} {t : Tree K V} {d : Nat} {b : BT K V d} (g : Good t b) (hc : cmp.Lawful) (hs : Sorted cmp b.inter) {k : K}
    (hle : ∀ x ∈ b.entries, cmp k x.1 ≤ 0) (hm : ∃ e ∈ b.entries, cmp k e.1 = 0) : MinHyp cmp k b := by
  refine ⟨hc, hs, ?_, hm⟩
  obtain ⟨e, he, hk⟩ := hm
  have hh := inter_head g.pre.deg b g.pre.rep g.pre.occ (vals_pos_of_mem g he)
  cases hi : b.inter with
  | nil => simp
  | cons a l =>
    rw [hi] at hh hs
    have ha : a ∈ b.entries := List.mem_of_mem_head? (by rw [← hh]; rfl)
    intro x hx
    rcases List.mem_cons.1 hx with rfl | hx
    · exact hle _ ha
    · exact hc.trans _ _ _ (hle a ha) ((List.pairwise_cons.1 hs).1 x hx)

/-- `Delete` of the least key removes one entry with that key, and nothing else. -/
theorem delete_least {cmp : Compare K} {t : Tree K V} {d : Nat} {b : BT K V d} (g : Good t b) {k : K} (m : MinHyp cmp k b) :
    ∃ t' d', ∃ b' : BT K V d', delete cmp t k = .ok (t', true) ∧ Good t' b' ∧ t'.degree = t.degree ∧ Sorted cmp b'.inter ∧
      ∃ e, cmp k e.1 = 0 ∧ b.entries = e :: b'.entries := by
  have hck : containsKey cmp t k = .ok true := by
    obtain ⟨q, i, e⟩ := searchLoop_min cmp t k g.pre.deg d b g.pre.rep g.pre.occ g.hi m
    have hsz : t.size ≠ 0 := by
      obtain ⟨e, he, -⟩ := m.mem
      have := List.length_pos_of_mem he
      have := g.size
      omega
    simp [containsKey, search, hsz, g.root, e]
  rcases delete_good cmp t b g k with ⟨-, h⟩ | ⟨-, -, ⟨t', d', b', h, -, post⟩ | ⟨-, h⟩⟩
  · rw [hck] at h; simp at h
  · obtain ⟨h1, h2⟩ := post.least m
    exact ⟨t', d', b', h, post.good, post.degree, h2, h1⟩
  · exact absurd m h

/-! ### Maps that fit into one leaf -/

/-- `Delete` in a tree that is a single leaf. -/
theorem delete_single {cmp : Compare K} (hc : cmp.Lawful) {t : Tree K V} {p : Nat} {vs : List (K × V)} (g : Good t (leaf p vs))
    (hs : Sorted cmp vs) (k : K) :
    (delete cmp t k = .ok (t, false) ∧ ∀ e ∈ vs, cmp k e.1 ≠ 0) ∨
    (∃ t' vs' e, delete cmp t k = .ok (t', true) ∧ Good t' (leaf p vs') ∧ t'.degree = t.degree ∧ cmp k e.1 = 0 ∧ vs.Perm (e :: vs') ∧ Sorted cmp vs') := by
  obtain ⟨o, h1, h2, h3, -⟩ := reads_good cmp t (leaf p vs) g k
  cases o with
  | none =>
    left
    refine ⟨by simp [delete, h3], fun e he hk => ?_⟩
    exact absurd (h2 hc hs (by simp [seps]) ⟨e, he, hk⟩) (by simp)
  | some e0 =>
    right
    obtain ⟨he0, hk0⟩ := h1 e0 rfl
    have hlen : 1 ≤ vs.length := List.length_pos_of_mem he0
    obtain ⟨A, B, hvs, hA, hB, hcase⟩ := deleteNonOne_leaf cmp t p vs k g.pre.rep g.hi hlen
    have hBne : ∃ x B', B = x :: B' ∧ cmp k x.1 = 0 := by
      have hmB : e0 ∈ B := by
        simp only [leaf_entries, hvs, List.mem_append] at he0
        rcases he0 with h | h
        · have := hA e0 h
          have := hc.flip e0.1 k
          omega
        · exact h
      cases B with
      | nil => simp at hmB
      | cons x B' =>
        refine ⟨x, B', rfl, ?_⟩
        have hx := hB x rfl
        rcases List.mem_cons.1 hmB with rfl | hm
        · exact hk0
        · rw [hvs] at hs
          have hxe := (List.pairwise_cons.1 (List.pairwise_append.1 hs).2.1).1 e0 hm
          have h4 : cmp e0.1 k ≤ 0 := by have := hc.flip k e0.1; have := hc.flip e0.1 k; omega
          have := hc.trans _ _ _ hxe h4
          have := hc.flip x.1 k; have := hc.flip k x.1
          omega
    obtain ⟨x, B', rfl, hx⟩ := hBne
    rcases hcase with ⟨hn, -⟩ | ⟨-, hno⟩ | ⟨t', vs', hd, e1, e2, e3, e4, e5, e6, e7, e8, e9⟩
    · simp at hn
    · exact absurd hx (hno x rfl)
    · have hvs' : vs' = A ++ B' := by
        rcases e9 with ⟨e, B2, h, -, h'⟩ | ⟨h, -⟩
        · simp at h; rw [h', h.2]
        · simp at h
      subst hvs'
      have hroot : deleteRoot cmp t k = .ok t' := by
        have hb0 : 0 < 2 * t.degree := by have := g.pre.deg; omega
        have hb1 : 1 < 2 * t.degree := by have := g.pre.deg; omega
        obtain ⟨r1, r2, r3, r4⟩ := (rep_leaf _ _ _).1 g.pre.rep
        simp only [deleteRoot, g.root, leaf_ptr, getNum, Res.bind_ok, getKid, hb0, hb1, if_true, r4, ne_eq, not_true_eq_false, false_and, if_false, hd]
        split <;> rfl
      have hgood : Good t' (leaf p (A ++ B')) := by
        have hp := g.pre
        have hhi := g.hi
        simp only [leaf_vals, hvs] at hhi
        refine ⟨by rw [e2, g.root]; rfl, ⟨e8, by simp, ?_, by rw [e1]; exact hp.deg, trivial, ?_, ?_, ?_⟩, ?_, by simp, ?_⟩
        · intro q hq; rw [e3]; exact hp.lt q hq
        · exact hp.ring.congr (fun q _ => ⟨by rw [e5], by rw [e6]⟩)
        · exact hp.rnodup
        · intro q hq; rw [e3]; exact hp.rlt q hq
        · rw [e1]
          simp at hhi ⊢
          omega
        · rw [e4, g.size]
          simp only [leaf_entries, hvs, List.length_append, List.length_cons]
          omega
      refine ⟨t', A ++ B', x, by simp [delete, h3, hroot], hgood, e1, hx, by rw [hvs]; exact List.perm_middle, ?_⟩
      rw [hvs] at hs
      exact List.Pairwise.sublist ((List.Sublist.refl A).append (List.sublist_cons_self x B')) hs

theorem deleteAll_single {cmp : Compare K} (hc : cmp.Lawful) {p : Nat} : ∀ (ks : List K) (n0 : Nat) (t : Tree K V) (vs : List (K × V)), Good t (leaf p vs) →
    Sorted cmp vs → ∃ t' vs' n, deleteAll cmp t n0 ks = .ok (t', n0 + n) ∧ Good t' (leaf p vs') ∧ t'.degree = t.degree ∧ DelAll cmp ks n vs vs' ∧ Sorted cmp vs' ∧
      vs'.length ≤ vs.length
  | [], n0, t, vs, g, hs => ⟨t, vs, 0, rfl, g, rfl, .nil vs, hs, Nat.le_refl _⟩
  | k :: ks, n0, t, vs, g, hs => by
    rw [deleteAll]
    rcases delete_single hc g hs k with ⟨h, hno⟩ | ⟨t', vs', e, h, g', hd, hk, hp, hs'⟩
    · rw [h]
      obtain ⟨t2, vs2, n, h2, g2, hd2, hD, hs2, hl⟩ := deleteAll_single hc ks n0 t vs g hs
      exact ⟨t2, vs2, n, by simpa using h2, g2, hd2, .miss hno hD, hs2, hl⟩
    · rw [h]
      obtain ⟨t2, vs2, n, h2, g2, hd2, hD, hs2, hl⟩ := deleteAll_single hc ks (n0 + 1) t' vs' g' hs'
      have := hp.length_eq
      simp at this
      refine ⟨t2, vs2, n + 1, ?_, g2, by rw [hd2, hd], .hit hk hp hD, hs2, by omega⟩
      have e : n0 + (n + 1) = n0 + 1 + n := by omega
      rw [e]
      simpa using h2

/-- The calls of the one-leaf theorem. -/
def Plain : Op K V → Prop
  | .insertEqual _ _ | .insertUnique _ _ | .delete _ | .deleteEntryByKey _ | .deleteAll _ => True
  | .deleteByWholeMapping _ _ _ | .clear => False

/-- How many entries a call can add. -/
def adds : Op K V → Nat
  | .insertEqual _ _ | .insertUnique _ _ => 1
  | _ => 0

theorem insert_single {cmp : Compare K} (hc : cmp.Lawful) {t : Tree K V} {p : Nat} {vs : List (K × V)} (g : Good t (leaf p vs)) (hs : Sorted cmp vs)
    (e : K × V) (hlen : vs.length + 1 ≤ 2 * t.degree - 1) :
    ∃ t' p' vs', insert cmp t e = .ok t' ∧ Good t' (leaf p' vs') ∧ t'.degree = t.degree ∧ vs'.Perm (e :: vs) ∧ Sorted cmp vs' := by
  obtain ⟨t', d', b', h1, h2, h3, h4, h5, h6⟩ := insert_spec cmp t (leaf p vs) e g
  have hd : d' = 0 := by
    by_contra hne
    rcases h5 hne with h | h
    · exact h rfl
    · simp at h; omega
  subst hd
  obtain ⟨p', vs', rfl⟩ := exists_leaf b'
  exact ⟨t', p', vs', h1, h2, h3, h4, h6 hc hs⟩

theorem step_single {cmp : Compare K} (hc : cmp.Lawful) {t : Tree K V} {p : Nat} {vs : List (K × V)} (g : Good t (leaf p vs)) (hs : Sorted cmp vs)
    (op : Op K V) (hop : Plain op) (hlen : vs.length + adds op ≤ 2 * t.degree - 1) :
    ∃ t' o p' vs', step cmp t op = .ok (t', o) ∧ Good t' (leaf p' vs') ∧ t'.degree = t.degree ∧ Effect cmp op o vs vs' ∧ Sorted cmp vs' ∧
      vs'.length ≤ vs.length + adds op := by
  have hdel : ∀ k, ∃ t' o p' vs', delete cmp t k = .ok (t', o) ∧ Good t' (leaf p' vs') ∧ t'.degree = t.degree ∧
      ((o = true ∧ ∃ e, cmp k e.1 = 0 ∧ vs.Perm (e :: vs')) ∨ (o = false ∧ (∀ e ∈ vs, cmp k e.1 ≠ 0) ∧ vs' = vs)) ∧ Sorted cmp vs' ∧ vs'.length ≤ vs.length := by
    intro k
    rcases delete_single hc g hs k with ⟨h, hno⟩ | ⟨t', vs', e, h, g', hd, hk, hp, hs'⟩
    · exact ⟨t, false, p, vs, h, g, rfl, Or.inr ⟨rfl, hno, rfl⟩, hs, Nat.le_refl _⟩
    · have := hp.length_eq
      simp at this
      exact ⟨t', true, p, vs', h, g', hd, Or.inl ⟨rfl, e, hk, hp⟩, hs', by omega⟩
  cases op with
  | insertEqual k v =>
    obtain ⟨t', p', vs', h1, h2, h3, h4, h5⟩ := insert_single hc g hs (k, v) hlen
    exact ⟨t', .bool true, p', vs', by simp [step, insertEqual, h1], h2, h3, ⟨rfl, h4⟩, h5, by rw [h4.length_eq]; simp [adds]⟩
  | insertUnique k v =>
    rcases insertUnique_good cmp t _ g k v with ⟨h, he⟩ | ⟨t', h, hi, hno⟩
    · exact ⟨t, .bool false, p, vs, by simp [step, h], g, rfl, Or.inr ⟨rfl, he, rfl⟩, hs, by omega⟩
    · obtain ⟨t2, p', vs', h1, h2, h3, h4, h5⟩ := insert_single hc g hs (k, v) hlen
      rw [hi] at h1
      injection h1 with h1
      subst h1
      exact ⟨t', .bool true, p', vs', by simp [step, h], h2, h3, Or.inl ⟨rfl, hno hc hs (by simp [seps]), h4⟩, h5, by rw [h4.length_eq]; simp [adds]⟩
  | delete k =>
    obtain ⟨t', o, p', vs', h1, h2, h3, h4, h5, h6⟩ := hdel k
    refine ⟨t', .bool o, p', vs', by simp [step, h1], h2, h3, ?_, h5, by simpa [adds] using h6⟩
    simpa [Effect] using h4
  | deleteEntryByKey e =>
    obtain ⟨t', o, p', vs', h1, h2, h3, h4, h5, h6⟩ := hdel e.1
    refine ⟨t', .bool o, p', vs', by simp [step, deleteEntryByKey, h1], h2, h3, ?_, h5, by simpa [adds] using h6⟩
    simpa [Effect] using h4
  | deleteAll ks =>
    obtain ⟨t', vs', n, h1, h2, h3, h4, h5, h6⟩ := deleteAll_single hc ks 0 t vs g hs
    exact ⟨t', .num n, p, vs', by simp [step, h1], h2, h3, ⟨n, rfl, h4⟩, h5, by simpa [adds] using h6⟩
  | deleteByWholeMapping => exact hop.elim
  | clear => exact hop.elim

theorem run_single {cmp : Compare K} (hc : cmp.Lawful) : ∀ (ops : List (Op K V)) {t : Tree K V} {p : Nat} {vs : List (K × V)}, Good t (leaf p vs) →
    Sorted cmp vs → (∀ op ∈ ops, Plain op) → vs.length + (ops.map adds).sum ≤ 2 * t.degree - 1 →
    ∃ t' os p' vs', run cmp t ops = .ok (t', os) ∧ Good t' (leaf p' vs') ∧ t'.degree = t.degree ∧ Trace cmp vs ops os vs' ∧ Sorted cmp vs'
  | [], t, p, vs, g, hs, _, _ => ⟨t, [], p, vs, rfl, g, rfl, .nil vs, hs⟩
  | op :: ops, t, p, vs, g, hs, hop, hlen => by
    simp only [List.map_cons, List.sum_cons] at hlen
    obtain ⟨t1, o, p1, vs1, h1, h2, h3, h4, h5, h6⟩ := step_single hc g hs op (hop op (by simp)) (by omega)
    obtain ⟨t2, os, p2, vs2, g1, g2, g3, g4, g5⟩ := run_single hc ops h2 h5 (fun x hx => hop x (by simp [hx])) (by rw [h3]; omega)
    exact ⟨t2, o :: os, p2, vs2, by simp [run, h1, g1], g2, by rw [g3, h3], .cons h4 g4, g5⟩

end Gds.BPlus
