import Verif.BPlus.Spec
import Verif.BPlus.DeleteRoot

/-! The operations on whole trees, and the bridge from the abstract trees of the proofs to the specification. -/

namespace Gds.BPlus
open BT Tree
variable {K V : Type}

theorem flatMap_range_get {α β : Type} (ks : List α) (f : α → List β) (n : Nat) (hn : ks.length = n) :
    (List.range n).flatMap (fun i => (ks[i]?.map f).getD []) = ks.flatMap f := by
  subst hn
  induction ks with
  | nil => rfl
  | cons k ks ih =>
    rw [List.length_cons, List.range_succ_eq_map]
    simp only [List.flatMap_cons, List.getElem?_cons_zero, Option.map_some, Option.getD_some, List.flatMap_map]
    congr 1

theorem Slots.map_range {α : Type} {f : Nat → α} {xs : List α} (h : Slots f xs) : (List.range xs.length).map f = xs := by
  apply List.ext_getElem
  · simp
  · intro i h1 h2
    simp only [List.getElem_map, List.getElem_range]
    exact h i h2

theorem sub_of_rep {M : Nat} {h : Heap K V} : ∀ {d : Nat} (b : BT K V d), Rep h b → b.KidsOcc M → b.vals.length ≤ 2 * M - 1 →
    Sub h M d b.ptr b.leaves b.seps
  | 0, b, hr, _, hl => by
    obtain ⟨p, vs, rfl⟩ := exists_leaf b
    obtain ⟨r1, r2, r3, r4⟩ := (rep_leaf _ _ _).1 hr
    exact Sub.leaf r1 (by rw [leaf_ptr, r2]; exact hl)
  | d + 1, b, hr, ho, hl => by
    obtain ⟨p, vs, ks, rfl⟩ := exists_inner b
    obtain ⟨r1, r2, r3, r4, r5, r6⟩ := (rep_inner _ _ _ _).1 hr
    have hocc := (inner_kidsOcc _ _ _ _).1 ho
    have key := Sub.inner (h := h) (M := M) (d := d) (p := p) (fun i => (ks[i]?.map ptr).getD 0) (fun i => (ks[i]?.map leaves).getD [])
      (fun i => (ks[i]?.map seps).getD []) r1 (by rw [r2]; exact hl) (by
        intro i hi
        have hi' : i < ks.length := by omega
        have hk := List.getElem_mem hi'
        simp only [List.getElem?_eq_getElem hi', Option.map_some, Option.getD_some]
        refine ⟨?_, ?_⟩
        · rw [r5 i (by simpa using hi')]; simp
        · rw [(r6 _ hk).num_eq]; exact (hocc _ hk).1.1) (by
        intro i hi
        have hi' : i < ks.length := by omega
        have hk := List.getElem_mem hi'
        simp only [List.getElem?_eq_getElem hi', Option.map_some, Option.getD_some]
        exact sub_of_rep ks[i] (r6 _ hk) (hocc _ hk).2 (hocc _ hk).1.2)
    rw [flatMap_range_get ks leaves _ (by omega), flatMap_range_get ks seps _ (by omega), r2, r3.map_range] at key
    exact key

theorem contents_of_rep {h : Heap K V} : ∀ {d : Nat} (b : BT K V d), Rep h b → contents h b.leaves = b.entries
  | 0, b, hr => by
    obtain ⟨p, vs, rfl⟩ := exists_leaf b
    obtain ⟨r1, r2, r3, r4⟩ := (rep_leaf _ _ _).1 hr
    simp [contents, r2, r3.map_range]
  | d + 1, b, hr => by
    obtain ⟨p, vs, ks, rfl⟩ := exists_inner b
    obtain ⟨r1, r2, r3, r4, r5, r6⟩ := (rep_inner _ _ _ _).1 hr
    have : ∀ ks : List (BT K V d), (∀ k ∈ ks, Rep h k) → contents h (ks.flatMap leaves) = ks.flatMap entries := by
      intro ks
      induction ks with
      | nil => intro _; rfl
      | cons k ks ih =>
        intro hk
        have h1 := contents_of_rep k (hk k (by simp))
        have h2 := ih (fun x hx => hk x (by simp [hx]))
        simp only [contents, List.flatMap_cons, List.flatMap_append] at h1 h2 ⊢
        rw [h1, h2]
    exact this ks r6

theorem leaves_ne_nil {h : Heap K V} : ∀ {d : Nat} (b : BT K V d), Rep h b → b.leaves ≠ []
  | 0, b, _ => by simp [leaves]
  | d + 1, b, hr => by
    obtain ⟨p, vs, ks, rfl⟩ := exists_inner b
    obtain ⟨r1, r2, r3, r4, r5, r6⟩ := (rep_inner _ _ _ _).1 hr
    cases ks with
    | nil => simp at r4
    | cons k ks => simp [leaves_ne_nil k (r6 k (by simp))]

theorem minLoop_spec {t : Tree K V} (hM : 2 ≤ t.degree) : ∀ {d : Nat} (b : BT K V d), Rep t.h b →
    ∃ q, minLoop t (some b.ptr) = .ok (some q) ∧ b.leaves.head? = some q
  | 0, b, hr => by
    obtain ⟨p, vs, rfl⟩ := exists_leaf b
    obtain ⟨r1, r2, r3, r4⟩ := (rep_leaf _ _ _).1 hr
    refine ⟨p, ?_, rfl⟩
    rw [minLoop]
    simp [getLeaf, r1]
  | d + 1, b, hr => by
    obtain ⟨p, vs, ks, rfl⟩ := exists_inner b
    obtain ⟨r1, r2, r3, r4, r5, r6⟩ := (rep_inner _ _ _ _).1 hr
    cases ks with
    | nil => simp at r4
    | cons k ks =>
      obtain ⟨q, h1, h2⟩ := minLoop_spec hM k (r6 k (by simp))
      refine ⟨q, ?_, ?_⟩
      · rw [minLoop]
        have hk : t.h.children p 0 = some k.ptr := r5 0 (by simp)
        have hb : 0 < 2 * t.degree := by omega
        simp only [inner_ptr, getLeaf, r1, Res.bind_ok, if_true, getKid, hb, hk, h1]
      · cases hl : k.leaves with
        | nil => rw [hl] at h2; simp at h2
        | cons a l => rw [hl] at h2; simpa [hl] using h2

theorem maxLoop_spec {t : Tree K V} (hM : 2 ≤ t.degree) : ∀ {d : Nat} (b : BT K V d), Rep t.h b → b.KidsOcc t.degree → b.vals.length ≤ 2 * t.degree - 1 →
    ∃ q, maxLoop t (some b.ptr) = .ok (some q) ∧ b.leaves.getLast? = some q
  | 0, b, hr, _, _ => by
    obtain ⟨p, vs, rfl⟩ := exists_leaf b
    obtain ⟨r1, r2, r3, r4⟩ := (rep_leaf _ _ _).1 hr
    refine ⟨p, ?_, rfl⟩
    rw [maxLoop]
    simp [getLeaf, r1]
  | d + 1, b, hr, ho, hl => by
    obtain ⟨p, vs, ks, rfl⟩ := exists_inner b
    obtain ⟨r1, r2, r3, r4, r5, r6⟩ := (rep_inner _ _ _ _).1 hr
    have hocc := (inner_kidsOcc _ _ _ _).1 ho
    rcases List.eq_nil_or_concat ks with rfl | ⟨ks, k, rfl⟩
    · simp at r4
    · simp only [List.concat_eq_append] at *
      have hko := hocc k (by simp)
      obtain ⟨q, h1, h2⟩ := maxLoop_spec hM k (r6 k (by simp)) hko.2 hko.1.2
      simp only [inner_vals] at hl
      have hkl : ks.length = vs.length := by simpa using r4
      refine ⟨q, ?_, ?_⟩
      · rw [maxLoop]
        have hk : t.h.children p vs.length = some k.ptr := by
          rw [r5 vs.length (by simp; omega)]
          simp [← hkl]
        have hb : vs.length < 2 * t.degree := by omega
        simp only [inner_ptr, getLeaf, r1, Res.bind_ok, if_true, getKid, getNum, r2, hb, hk, h1]
      · simp only [inner_leaves, List.flatMap_append, List.flatMap_cons, List.flatMap_nil, List.append_nil]
        rw [List.getLast?_append, h2]; rfl

theorem ring_index {h : Heap K V} {l : List Nat} (hr : Ring h l) (i : Nat) (hi : i < l.length) :
    h.next l[i] = some (l[(i + 1) % l.length]'(Nat.mod_lt _ (by omega))) ∧
    h.prev (l[(i + 1) % l.length]'(Nat.mod_lt _ (by omega))) = some l[i] := by
  unfold Ring at hr
  cases l with
  | nil => simp at hi
  | cons a l =>
    simp only [List.head?_cons, Option.toList_some] at hr
    have := (List.isChain_iff_getElem.1 hr) i (by simp at hi ⊢; omega)
    have e1 : (a :: l ++ [a])[i]'(by simp at hi ⊢; omega) = (a :: l)[i] := List.getElem_append_left hi
    have e2 : (a :: l ++ [a])[i + 1]'(by simp at hi ⊢; omega) = (a :: l)[(i + 1) % (a :: l).length]'(Nat.mod_lt _ (by simp)) := by
      by_cases hlt : i + 1 < (a :: l).length
      · rw [List.getElem_append_left hlt]
        congr 1
        exact (Nat.mod_eq_of_lt hlt).symm
      · have he : i + 1 = (a :: l).length := by omega
        rw [List.getElem_append_right (by omega)]
        simp [he]
    rw [e1, e2] at this
    exact this

variable [Inhabited K] [Inhabited V]

/-- What the proofs know of a tree implies what the specification says. -/
theorem Good.holds {t : Tree K V} {d : Nat} {b : BT K V d} (g : Good t b) : Holds t d b.leaves b.entries b.seps := by
  have hM := g.pre.deg
  refine ⟨⟨b.ptr, g.root, sub_of_rep b g.pre.rep g.pre.occ g.hi, fun h => ?_⟩, ?_, ?_, ?_, ?_, (contents_of_rep b g.pre.rep).symm, g.size, g.size, ?_⟩
  · rw [g.pre.rep.num_eq]; exact g.lo h
  · simpa using g.pre.rnodup
  · intro i hi
    exact ring_index (by simpa using g.pre.ring) i hi
  · obtain ⟨q, h1, h2⟩ := minLoop_spec hM b g.pre.rep
    exact ⟨q, by simp [leftMost, g.root, h1], h2⟩
  · obtain ⟨q, h1, h2⟩ := maxLoop_spec hM b g.pre.rep g.pre.occ g.hi
    exact ⟨q, by simp [rightMost, g.root, h1], h2⟩
  · rw [isEmpty, decide_eq_true_iff, g.size, ← List.length_eq_zero_iff]; omega

/-! ### Searching -/

theorem search_good (cmp : Compare K) (t : Tree K V) {d : Nat} (b : BT K V d) (g : Good t b) (key : K) :
    ∃ q i ex, search cmp t key = .ok (q, i, ex) ∧
      (ex = true → ∃ p, q = some p ∧ i < 2 * t.degree - 1 ∧ t.h.values p i ∈ b.entries ∧ cmp key (t.h.values p i).1 = 0) ∧
      (cmp.Lawful → Sorted cmp b.inter → (∀ s ∈ b.seps, cmp key s.1 ≠ 0) → (∃ e ∈ b.entries, cmp key e.1 = 0) → ex = true) := by
  unfold search
  by_cases h0 : t.size = 0
  · rw [if_pos h0]
    refine ⟨none, 0, false, rfl, by simp, ?_⟩
    rintro _ _ _ ⟨e, he, -⟩
    have := g.size
    rw [h0] at this
    have : b.entries = [] := List.length_eq_zero_iff.1 (by omega)
    rw [this] at he
    simp at he
  · rw [if_neg h0, g.root]
    obtain ⟨q, i, ex, h1, h2, h3⟩ := searchLoop_spec cmp t key g.pre.deg d b g.pre.rep g.pre.occ g.hi
    exact ⟨some q, i, ex, h1, fun h => ⟨q, rfl, h2 h⟩, h3⟩

/-- All the read operations on a tree, from one search. -/
theorem reads_good (cmp : Compare K) (t : Tree K V) {d : Nat} (b : BT K V d) (g : Good t b) (key : K) :
    ∃ o : Option (K × V), (∀ e, o = some e → e ∈ b.entries ∧ cmp key e.1 = 0) ∧
      (cmp.Lawful → Sorted cmp b.inter → (∀ s ∈ b.seps, cmp key s.1 ≠ 0) → (∃ e ∈ b.entries, cmp key e.1 = 0) → o.isSome) ∧
      containsKey cmp t key = .ok o.isSome ∧ getEntry cmp t key = .ok o ∧
      getVerify cmp t key = .ok ((o.map (·.2)).getD default, o.isSome) ∧ get cmp t key = .ok ((o.map (·.2)).getD default) ∧
      ∀ compV val, deleteByWholeMapping cmp t key val compV =
        (match o with | some e => if compV e.2 val < 0 then delete cmp t key else .ok (t, false) | none => .ok (t, false)) := by
  obtain ⟨q, i, ex, h1, h2, h3⟩ := search_good cmp t b g key
  cases ex with
  | false =>
    refine ⟨none, by simp, ?_, ?_, ?_, ?_, ?_, ?_⟩
    · intro a b c d; exact absurd (h3 a b c d) (by simp)
    all_goals simp [containsKey, getEntry, getVerify, get, deleteByWholeMapping, h1]
  | true =>
    obtain ⟨p, rfl, hi, hm, hk⟩ := h2 rfl
    refine ⟨some (t.h.values p i), ?_, ?_, ?_, ?_, ?_, ?_, ?_⟩
    · intro e he; simp at he; subst he; exact ⟨hm, hk⟩
    · simp
    all_goals simp [containsKey, getEntry, getVerify, get, deleteByWholeMapping, h1, getVal, hi]

/-! ### Changing -/

theorem insertUnique_good (cmp : Compare K) (t : Tree K V) {d : Nat} (b : BT K V d) (g : Good t b) (k : K) (v : V) :
    (insertUnique cmp t k v = .ok (t, false) ∧ ∃ e ∈ b.entries, cmp k e.1 = 0) ∨
    (∃ t', insertUnique cmp t k v = .ok (t', true) ∧ insert cmp t (k, v) = .ok t' ∧
      (cmp.Lawful → Sorted cmp b.inter → (∀ s ∈ b.seps, cmp k s.1 ≠ 0) → ∀ e ∈ b.entries, cmp k e.1 ≠ 0)) := by
  obtain ⟨o, h1, h2, h3, -⟩ := reads_good cmp t b g k
  obtain ⟨t', d', b', hi, -⟩ := insert_spec cmp t b (k, v) g
  cases o with
  | none =>
    right
    refine ⟨t', by simp [insertUnique, h3, hi], hi, ?_⟩
    intro a b c e he hk
    exact absurd (h2 a b c ⟨e, he, hk⟩) (by simp)
  | some e =>
    left
    exact ⟨by simp [insertUnique, h3], e, h1 e rfl⟩

theorem vals_pos_of_mem {t : Tree K V} {d : Nat} {b : BT K V d} (g : Good t b) {e : K × V} (he : e ∈ b.entries) : 1 ≤ b.vals.length := by
  by_cases hd : d = 0
  · subst hd
    obtain ⟨p, vs, rfl⟩ := exists_leaf b
    simp at he ⊢
    exact List.length_pos_of_mem he
  · exact g.lo hd

/-- bplustree.go:100-109 -/
theorem delete_good (cmp : Compare K) (t : Tree K V) {d : Nat} (b : BT K V d) (g : Good t b) (k : K) :
    (delete cmp t k = .ok (t, false) ∧ containsKey cmp t k = .ok false) ∨
    (containsKey cmp t k = .ok true ∧ (∃ e ∈ b.entries, cmp k e.1 = 0) ∧
      ((∃ t' d', ∃ b' : BT K V d', delete cmp t k = .ok (t', true) ∧ deleteRoot cmp t k = .ok t' ∧ RootPost cmp k t t' b b') ∨
       (delete cmp t k = .panic .indexOutOfRange ∧ ¬ MinHyp cmp k b))) := by
  obtain ⟨o, h1, h2, h3, -⟩ := reads_good cmp t b g k
  cases o with
  | none => left; exact ⟨by simp [delete, h3], h3⟩
  | some e =>
    right
    have he := h1 e rfl
    refine ⟨h3, ⟨e, he⟩, ?_⟩
    rcases deleteRoot_spec cmp k t b g (vals_pos_of_mem g he.1) with ⟨t', d', b', h, post⟩ | ⟨h, hm⟩
    · exact Or.inl ⟨t', d', b', by simp [delete, h3, h], h, post⟩
    · exact Or.inr ⟨by simp [delete, h3, h], hm⟩

end Gds.BPlus
