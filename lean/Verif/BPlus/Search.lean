import Verif.BPlus.Root

/-! `search` on abstract trees. -/

namespace Gds.BPlus
open BT Tree
variable {K V : Type} [Inhabited K] [Inhabited V]

/-- bplustree.go:210-224: what the binary search in one node answers. -/
theorem bsearch_post (cmp : Compare K) (t : Tree K V) (q n : Nat) (key : K) (hn : n ≤ 2 * t.degree - 1) :
    ∀ (m l hi mid : Nat), hi - l ≤ m → l ≤ hi → hi ≤ n →
    ∃ l' mid' ex, bsearch cmp t (some q) key l hi mid = .ok (l', mid', ex) ∧ l ≤ l' ∧ l' ≤ hi ∧
      (ex = true → mid' < hi ∧ l' ≤ mid' ∧ cmp key (t.h.values q mid').1 = 0) ∧
      ((∀ i j, i < j → j < n → cmp (t.h.values q i).1 (t.h.values q j).1 ≤ 0) → cmp.Lawful →
        (∀ j, j < l → 0 < cmp key (t.h.values q j).1) → (∀ j, hi ≤ j → j < n → cmp key (t.h.values q j).1 < 0) →
        (∀ j, j < l' → 0 < cmp key (t.h.values q j).1) ∧
        (ex = false → ∀ j, l' ≤ j → j < n → cmp key (t.h.values q j).1 < 0)) := by
  intro m
  induction m with
  | zero =>
    intro l hi mid hm hl hh
    have : ¬ l < hi := by omega
    refine ⟨l, mid, false, by rw [bsearch, if_neg this], Nat.le_refl _, hl, by simp, ?_⟩
    intro _ _ h1 h2
    exact ⟨h1, fun _ j hj hjn => h2 j (by omega) hjn⟩
  | succ m ih =>
    intro l hi mid hm hl hh
    by_cases hlt : l < hi
    · rw [bsearch, if_pos hlt]
      generalize hmd : (l + (hi - 1)) / 2 = md
      have hmd1 : l ≤ md := by omega
      have hmd2 : md < hi := by omega
      have hb : md < 2 * t.degree - 1 := by omega
      simp only [getVal, hb, if_true, Res.bind_ok]
      by_cases hc1 : cmp key (t.h.values q md).1 < 0
      · rw [if_pos hc1]
        obtain ⟨l', mid', ex, h1, h2, h3, h4, h5⟩ := ih l md md (by omega) hmd1 (by omega)
        refine ⟨l', mid', ex, h1, h2, by omega, fun h => ?_, ?_⟩
        · have := h4 h; exact ⟨by omega, this.2⟩
        · intro hs hl p1 p2
          refine h5 hs hl p1 ?_
          intro j hj hjn
          by_cases hjm : j = md
          · rw [hjm]; exact hc1
          · have h6 := hs md j (by omega) hjn
            rcases Int.lt_or_le (cmp key (t.h.values q j).1) 0 with h | h
            · exact h
            · have h7 : cmp (t.h.values q j).1 key ≤ 0 := by have := hl.flip key (t.h.values q j).1; have := hl.flip (t.h.values q j).1 key; omega
              have := hl.trans _ _ _ h6 h7
              have := hl.flip key (t.h.values q md).1
              omega
      · rw [if_neg hc1]
        by_cases hc2 : 0 < cmp key (t.h.values q md).1
        · rw [if_pos hc2]
          obtain ⟨l', mid', ex, h1, h2, h3, h4, h5⟩ := ih (md + 1) hi md (by omega) (by omega) hh
          refine ⟨l', mid', ex, h1, by omega, h3, h4, ?_⟩
          intro hs hl p1 p2
          refine h5 hs hl ?_ p2
          intro j hj
          by_cases hjm : j = md
          · rw [hjm]; exact hc2
          · have h6 := hs j md (by omega) (by omega)
            rcases Int.lt_or_le 0 (cmp key (t.h.values q j).1) with h | h
            · exact h
            · have := hl.trans _ _ _ h h6
              omega
        · rw [if_neg hc2]
          refine ⟨l, md, true, rfl, Nat.le_refl _, by omega, fun _ => ⟨hmd2, hmd1, by omega⟩, ?_⟩
          intro _ _ p1 _
          exact ⟨p1, by simp⟩
    · rw [bsearch, if_neg hlt]
      refine ⟨l, mid, false, rfl, Nat.le_refl _, hl, by simp, ?_⟩
      intro _ _ h1 h2
      exact ⟨h1, fun _ j hj hjn => h2 j (by omega) hjn⟩

namespace BT
/-- The separators: the values of the inner nodes. -/
def seps : {d : Nat} → BT K V d → List (K × V)
  | 0, _ => []
  | _ + 1, b => InnerT.vals b ++ (InnerT.kids b).flatMap seps
end BT

omit [Inhabited K] [Inhabited V] in
theorem sorted_vals {cmp : Compare K} {d : Nat} {p : Nat} {vs : List (K × V)} {ks : List (BT K V d)}
    (hl : ks.length = vs.length + 1) (hs : Sorted cmp (inner p vs ks).inter) : Sorted cmp vs := by
  cases ks with
  | nil => simp at hl
  | cons k ks =>
    have e : (inner p vs (k :: ks)).inter = inter k ++ (vs.zip ks).flatMap (fun x => x.1 :: inter x.2) := rfl
    rw [e] at hs
    have h2 : List.Sublist vs ((vs.zip ks).flatMap (fun x => x.1 :: inter x.2)) := by
      have hl' : ks.length = vs.length := by simpa using hl
      clear hl e hs
      induction vs generalizing ks with
      | nil => simp
      | cons v vs ih => cases ks with
        | nil => simp at hl'
        | cons a ks =>
          simp only [List.zip_cons_cons, List.flatMap_cons, List.cons_append]
          exact List.Sublist.cons_cons _ ((ih ks (by simpa using hl')).trans (List.sublist_append_right _ _))
    exact List.Pairwise.sublist (h2.trans (List.sublist_append_right _ _)) hs

/-- bplustree.go:204-233: what `search` answers below a node. -/
theorem searchLoop_spec (cmp : Compare K) (t : Tree K V) (key : K) (hdeg : 2 ≤ t.degree) : ∀ (d : Nat) (b : BT K V d), Rep t.h b →
    b.KidsOcc t.degree → b.vals.length ≤ 2 * t.degree - 1 →
    ∃ q i ex, searchLoop cmp t (some b.ptr) key = .ok (some q, i, ex) ∧
      (ex = true → i < 2 * t.degree - 1 ∧ t.h.values q i ∈ b.entries ∧ cmp key (t.h.values q i).1 = 0) ∧
      (cmp.Lawful → Sorted cmp b.inter → (∀ s ∈ b.seps, cmp key s.1 ≠ 0) → (∃ e ∈ b.entries, cmp key e.1 = 0) → ex = true) := by
  intro d
  induction d with
  | zero =>
    intro b hr _ hlen
    obtain ⟨p, vs, rfl⟩ := exists_leaf b
    obtain ⟨r1, r2, r3, r4⟩ := (rep_leaf _ _ _).1 hr
    simp only [leaf_ptr, leaf_vals, leaf_entries] at hlen ⊢
    obtain ⟨l', mid', ex, h1, h2, h3, h4, h5⟩ := bsearch_post cmp t p vs.length key hlen _ 0 vs.length 0 (Nat.le_refl _) (Nat.zero_le _) (Nat.le_refl _)
    rw [searchLoop]
    simp only [getNum, r2, Res.bind_ok, h1, getLeaf, r1, if_true]
    cases ex with
    | true =>
      obtain ⟨h6, h7, h8⟩ := h4 rfl
      refine ⟨p, mid', true, rfl, fun _ => ⟨by omega, ?_, h8⟩, by simp⟩
      rw [r3 _ h6]; exact List.getElem_mem _
    | false =>
      refine ⟨p, l', false, rfl, by simp, ?_⟩
      intro hc hs _ ⟨e, he, hk⟩
      obtain ⟨h6, h7⟩ := h5 (by
        intro i j hij hj
        rw [r3 i (by omega), r3 j hj]
        exact List.pairwise_iff_getElem.1 hs i j (by simp; omega) (by simpa using hj) hij) hc (by omega) (by intros; omega)
      obtain ⟨j, hj, rfl⟩ := List.getElem_of_mem he
      rw [← r3 j hj] at hk
      by_cases hjl : j < l'
      · have := h6 j hjl; omega
      · have := h7 rfl j (by omega) hj; omega
  | succ d ih =>
    intro b hr hocc hlen
    obtain ⟨p, vs, ks, rfl⟩ := exists_inner b
    obtain ⟨r1, r2, r3, r4, r5, r6⟩ := (rep_inner _ _ _ _).1 hr
    simp only [inner_ptr, inner_vals, inner_entries] at hlen ⊢
    obtain ⟨pos, mid', ex, h1, h2, h3, h4, h5⟩ := bsearch_post cmp t p vs.length key hlen _ 0 vs.length 0 (Nat.le_refl _) (Nat.zero_le _) (Nat.le_refl _)
    have hpk : pos < ks.length := by omega
    obtain ⟨va, vb, hva, hvs⟩ : ∃ va vb, va.length = pos ∧ vs = va ++ vb := ⟨vs.take pos, vs.drop pos, by simp; omega, by simp⟩
    obtain ⟨A, k, B, hA, hks⟩ : ∃ A k B, A.length = pos ∧ ks = A ++ k :: B :=
      ⟨ks.take pos, ks[pos], ks.drop (pos + 1), by simp; omega, by rw [← List.drop_eq_getElem_cons hpk]; simp⟩
    subst hvs hks
    have hkc : t.h.children p pos = some k.ptr := by
      have : Slots (t.h.children p) (A.map (fun k => some k.ptr) ++ some k.ptr :: B.map (fun k => some k.ptr)) := by simpa using r5
      have := this.at
      simpa [hA] using this
    have hAva : A.length = va.length := by omega
    have hocck := (inner_kidsOcc _ _ _ _).1 hocc k (by simp)
    have hp2 : pos < 2 * t.degree := by simp at hlen; omega
    rw [searchLoop]
    simp only [getNum, r2, Res.bind_ok, h1, getLeaf, r1, Bool.false_eq_true, if_false, getKid, hp2, if_true, hkc]
    obtain ⟨q, i, ex', e1, e2, e3⟩ := ih k (r6 k (by simp)) hocck.2 hocck.1.2
    refine ⟨q, i, ex', e1, fun h => ?_, ?_⟩
    · obtain ⟨a1, a2, a3⟩ := e2 h
      exact ⟨a1, by simp [a2], a3⟩
    · intro hc hs hsep ⟨e, he, hk⟩
      have hsv := sorted_vals r4 hs
      have hgetv : ∀ j (hj : j < (va ++ vb).length), t.h.values p j = (va ++ vb)[j] := fun j hj => r3 j hj
      have hex : ex = false := by
        cases ex with
        | false => rfl
        | true =>
          obtain ⟨h6, h7, h8⟩ := h4 rfl
          rw [hgetv mid' h6] at h8
          exact absurd h8 (hsep _ (List.mem_append_left _ (List.getElem_mem h6)))
      obtain ⟨h6, h7⟩ := h5 (by
        intro i j hij hj
        rw [hgetv i (by omega), hgetv j hj]
        exact List.pairwise_iff_getElem.1 hsv i j (by omega) hj hij) hc (by omega) (by intros; omega)
      rw [inner_inter _ _ _ _ _ _ hAva] at hs
      have hsA : Sorted cmp ([] ++ (A.zip va).flatMap (fun x => inter x.1 ++ [x.2])) := (List.pairwise_append.1 (List.pairwise_append.1 hs).1).1
      have hsk : Sorted cmp k.inter := (List.pairwise_append.1 (List.pairwise_append.1 hs).1).2.1
      have hsB : Sorted cmp ((vb.zip B).flatMap (fun x => x.1 :: inter x.2) ++ []) := by
        rw [List.append_nil]; exact (List.pairwise_append.1 hs).2.1
      refine e3 hc hsk (fun s hs => hsep s ?_) ?_
      · exact List.mem_append_right _ (List.mem_flatMap.2 ⟨k, List.mem_append_right _ List.mem_cons_self, hs⟩)
      · simp only [List.flatMap_append, List.flatMap_cons, List.mem_append] at he
        rcases he with he | he | he
        · exfalso
          obtain ⟨x, hx, hex⟩ := List.mem_flatMap.1 he
          obtain ⟨j, hj, rfl⟩ := List.getElem_of_mem hx
          have hrx := r6 A[j] (by simp)
          have hmem : e ∈ (A.zip va).flatMap (fun x => inter x.1 ++ [x.2]) := by
            refine List.mem_flatMap.2 ⟨(A[j], va[j]), ?_, List.mem_append_left _ ((entries_sublist_inter _ ⟨_, hrx⟩).subset hex)⟩
            rw [← List.getElem_zip (h := by simp; omega)]
            exact List.getElem_mem _
          have hne : va ≠ [] := by intro h; subst h; simp at hAva; subst hAva; simp at hj
          have hw := inter_before_le hc A va hAva (va.getLast hne) (P := []) hsA (by
            intro v hv
            rw [List.getLast?_eq_some_getLast hne] at hv
            simp at hv; subst hv
            exact Int.le_of_eq (hc.self _)) e hmem
          have hlast : va.getLast hne = t.h.values p (pos - 1) := by
            rw [hgetv (pos - 1) (by simp; omega), List.getLast_eq_getElem, List.getElem_append_left (by have := List.length_pos_iff.2 hne; omega)]
            congr 1
            omega
          rw [hlast] at hw
          have h8 := h6 (pos - 1) (by have := List.length_pos_iff.2 hne; omega)
          have := hc.trans key e.1 _ (by omega) hw
          omega
        · exact ⟨e, he, hk⟩
        · exfalso
          obtain ⟨x, hx, hex'⟩ := List.mem_flatMap.1 he
          obtain ⟨j, hj, rfl⟩ := List.getElem_of_mem hx
          have hrx := r6 B[j] (by simp)
          have hBl : B.length = vb.length := by simp at r4; omega
          have hmem : e ∈ (vb.zip B).flatMap (fun x => x.1 :: inter x.2) := by
            refine List.mem_flatMap.2 ⟨(vb[j], B[j]), ?_, List.mem_cons_of_mem _ ((entries_sublist_inter _ ⟨_, hrx⟩).subset hex')⟩
            rw [← List.getElem_zip (h := by simp; omega)]
            exact List.getElem_mem _
          cases vb with
          | nil => simp at hmem
          | cons w vb =>
            have hw := inter_after_ge hc B (w :: vb) w (S := []) hsB (by
              intro v hv
              simp at hv; subst hv
              exact Int.le_of_eq (hc.self _)) e hmem
            have hfirst : w = t.h.values p pos := by
              rw [hgetv pos (by simp; omega), List.getElem_append_right (by omega)]
              simp [hva]
            have h8 := h7 hex pos (Nat.le_refl _) (by simp; omega)
            rw [← hfirst] at h8
            have h9 : cmp e.1 key ≤ 0 := by have := hc.flip e.1 key; have := hc.flip key e.1; omega
            have := hc.trans _ _ _ hw h9
            have := hc.flip key w.1
            omega

end Gds.BPlus
