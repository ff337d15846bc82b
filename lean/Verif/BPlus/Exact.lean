import Verif.BPlus.Props2

/-! C105: exactly which stored keys the read operations find in a map built by insertions. -/

namespace Gds.BPlus
open BT Tree
variable {K V : Type} [Inhabited K] [Inhabited V]

/-! ### Specification -/

/-- Binary search for position `i` in the positions `lo … hi-1`: the lower end of the interval at the moment position `i` is probed.
    `search` goes on in the child with this number (bplustree.go:210-232). -/
def lowerEnd (lo hi i : Nat) : Nat :=
  if lo < hi then
    let mid := (lo + (hi - 1)) / 2
    if i < mid then lowerEnd lo mid i else if mid < i then lowerEnd (mid + 1) hi i else lo
  else lo
termination_by hi - lo

/-- The nodes of a tree. -/
inductive Node (t : Tree K V) : Nat → Prop
  | root {p : Nat} : t.root = some p → Node t p
  | kid {p c i : Nat} : Node t p → t.h.isLeaf p = false → i ≤ t.h.num p → t.h.children p i = some c → Node t c

/-- `key` is the separator number `i` of some inner node, and binary search arrives there with a lower end other than `i`. -/
def Missed (cmp : Compare K) (t : Tree K V) (key : K) : Prop :=
  ∃ p i, Node t p ∧ t.h.isLeaf p = false ∧ i < t.h.num p ∧ cmp key (t.h.values p i).1 = 0 ∧ lowerEnd 0 (t.h.num p) i ≠ i

/-- The keys are pairwise different. -/
def Distinct (cmp : Compare K) (es : List (K × V)) : Prop := es.Pairwise (fun x y => cmp x.1 y.1 ≠ 0)

omit [Inhabited K] in
theorem zero_trans {cmp : Compare K} (hc : cmp.Lawful) {a b c : K} (h1 : cmp a b = 0) (h2 : cmp b c = 0) : cmp a c = 0 := by
  have h3 := hc.trans _ _ _ (Int.le_of_eq h1) (Int.le_of_eq h2)
  have h4 := hc.trans _ _ _ (Int.le_of_eq (hc.zero_symm h2)) (Int.le_of_eq (hc.zero_symm h1))
  have := hc.flip a c
  have := hc.flip c a
  omega

omit [Inhabited K] [Inhabited V] in
theorem entries_length_le {d : Nat} {ks : List (BT K V d)} {k : BT K V d} (hk : k ∈ ks) : k.entries.length ≤ (ks.flatMap BT.entries).length := by
  obtain ⟨A, B, rfl⟩ := List.append_of_mem hk
  simp only [List.flatMap_append, List.flatMap_cons, List.length_append]
  omega

/-! ### Binary search -/

theorem lowerEnd_le : ∀ (m lo hi i : Nat), hi - lo ≤ m → lo ≤ i → i < hi → lo ≤ lowerEnd lo hi i ∧ lowerEnd lo hi i ≤ i := by
  intro m
  induction m with
  | zero => intro lo hi i h1 h2 h3; omega
  | succ m ih =>
    intro lo hi i h1 h2 h3
    rw [lowerEnd, if_pos (by omega)]
    simp only
    split
    · have := ih lo ((lo + (hi - 1)) / 2) i (by omega) h2 (by omega)
      omega
    · split
      · have := ih ((lo + (hi - 1)) / 2 + 1) hi i (by omega) (by omega) h3
        omega
      · omega

/-- With at most two separators binary search always arrives with the right lower end. -/
theorem lowerEnd_small {n i : Nat} (hn : n ≤ 2) (hi : i < n) : lowerEnd 0 n i = i := by
  have : (n = 1 ∧ i = 0) ∨ (n = 2 ∧ i = 0) ∨ (n = 2 ∧ i = 1) := by omega
  rcases this with ⟨rfl, rfl⟩ | ⟨rfl, rfl⟩ | ⟨rfl, rfl⟩
  · rw [lowerEnd]; simp
  · rw [lowerEnd]; simp
  · rw [lowerEnd]; simp; rw [lowerEnd]; simp

/-- With three or more it does not for the middle one. -/
theorem lowerEnd_big {n : Nat} (hn : 3 ≤ n) : lowerEnd 0 n ((n - 1) / 2) ≠ (n - 1) / 2 := by
  rw [lowerEnd, if_pos (by omega)]
  simp only [Nat.zero_add, Nat.lt_irrefl, if_false]
  omega

theorem bsearch_hit (cmp : Compare K) (t : Tree K V) (q n j : Nat) (key : K) (hn : n ≤ 2 * t.degree - 1)
    (hlo : ∀ i, i < j → 0 < cmp key (t.h.values q i).1) (hj : cmp key (t.h.values q j).1 = 0)
    (hhi : ∀ i, j < i → i < n → cmp key (t.h.values q i).1 < 0) : ∀ (m l hi mid : Nat), hi - l ≤ m → l ≤ j → j < hi → hi ≤ n →
    bsearch cmp t (some q) key l hi mid = .ok (lowerEnd l hi j, j, true) := by
  intro m
  induction m with
  | zero => intro l hi mid h1 h2 h3 h4; omega
  | succ m ih =>
    intro l hi mid h1 h2 h3 h4
    rw [bsearch, if_pos (by omega), lowerEnd, if_pos (by omega)]
    generalize hmd : (l + (hi - 1)) / 2 = md
    have hb : md < 2 * t.degree - 1 := by omega
    simp only [getVal, hb, if_true, Res.bind_ok]
    rcases Nat.lt_trichotomy j md with h | h | h
    · have := hhi md h (by omega)
      rw [if_pos this, if_pos h]
      exact ih l md md (by omega) h2 h (by omega)
    · subst h
      simp [hj]
    · have := hlo md h
      rw [if_neg (by omega), if_pos this, if_neg (by omega), if_pos h]
      exact ih (md + 1) hi md (by omega) h h3 h4

theorem bsearch_miss (cmp : Compare K) (t : Tree K V) (q n j : Nat) (key : K) (hn : n ≤ 2 * t.degree - 1)
    (hlo : ∀ i, i < j → 0 < cmp key (t.h.values q i).1)
    (hhi : ∀ i, j ≤ i → i < n → cmp key (t.h.values q i).1 < 0) : ∀ (m l hi mid : Nat), hi - l ≤ m → l ≤ j → j ≤ hi → hi ≤ n →
    ∃ mid', bsearch cmp t (some q) key l hi mid = .ok (j, mid', false) := by
  intro m
  induction m with
  | zero =>
    intro l hi mid h1 h2 h3 h4
    rw [bsearch, if_neg (by omega)]
    exact ⟨mid, by rw [show l = j by omega]⟩
  | succ m ih =>
    intro l hi mid h1 h2 h3 h4
    rw [bsearch]
    by_cases hlt : l < hi
    · rw [if_pos hlt]
      generalize hmd : (l + (hi - 1)) / 2 = md
      have hb : md < 2 * t.degree - 1 := by omega
      simp only [getVal, hb, if_true, Res.bind_ok]
      by_cases h : j ≤ md
      · have := hhi md h (by omega)
        rw [if_pos this]
        exact ih l md md (by omega) h2 h (by omega)
      · have := hlo md (by omega)
        rw [if_neg (by omega), if_pos this]
        exact ih (md + 1) hi md (by omega) (by omega) h3 h4
    · rw [if_neg hlt]
      exact ⟨mid, by rw [show l = j by omega]⟩

/-! ### The search -/

namespace BT
/-- `Missed` on abstract trees. -/
def Lost (cmp : Compare K) (key : K) : {d : Nat} → BT K V d → Prop
  | 0, _ => False
  | _ + 1, b => (∃ i, ∃ h : i < (InnerT.vals b).length, cmp key ((InnerT.vals b)[i]).1 = 0 ∧ lowerEnd 0 (InnerT.vals b).length i ≠ i) ∨
      ∃ k ∈ InnerT.kids b, Lost cmp key k

omit [Inhabited K] [Inhabited V] in
theorem lost_inner (cmp : Compare K) (key : K) {d p : Nat} (vs : List (K × V)) (ks : List (BT K V d)) : (inner p vs ks).Lost cmp key ↔
    (∃ i, ∃ h : i < vs.length, cmp key (vs[i]).1 = 0 ∧ lowerEnd 0 vs.length i ≠ i) ∨ ∃ k ∈ ks, k.Lost cmp key := Iff.rfl
end BT

omit [Inhabited K] [Inhabited V] in
/-- A separator of a tight tree is stored. -/
theorem tight_sep {cmp : Compare K} {d p : Nat} {vs : List (K × V)} {ks : List (BT K V d)} (hl : ks.length = vs.length + 1)
    (ht : (inner p vs ks).Tight cmp) (i : Nat) (hi : i < vs.length) :
    ∃ y, (ks[i]).entries.getLast? = some y ∧ cmp y.1 (vs[i]).1 = 0 := by
  obtain ⟨t1, -⟩ := (tight_inner _ _ _ _).1 ht
  exact t1 (ks[i], vs[i]) (by
    rw [← List.getElem_zip (h := by simp; omega)]
    exact List.getElem_mem _)

omit [Inhabited K] [Inhabited V] in
theorem Lost.stored {cmp : Compare K} (hc : cmp.Lawful) {key : K} {h : Heap K V} : ∀ {d : Nat} (b : BT K V d), Rep h b → b.Tight cmp → b.Lost cmp key →
    ∃ e ∈ b.entries, cmp key e.1 = 0
  | 0, _, _, _, hl => hl.elim
  | d + 1, b, hr, ht, hl => by
    obtain ⟨p, vs, ks, rfl⟩ := exists_inner b
    obtain ⟨r1, r2, r3, r4, r5, r6⟩ := (rep_inner _ _ _ _).1 hr
    rcases (lost_inner _ _ _ _).1 hl with ⟨i, hi, h1, -⟩ | ⟨k, hk, hlk⟩
    · obtain ⟨y, y1, y2⟩ := tight_sep r4 ht i hi
      refine ⟨y, List.mem_flatMap.2 ⟨ks[i], List.getElem_mem _, List.mem_of_mem_getLast? (by simpa using y1)⟩, ?_⟩
      exact zero_trans hc h1 (hc.zero_symm y2)
    · obtain ⟨e, he, hk'⟩ := Lost.stored hc k (r6 k hk) (((tight_inner _ _ _ _).1 ht).2 k hk) hlk
      exact ⟨e, List.mem_flatMap.2 ⟨k, hk, he⟩, hk'⟩

/-- Where `search` ends for a stored key. -/
theorem searchLoop_exact {cmp : Compare K} (hc : cmp.Lawful) (t : Tree K V) (key : K) (hdeg : 2 ≤ t.degree) : ∀ (d : Nat) (b : BT K V d), Rep t.h b →
    b.KidsOcc t.degree → b.vals.length ≤ 2 * t.degree - 1 → b.Tight cmp → b.entries.Pairwise (fun x y => cmp x.1 y.1 < 0) →
    (∃ e ∈ b.entries, cmp key e.1 = 0) →
    ∃ q i ex, searchLoop cmp t (some b.ptr) key = .ok (some q, i, ex) ∧ (ex = true ↔ ¬ b.Lost cmp key) := by
  intro d
  induction d with
  | zero =>
    intro b hr _ hlen _ hsr ⟨e, he, hk⟩
    obtain ⟨p, vs, rfl⟩ := exists_leaf b
    obtain ⟨r1, r2, r3, r4⟩ := (rep_leaf _ _ _).1 hr
    simp only [leaf_ptr, leaf_vals, leaf_entries] at hlen hsr he ⊢
    obtain ⟨j, hj, rfl⟩ := List.getElem_of_mem he
    have hb := bsearch_hit cmp t p vs.length j key hlen (by
        intro i hi
        rw [r3 i (by omega)]
        have := List.pairwise_iff_getElem.1 hsr i j (by omega) hj hi
        rcases Int.lt_or_le 0 (cmp key (vs[i]).1) with h | h
        · exact h
        · have h2 : cmp (vs[j]).1 key ≤ 0 := Int.le_of_eq (hc.zero_symm hk)
          have h3 := hc.trans _ _ _ h2 h
          have := hc.flip (vs[i]).1 (vs[j]).1
          omega) (by rw [r3 j hj]; exact hk) (by
        intro i hi hn
        rw [r3 i hn]
        have := List.pairwise_iff_getElem.1 hsr j i hj hn hi
        rcases Int.lt_or_le (cmp key (vs[i]).1) 0 with h | h
        · exact h
        · have h2 : cmp (vs[i]).1 key ≤ 0 := by have := hc.flip key (vs[i]).1; have := hc.flip (vs[i]).1 key; omega
          have h3 := hc.trans _ _ _ h2 (Int.le_of_eq hk)
          have := hc.flip (vs[j]).1 (vs[i]).1
          omega) _ 0 vs.length 0 (Nat.le_refl _) (Nat.zero_le _) hj (Nat.le_refl _)
    rw [searchLoop]
    simp only [getNum, r2, Res.bind_ok, hb, getLeaf, r1, if_true]
    exact ⟨p, j, true, rfl, by simp; exact fun h => h.elim⟩
  | succ d ih =>
    intro b hr hocc hlen ht hsr ⟨e, he, hk⟩
    obtain ⟨p, vs, ks, rfl⟩ := exists_inner b
    obtain ⟨r1, r2, r3, r4, r5, r6⟩ := (rep_inner _ _ _ _).1 hr
    obtain ⟨-, htk⟩ := (tight_inner _ _ _ _).1 ht
    have hoccs := (inner_kidsOcc _ _ _ _).1 hocc
    simp only [inner_ptr, inner_vals, inner_entries] at hlen hsr he ⊢
    obtain ⟨k0, hk0, he0⟩ := List.mem_flatMap.1 he
    obtain ⟨j, hj, rfl⟩ := List.getElem_of_mem hk0
    rw [List.pairwise_flatMap] at hsr
    obtain ⟨hs1, hs2⟩ := hsr
    have hcross : ∀ a b (ha : a < ks.length) (hb : b < ks.length), a < b → ∀ x ∈ (ks[a]).entries, ∀ y ∈ (ks[b]).entries, cmp x.1 y.1 < 0 :=
      fun a b ha hb hab => List.pairwise_iff_getElem.1 hs2 a b ha hb hab
    have hek : cmp e.1 key = 0 := hc.zero_symm hk
    -- the key compared with the separators
    have hlo : ∀ i, i < j → 0 < cmp key (t.h.values p i).1 := by
      intro i hi
      have hiv : i < vs.length := by omega
      rw [r3 i hiv]
      obtain ⟨y, y1, y2⟩ := tight_sep r4 ht i hiv
      have h1 := hcross i j (by omega) hj hi y (List.mem_of_mem_getLast? (by simpa using y1)) e he0
      rcases Int.lt_or_le 0 (cmp key (vs[i]).1) with h | h
      · exact h
      · have h2 := hc.trans _ _ _ (Int.le_of_eq hek) h
        have h3 := hc.trans _ _ _ h2 (Int.le_of_eq (hc.zero_symm y2))
        have := hc.flip y.1 e.1
        omega
    have hhi : ∀ i, j < i → i < vs.length → cmp key (t.h.values p i).1 < 0 := by
      intro i hi hiv
      rw [r3 i hiv]
      obtain ⟨y, y1, y2⟩ := tight_sep r4 ht i hiv
      have h1 := hcross j i hj (by omega) hi e he0 y (List.mem_of_mem_getLast? (by simpa using y1))
      rcases Int.lt_or_le (cmp key (vs[i]).1) 0 with h | h
      · exact h
      · have h2 : cmp (vs[i]).1 key ≤ 0 := by have := hc.flip key (vs[i]).1; have := hc.flip (vs[i]).1 key; omega
        have h3 := hc.trans _ _ _ (Int.le_of_eq y2) h2
        have h4 := hc.trans _ _ _ h3 (Int.le_of_eq hk)
        have := hc.flip e.1 y.1
        omega
    have hmid : j < vs.length → cmp key (t.h.values p j).1 ≤ 0 := by
      intro hjv
      rw [r3 j hjv]
      obtain ⟨y, y1, y2⟩ := tight_sep r4 ht j hjv
      have h1 : cmp e.1 y.1 ≤ 0 := by
        obtain ⟨l', hl'⟩ : ∃ l', (ks[j]).entries = l' ++ [y] := by
          rcases List.eq_nil_or_concat (ks[j]).entries with h0 | ⟨l', z, h0⟩
          · rw [h0] at y1; simp at y1
          · rw [h0] at y1; simp at y1; subst y1; exact ⟨l', by simpa using h0⟩
        have hp := hs1 _ (List.getElem_mem hj)
        rw [hl'] at hp he0
        rcases List.mem_append.1 he0 with h | h
        · exact Int.le_of_lt ((List.pairwise_append.1 hp).2.2 e h y (by simp))
        · simp at h; subst h; exact Int.le_of_eq (hc.self _)
      exact hc.trans _ _ _ (Int.le_of_eq hk) (hc.trans _ _ _ h1 (Int.le_of_eq y2))
    -- only the child that holds the key matters
    have hother : ∀ i (hi : i < ks.length), i ≠ j → ¬ ∃ x ∈ (ks[i]).entries, cmp key x.1 = 0 := by
      rintro i hi hne ⟨x, hx, hkx⟩
      have hxe : cmp x.1 e.1 = 0 := zero_trans hc (hc.zero_symm hkx) hk
      rcases Nat.lt_or_gt_of_ne hne with h | h
      · have := hcross i j hi hj h x hx e he0; omega
      · have := hcross j i hj hi h e he0 x hx
        have := hc.zero_symm hxe
        omega
    have hlostk : (∃ k ∈ ks, k.Lost cmp key) ↔ (ks[j]).Lost cmp key := by
      constructor
      · rintro ⟨k, hk', hl⟩
        obtain ⟨i, hi, rfl⟩ := List.getElem_of_mem hk'
        by_cases hij : i = j
        · subst hij; exact hl
        · exact absurd (Lost.stored hc _ (r6 _ hk') (htk _ hk') hl) (hother i hi hij)
      · exact fun h => ⟨_, List.getElem_mem hj, h⟩
    have hgo : ∀ c ex mid, (hc' : c < ks.length) → bsearch cmp t (some p) key 0 vs.length 0 = .ok (c, mid, ex) →
        searchLoop cmp t (some p) key = searchLoop cmp t (some (ks[c]).ptr) key := by
      intro c ex mid hc' hb
      have hkc : t.h.children p c = some (ks[c]).ptr := by
        rw [r5 c (by simpa using hc')]; simp
      have hp2 : c < 2 * t.degree := by omega
      rw [searchLoop]
      simp only [getNum, r2, Res.bind_ok, hb, getLeaf, r1, Bool.false_eq_true, if_false, getKid, hp2, if_true, hkc]
    by_cases hhit : ∃ h : j < vs.length, cmp key (vs[j]).1 = 0
    · obtain ⟨hjv, hhit⟩ := hhit
      have hb := bsearch_hit cmp t p vs.length j key hlen hlo (by rw [r3 j hjv]; exact hhit) hhi _ 0 vs.length 0 (Nat.le_refl _) (Nat.zero_le _) hjv (Nat.le_refl _)
      have hle := lowerEnd_le _ 0 vs.length j (Nat.le_refl _) (Nat.zero_le _) hjv
      have hck : lowerEnd 0 vs.length j < ks.length := by omega
      rw [hgo _ _ _ hck hb, lost_inner]
      by_cases hland : lowerEnd 0 vs.length j = j
      · simp only [hland]
        obtain ⟨q, i, ex, h1, h2⟩ := ih (ks[j]) (r6 _ hk0) (hoccs _ hk0).2 (hoccs _ hk0).1.2 (htk _ hk0) (hs1 _ hk0) ⟨e, he0, hk⟩
        refine ⟨q, i, ex, h1, h2.trans (not_congr ?_)⟩
        rw [hlostk]
        constructor
        · exact Or.inr
        · rintro (⟨i, hi, hz, hl⟩ | h)
          · exfalso
            rcases Nat.lt_trichotomy i j with h | h | h
            · have := hlo i h; rw [r3 i hi] at this; omega
            · subst h; exact hl hland
            · have := hhi i h hi; rw [r3 i hi] at this; omega
          · exact h
      · have hkm := List.getElem_mem hck
        obtain ⟨q, i, ex, h1, h2, -⟩ := searchLoop_spec cmp t key hdeg d _ (r6 _ hkm) (hoccs _ hkm).2 (hoccs _ hkm).1.2
        refine ⟨q, i, ex, h1, ?_⟩
        constructor
        · intro hex
          obtain ⟨-, h3, h4⟩ := h2 hex
          exact absurd ⟨_, h3, h4⟩ (hother _ hck (by omega))
        · intro hn
          exact absurd (Or.inl ⟨j, hjv, hhit, hland⟩) hn
    · obtain ⟨mid', hb⟩ := bsearch_miss cmp t p vs.length j key hlen hlo (by
        intro i hi hiv
        by_cases hij : i = j
        · subst hij
          have h1 := hmid hiv
          have h2 : cmp key (t.h.values p i).1 ≠ 0 := fun h => hhit ⟨hiv, by rw [← r3 i hiv]; exact h⟩
          omega
        · exact hhi i (by omega) hiv) _ 0 vs.length 0 (Nat.le_refl _) (Nat.zero_le _) (by omega) (Nat.le_refl _)
      rw [hgo _ _ _ hj hb, lost_inner]
      obtain ⟨q, i, ex, h1, h2⟩ := ih (ks[j]) (r6 _ hk0) (hoccs _ hk0).2 (hoccs _ hk0).1.2 (htk _ hk0) (hs1 _ hk0) ⟨e, he0, hk⟩
      refine ⟨q, i, ex, h1, h2.trans (not_congr ?_)⟩
      rw [hlostk]
      constructor
      · exact Or.inr
      · rintro (⟨i, hi, hz, hl⟩ | h)
        · exfalso
          rcases Nat.lt_trichotomy i j with h | h | h
          · have := hlo i h; rw [r3 i hi] at this; omega
          · subst h; exact hhit ⟨hi, hz⟩
          · have := hhi i h hi; rw [r3 i hi] at this; omega
        · exact h

/-! ### The two descriptions agree -/

omit [Inhabited K] [Inhabited V] in
theorem Lost.missed {cmp : Compare K} {t : Tree K V} {key : K} : ∀ {d : Nat} (b : BT K V d), Rep t.h b → Node t b.ptr → b.Lost cmp key → Missed cmp t key
  | 0, _, _, _, hl => hl.elim
  | d + 1, b, hr, hn, hl => by
    obtain ⟨p, vs, ks, rfl⟩ := exists_inner b
    obtain ⟨r1, r2, r3, r4, r5, r6⟩ := (rep_inner _ _ _ _).1 hr
    rcases (lost_inner _ _ _ _).1 hl with ⟨i, hi, h1, h2⟩ | ⟨k, hk, hlk⟩
    · exact ⟨p, i, hn, r1, by rw [r2]; exact hi, by rw [r3 i hi]; exact h1, by rw [r2]; exact h2⟩
    · obtain ⟨i, hi, rfl⟩ := List.getElem_of_mem hk
      refine Lost.missed _ (r6 _ hk) (.kid (i := i) hn r1 (by rw [inner_ptr, r2]; omega) ?_) hlk
      rw [inner_ptr, r5 i (by simpa using hi)]; simp

omit [Inhabited K] [Inhabited V] in
/-- Every node of the tree is the top of a subtree. -/
theorem Node.sub {t : Tree K V} {d : Nat} {b : BT K V d} (hroot : t.root = some b.ptr) (hr : Rep t.h b) (cmp : Compare K) (key : K) {M : Nat} (ho : b.KidsOcc M)
    {p : Nat} (hn : Node t p) : ∃ d', ∃ b' : BT K V d', b'.ptr = p ∧ Rep t.h b' ∧ b'.KidsOcc M ∧ (b'.Lost cmp key → b.Lost cmp key) ∧
      (∀ x ∈ b'.entries, x ∈ b.entries) ∧ (b.Tight cmp → b'.Tight cmp) ∧ b'.entries.length ≤ b.entries.length := by
  induction hn with
  | root h =>
    rw [h] at hroot
    injection hroot with hroot
    exact ⟨d, b, hroot.symm, hr, ho, id, fun _ h => h, id, Nat.le_refl _⟩
  | @kid p c i _ hl hi hcd ih =>
    obtain ⟨d', b', rfl, hr', ho', hlost, hsub, htt, hlen⟩ := ih
    cases d' with
    | zero => rw [hr'.isLeaf_eq] at hl; simp at hl
    | succ d' =>
      obtain ⟨q, vs, ks, rfl⟩ := exists_inner b'
      obtain ⟨r1, r2, r3, r4, r5, r6⟩ := (rep_inner _ _ _ _).1 hr'
      rw [inner_ptr, r2] at hi
      have hik : i < ks.length := by omega
      have hm := List.getElem_mem hik
      refine ⟨d', ks[i], ?_, r6 _ hm, ((inner_kidsOcc _ _ _ _).1 ho' _ hm).2, fun h => hlost (Or.inr ⟨_, hm, h⟩), fun x hx => hsub x ?_,
        fun h => ((tight_inner _ _ _ _).1 (htt h)).2 _ hm, ?_⟩
      · rw [inner_ptr, r5 i (by simpa using hik)] at hcd
        simpa using hcd
      · exact List.mem_flatMap.2 ⟨_, hm, hx⟩
      · refine Nat.le_trans ?_ hlen
        exact entries_length_le hm

omit [Inhabited K] [Inhabited V] in
theorem missed_iff {cmp : Compare K} {t : Tree K V} {d : Nat} {b : BT K V d} (g : Good t b) (key : K) : Missed cmp t key ↔ b.Lost cmp key := by
  constructor
  · rintro ⟨p, i, hn, hl, hi, h1, h2⟩
    obtain ⟨d', b', rfl, hr', -, hlost, -⟩ := hn.sub g.root g.pre.rep cmp key g.pre.occ
    apply hlost
    cases d' with
    | zero => rw [hr'.isLeaf_eq] at hl; simp at hl
    | succ d' =>
      obtain ⟨q, vs, ks, rfl⟩ := exists_inner b'
      obtain ⟨r1, r2, r3, r4, r5, r6⟩ := (rep_inner _ _ _ _).1 hr'
      rw [inner_ptr, r2] at hi h2
      rw [inner_ptr, r3 i hi] at h1
      exact Or.inl ⟨i, hi, h1, h2⟩
  · exact Lost.missed b g.pre.rep (.root g.root)

/-! ### Histories of insertions -/

/-- A tree built by insertions. -/
structure Built (cmp : Compare K) (t : Tree K V) {d : Nat} (b : BT K V d) : Prop where
  good : Good t b
  sorted : Sorted cmp b.inter
  tight : b.Tight cmp

omit [Inhabited K] [Inhabited V] in
theorem Built.strict {cmp : Compare K} {t : Tree K V} {d : Nat} {b : BT K V d} (r : Built cmp t b) (hd : Distinct cmp b.entries) :
    b.entries.Pairwise (fun x y => cmp x.1 y.1 < 0) := by
  have h1 : Sorted cmp b.entries := List.Pairwise.sublist (entries_sublist_inter b ⟨_, r.good.pre.rep⟩) r.sorted
  refine (h1.and hd).imp ?_
  intro x y ⟨a, b⟩
  omega

theorem step_built {cmp : Compare K} (hc : cmp.Lawful) {t : Tree K V} {d : Nat} {b : BT K V d} (r : Built cmp t b) (op : Op K V) (hop : Inserts op) :
    (∃ k v, op = .insertUnique k v ∧ step cmp t op = .ok (t, .bool false) ∧ containsKey cmp t k = .ok true ∧ ∃ e ∈ b.entries, cmp k e.1 = 0) ∨
    ∃ e t' d', ∃ b' : BT K V d', entryOf op = some e ∧ step cmp t op = .ok (t', .bool true) ∧ Built cmp t' b' ∧ t'.degree = t.degree ∧
      Added e b.entries b'.entries ∧ (∀ k v, op = .insertUnique k v → containsKey cmp t k = .ok false) := by
  cases op with
  | insertEqual k v =>
    right
    obtain ⟨t', d', b', h1, h2, h3, h4, h5, h6, h7⟩ := insert_exact cmp t b (k, v) r.good
    exact ⟨(k, v), t', d', b', rfl, by simp [step, insertEqual, h1], ⟨h2, h6 hc r.sorted, h7 hc r.sorted r.tight⟩, h3, h4, by simp⟩
  | insertUnique k v =>
    obtain ⟨o, o1, -, o3, -⟩ := reads_good cmp t b r.good k
    cases o with
    | some e =>
      left
      refine ⟨k, v, rfl, by simp [step, insertUnique, o3], by simpa using o3, e, o1 e rfl⟩
    | none =>
      right
      obtain ⟨t', d', b', h1, h2, h3, h4, h5, h6, h7⟩ := insert_exact cmp t b (k, v) r.good
      refine ⟨(k, v), t', d', b', rfl, by simp [step, insertUnique, o3, h1], ⟨h2, h6 hc r.sorted, h7 hc r.sorted r.tight⟩, h3, h4, ?_⟩
      intro k' v' he
      injection he with e1 e2
      subst e1
      simpa using o3
  | _ => exact absurd hop (by simp [Inserts])

theorem run_built {cmp : Compare K} (hc : cmp.Lawful) : ∀ (ops : List (Op K V)), (∀ op ∈ ops, Inserts op) → ∀ (t : Tree K V) {d : Nat} (b : BT K V d),
    Built cmp t b → ∃ t' os d', ∃ b' : BT K V d', run cmp t ops = .ok (t', os) ∧ Built cmp t' b' ∧ t'.degree = t.degree
  | [], _, t, d, b, r => ⟨t, [], d, b, rfl, r, rfl⟩
  | op :: ops, hop, t, d, b, r => by
    have hops : ∀ x ∈ ops, Inserts x := fun x hx => hop x (by simp [hx])
    rcases step_built hc r op (hop op (by simp)) with ⟨k, v, -, h, -⟩ | ⟨e, t1, d1, b1, -, h, r1, hd, -⟩
    · obtain ⟨t2, os, d2, b2, g1, g2, g3⟩ := run_built hc ops hops t b r
      exact ⟨t2, .bool false :: os, d2, b2, by simp [run, h, g1], g2, g3⟩
    · obtain ⟨t2, os, d2, b2, g1, g2, g3⟩ := run_built hc ops hops t1 b1 r1
      exact ⟨t2, .bool true :: os, d2, b2, by simp [run, h, g1], g2, by rw [g3, hd]⟩

theorem newMap_built (cmp : Compare K) {M : Nat} (hM : 2 ≤ M) : ∃ t : Tree K V, newMap M = .ok t ∧ t.degree = M ∧ Built cmp t (leaf 0 []) := by
  obtain ⟨t, h0, hd, g⟩ := newMap_good (K := K) (V := V) hM
  exact ⟨t, h0, hd, g, by simp [Sorted], trivial⟩

/-- Reading in a tree built by insertions. -/
theorem reads_built {cmp : Compare K} (hc : cmp.Lawful) {t : Tree K V} {d : Nat} {b : BT K V d} (r : Built cmp t b) (hd : Distinct cmp b.entries) (key : K) :
    ∃ o, Reads cmp t key o ∧ (∀ e, o = some e → e ∈ b.entries ∧ cmp key e.1 = 0) ∧
      (o.isSome ↔ (∃ e ∈ b.entries, cmp key e.1 = 0) ∧ ¬ Missed cmp t key) := by
  obtain ⟨o, o1, -, o3, o4, o5, o6, -⟩ := reads_good cmp t b r.good key
  refine ⟨o, ⟨o3, o4, o5, o6⟩, o1, ?_⟩
  rw [missed_iff r.good]
  constructor
  · intro ho
    obtain ⟨e, rfl⟩ := Option.isSome_iff_exists.1 ho
    have he := o1 e rfl
    refine ⟨⟨e, he⟩, ?_⟩
    obtain ⟨q, i, ex, h1, h2⟩ := searchLoop_exact hc t key r.good.pre.deg d b r.good.pre.rep r.good.pre.occ r.good.hi r.tight (r.strict hd) ⟨e, he⟩
    rw [← r.good.root] at h1
    have hne : b.entries ≠ [] := List.ne_nil_of_mem he.1
    have hsz : ¬ t.size = 0 := by
      rw [r.good.size]
      have := List.length_pos_iff.2 hne
      omega
    simp only [containsKey, search, hsz, if_false, h1, Res.bind_ok, Option.isSome_some] at o3
    injection o3 with o3
    exact h2.1 o3
  · rintro ⟨⟨e, he⟩, hn⟩
    obtain ⟨q, i, ex, h1, h2⟩ := searchLoop_exact hc t key r.good.pre.deg d b r.good.pre.rep r.good.pre.occ r.good.hi r.tight (r.strict hd) ⟨e, he⟩
    rw [← r.good.root] at h1
    have hne : b.entries ≠ [] := List.ne_nil_of_mem he.1
    have hsz : ¬ t.size = 0 := by
      rw [r.good.size]
      have := List.length_pos_iff.2 hne
      omega
    simp only [containsKey, search, hsz, if_false, h1, Res.bind_ok] at o3
    injection o3 with o3
    rw [← o3]
    exact h2.2 hn

/-- Exactly which keys are found after a history of insertions that left pairwise different keys: the stored ones that are not
    `Missed`. -/
theorem read_exact {cmp : Compare K} (hc : cmp.Lawful) (M : Nat) (hM : 2 ≤ M) (ops : List (Op K V)) (hins : ∀ op ∈ ops, Inserts op) :
    ∃ t os d l es ss, runNew cmp M ops = .ok (t, os) ∧ Holds t d l es ss ∧ es.Perm (accepted ops os) ∧
      (Distinct cmp es → ∀ key, ∃ o, Reads cmp t key o ∧ (∀ e, o = some e → e ∈ es ∧ cmp key e.1 = 0) ∧
        (o.isSome ↔ (∃ e ∈ es, cmp key e.1 = 0) ∧ ¬ Missed cmp t key)) := by
  obtain ⟨t, os, d, l, es, ss, h1, h2, h3, h4, h5, h6, h7⟩ := insert_histories hc M hM ops hins
  obtain ⟨t0, h0, hd, r0⟩ := newMap_built (V := V) cmp hM
  obtain ⟨t1, os1, d1, b1, g1, g2, g3⟩ := run_built hc ops hins t0 _ r0
  have : runNew cmp M ops = .ok (t1, os1) := by simp [runNew, h0, g1]
  rw [h1] at this
  injection this with this
  injection this with e1 e2
  subst e1 e2
  obtain ⟨-, -, rfl, -⟩ := h4.unique g2.good.holds
  exact ⟨t, os, d, l, _, ss, h1, h4, h6, fun hdist key => reads_built hc g2 hdist key⟩

/-- Every stored key is found if and only if no inner node has more than two separators. -/
theorem complete_built {cmp : Compare K} (hc : cmp.Lawful) {t : Tree K V} {d : Nat} {b : BT K V d} (r : Built cmp t b) (hd : Distinct cmp b.entries) :
    (∀ e ∈ b.entries, containsKey cmp t e.1 = .ok true) ↔ ∀ p, Node t p → t.h.isLeaf p = false → t.h.num p ≤ 2 := by
  constructor
  · intro hall p hn hl
    by_contra hgt
    obtain ⟨d', b', rfl, hr', ho', -, hsub, htt, -⟩ := hn.sub r.good.root r.good.pre.rep cmp default r.good.pre.occ
    cases d' with
    | zero => rw [hr'.isLeaf_eq] at hl; simp at hl
    | succ d' =>
      obtain ⟨q, vs, ks, rfl⟩ := exists_inner b'
      obtain ⟨r1, r2, r3, r4, r5, r6⟩ := (rep_inner _ _ _ _).1 hr'
      rw [inner_ptr] at hgt hn hl
      have hi : (vs.length - 1) / 2 < vs.length := by omega
      obtain ⟨y, y1, y2⟩ := tight_sep r4 (htt r.tight) _ hi
      have hy : y ∈ b.entries := hsub y (List.mem_flatMap.2 ⟨ks[(vs.length - 1) / 2], List.getElem_mem _, List.mem_of_mem_getLast? (by simpa using y1)⟩)
      have hm : Missed cmp t y.1 := ⟨q, (vs.length - 1) / 2, hn, hl, by rw [r2]; exact hi, by rw [r3 _ hi]; exact y2,
        by rw [r2]; exact lowerEnd_big (by omega)⟩
      obtain ⟨o, o1, -, o3⟩ := reads_built hc r hd y.1
      have h1 := hall y hy
      rw [o1.1] at h1
      injection h1 with h1
      exact (o3.1 h1).2 hm
  · intro hall e he
    obtain ⟨o, o1, -, o3⟩ := reads_built hc r hd e.1
    rw [o1.1]
    congr 1
    refine o3.2 ⟨⟨e, he, hc.self _⟩, ?_⟩
    rintro ⟨p, i, h1, h2, h3, -, h5⟩
    exact h5 (lowerEnd_small (hall p h1 h2) h3)

/-- After a history of insertions that left pairwise different keys every stored key is found if and only if no inner node has more
    than two separators. -/
theorem read_complete_iff {cmp : Compare K} (hc : cmp.Lawful) (M : Nat) (hM : 2 ≤ M) (ops : List (Op K V)) (hins : ∀ op ∈ ops, Inserts op) :
    ∃ t os d l es ss, runNew cmp M ops = .ok (t, os) ∧ Holds t d l es ss ∧ es.Perm (accepted ops os) ∧
      (Distinct cmp es → ((∀ e ∈ es, containsKey cmp t e.1 = .ok true) ↔ ∀ p, Node t p → t.h.isLeaf p = false → t.h.num p ≤ 2)) := by
  obtain ⟨t, os, d, l, es, ss, h1, h2, h3, h4, h5, h6, h7⟩ := insert_histories hc M hM ops hins
  obtain ⟨t0, h0, hd, r0⟩ := newMap_built (V := V) cmp hM
  obtain ⟨t1, os1, d1, b1, g1, g2, g3⟩ := run_built hc ops hins t0 _ r0
  have : runNew cmp M ops = .ok (t1, os1) := by simp [runNew, h0, g1]
  rw [h1] at this
  injection this with this
  injection this with e1 e2
  subst e1 e2
  obtain ⟨-, -, rfl, -⟩ := h4.unique g2.good.holds
  exact ⟨t, os, d, l, _, ss, h1, h4, h6, fun hdist => complete_built hc g2 hdist⟩

/-! ### Maps of up to four leaves' worth of entries -/

omit [Inhabited K] [Inhabited V] in
theorem entries_ge {M : Nat} {h : Heap K V} : ∀ {d : Nat} (b : BT K V d), Rep h b → b.KidsOcc M → (d = 0 → M - 1 ≤ b.vals.length) → M - 1 ≤ b.entries.length
  | 0, b, _, _, hv => by
    obtain ⟨p, vs, rfl⟩ := exists_leaf b
    exact hv rfl
  | d + 1, b, hr, ho, _ => by
    obtain ⟨p, vs, ks, rfl⟩ := exists_inner b
    obtain ⟨-, -, -, hl, -, hk⟩ := (rep_inner _ _ _ _).1 hr
    cases ks with
    | nil => simp at hl
    | cons k ks =>
      have ho' := (inner_kidsOcc _ _ _ _).1 ho k (by simp)
      have := entries_ge k (hk k (by simp)) ho'.2 (fun _ => ho'.1.1)
      simp only [inner_entries, List.flatMap_cons, List.length_append]
      omega

omit [Inhabited K] [Inhabited V] in
theorem kids_ge {M d : Nat} {h : Heap K V} : ∀ (ks : List (BT K V d)), (∀ k ∈ ks, Rep h k ∧ M - 1 ≤ k.vals.length ∧ k.KidsOcc M) →
    ks.length * (M - 1) ≤ (ks.flatMap BT.entries).length
  | [], _ => by simp
  | k :: ks, hk => by
    have h1 := hk k (by simp)
    have h2 := entries_ge k h1.1 h1.2.2 (fun _ => h1.2.1)
    have h3 := kids_ge ks (fun x hx => hk x (by simp [hx]))
    simp only [List.length_cons, List.flatMap_cons, List.length_append, Nat.add_mul, Nat.one_mul]
    omega

omit [Inhabited K] [Inhabited V] in
theorem small_nodes {t : Tree K V} {d : Nat} {b : BT K V d} (g : Good t b) (hsmall : b.entries.length < 4 * (t.degree - 1)) :
    ∀ p, Node t p → t.h.isLeaf p = false → t.h.num p ≤ 2 := by
  intro p hn hl
  by_contra hgt
  obtain ⟨d', b', rfl, hr', ho', -, -, -, hlen⟩ := hn.sub g.root g.pre.rep (fun _ _ => 0) ((t.h.values p 0).1) g.pre.occ
  cases d' with
  | zero => rw [hr'.isLeaf_eq] at hl; simp at hl
  | succ d' =>
    obtain ⟨q, vs, ks, rfl⟩ := exists_inner b'
    obtain ⟨r1, r2, r3, r4, r5, r6⟩ := (rep_inner _ _ _ _).1 hr'
    rw [inner_ptr, r2] at hgt
    have hocc := (inner_kidsOcc _ _ _ _).1 ho'
    have h1 := kids_ge ks (fun k hk => ⟨r6 k hk, (hocc k hk).1.1, (hocc k hk).2⟩)
    rw [inner_entries] at hlen
    have h2 : 4 * (t.degree - 1) ≤ ks.length * (t.degree - 1) := Nat.mul_le_mul_right _ (by omega)
    omega

/-- Only `InsertUnique`. -/
def Unique : Op K V → Prop
  | .insertUnique _ _ => True
  | _ => False

omit [Inhabited K] [Inhabited V] in
theorem Unique.inserts {op : Op K V} (h : Unique op) : Inserts op := by cases op <;> simp_all [Unique, Inserts]

omit [Inhabited V] in
theorem Distinct.added {cmp : Compare K} (hc : cmp.Lawful) {e : K × V} {xs ys : List (K × V)} (ha : Added e xs ys) (hd : Distinct cmp xs)
    (hn : ∀ x ∈ xs, cmp e.1 x.1 ≠ 0) : Distinct cmp ys := by
  obtain ⟨P, S, rfl, rfl⟩ := ha
  unfold Distinct at *
  simp only [List.pairwise_append, List.pairwise_cons, List.mem_append, List.mem_cons] at hd hn ⊢
  refine ⟨hd.1, ⟨fun x hx => hn x (Or.inr hx), hd.2.1⟩, ?_⟩
  rintro a ha b (rfl | hb)
  · exact fun h => hn a (Or.inl ha) (hc.zero_symm h)
  · exact hd.2.2 a ha b hb

theorem run_unique {cmp : Compare K} (hc : cmp.Lawful) : ∀ (ops : List (Op K V)), (∀ op ∈ ops, Unique op) → ∀ (t : Tree K V) {d : Nat} (b : BT K V d),
    Built cmp t b → Distinct cmp b.entries → ∃ t' os d', ∃ b' : BT K V d', run cmp t ops = .ok (t', os) ∧ Built cmp t' b' ∧ t'.degree = t.degree ∧
      b.entries.length ≤ b'.entries.length ∧
      (b'.entries.length ≤ 4 * (t.degree - 1) → Trace cmp b.entries ops os b'.entries ∧ Distinct cmp b'.entries)
  | [], _, t, d, b, r, hd => ⟨t, [], d, b, rfl, r, rfl, Nat.le_refl _, fun _ => ⟨.nil _, hd⟩⟩
  | op :: ops, hop, t, d, b, r, hd => by
    have hops : ∀ x ∈ ops, Unique x := fun x hx => hop x (by simp [hx])
    rcases step_built hc r op (hop op (by simp)).inserts with ⟨k, v, rfl, h, -, he⟩ | ⟨e, t1, d1, b1, hent, h, r1, hdeg, ha, hnc⟩
    · obtain ⟨t2, os, d2, b2, g1, g2, g3, g4, g5⟩ := run_unique hc ops hops t b r hd
      exact ⟨t2, _, d2, b2, by simp [run, h, g1], g2, g3, g4, fun hl => ⟨.cons (Or.inr ⟨rfl, he, rfl⟩) (g5 hl).1, (g5 hl).2⟩⟩
    · have hlen1 : b1.entries.length = b.entries.length + 1 := by rw [ha.perm.length_eq]; simp
      cases op with
      | insertUnique k v =>
        simp only [entryOf, Option.some.injEq] at hent
        subst hent
        by_cases hsm : b.entries.length < 4 * (t.degree - 1)
        · have hns : ∀ x ∈ b.entries, cmp k x.1 ≠ 0 := by
            intro x hx hz
            obtain ⟨o, o1, -, o3⟩ := reads_built hc r hd k
            have h1 := hnc k v rfl
            rw [o1.1] at h1
            injection h1 with h1
            have : o.isSome = true := o3.2 ⟨⟨x, hx, hz⟩, by
              rintro ⟨p, i, h1, h2, h3, -, h5⟩
              exact h5 (lowerEnd_small (small_nodes r.good hsm p h1 h2) h3)⟩
            rw [h1] at this
            simp at this
          obtain ⟨t2, os, d2, b2, g1, g2, g3, g4, g5⟩ := run_unique hc ops hops t1 b1 r1 (Distinct.added hc ha hd hns)
          refine ⟨t2, .bool true :: os, d2, b2, by simp [run, h, g1], g2, by rw [g3, hdeg], by omega, fun hl => ?_⟩
          rw [hdeg] at g5
          exact ⟨.cons (Or.inl ⟨rfl, hns, ha.perm⟩) (g5 hl).1, (g5 hl).2⟩
        · have hins : ∀ op ∈ ops, Inserts op := fun x hx => (hops x hx).inserts
          obtain ⟨t2, os, d2, b2, g1, g2, g3, g4, -, g6, -⟩ := run_inserts hc ops hins t1 b1 r1.good r1.sorted
          obtain ⟨t3, os3, d3, b3, k1, k2, k3⟩ := run_built hc ops hins t1 b1 r1
          rw [g1] at k1
          injection k1 with k1
          injection k1 with e1 e2
          subst e1 e2
          obtain ⟨-, -, e3, -⟩ := g2.holds.unique k2.good.holds
          have hl2 := g6.length_eq
          rw [e3] at hl2
          simp only [List.length_append] at hl2
          exact ⟨t2, .bool true :: os, d3, b3, by simp [run, h, g1], k2, by rw [g3, hdeg], by omega, fun hl => by omega⟩
      | _ => exact absurd (hop _ List.mem_cons_self) (by simp [Unique])

/-- `InsertUnique` keeps a set as long as the map has at most `4(M-1)` entries: every answer is right, and below that size
    every stored key is found. -/
theorem unique_small {cmp : Compare K} (hc : cmp.Lawful) (M : Nat) (hM : 2 ≤ M) (ops : List (Op K V)) (hu : ∀ op ∈ ops, Unique op) :
    ∃ t os d l es ss, runNew cmp M ops = .ok (t, os) ∧ Holds t d l es ss ∧ Ascending cmp es ∧
      (es.length ≤ 4 * (M - 1) → Trace cmp [] ops os es ∧ Distinct cmp es) ∧
      (es.length < 4 * (M - 1) → ∀ key, ∃ o, Reads cmp t key o ∧ (∀ e, o = some e → e ∈ es ∧ cmp key e.1 = 0) ∧
        (o.isSome ↔ ∃ e ∈ es, cmp key e.1 = 0)) := by
  obtain ⟨t0, h0, hd, r0⟩ := newMap_built (V := V) cmp hM
  obtain ⟨t1, os1, d1, b1, g1, g2, g3, g4, g5⟩ := run_unique hc ops hu t0 _ r0 (by simp [Distinct])
  rw [hd] at g3 g5
  refine ⟨t1, os1, d1, _, _, _, by simp [runNew, h0, g1], g2.good.holds, ?_, by simpa using g5, fun hl key => ?_⟩
  · exact List.Pairwise.sublist (entries_sublist_inter b1 ⟨_, g2.good.pre.rep⟩) g2.sorted
  · obtain ⟨o, o1, o2, o3⟩ := reads_built hc g2 (g5 (by omega)).2 key
    refine ⟨o, o1, o2, o3.trans ⟨And.left, fun h => ⟨h, ?_⟩⟩⟩
    rintro ⟨p, i, h1, h2, h3, -, h5⟩
    exact h5 (lowerEnd_small (small_nodes g2.good (by rw [g3]; exact hl) p h1 h2) h3)

/-- Non-vacuity, both sides: after inserting 1 … 8 into a map of degree 2 key 4 is missed, key 5 is found. -/
example : ∃ t, runNew Fn.comp 2 (ascending 8) = .ok (t, List.replicate 8 (.bool true)) ∧ Missed Fn.comp t 4 ∧ ¬ Missed Fn.comp t 5 ∧
    containsKey Fn.comp t 5 = .ok true := by
  obtain ⟨t, h1, ⟨d, l, ss, h2⟩, h3⟩ := eval_history (cmp := Fn.comp) (M := 2) (Nat.le_refl _) (ops := ascending 8)
    (xs := pairs [1, 2, 3, 4, 5, 6, 7, 8]) (ys := List.replicate 8 (.bool true))
    (p := fun t => decide (Eval.containsKeyF Fn.comp t 4 = .ok false) && decide (Eval.containsKeyF Fn.comp t 5 = .ok true))
    (by simp [ascending]) (by decide)
  simp only [Bool.and_eq_true, decide_eq_true_eq] at h3
  obtain ⟨a1, a2⟩ := h3
  replace a1 : containsKey Fn.comp t 4 = .ok false := by
    have := Eval.containsKeyF_le Fn.comp t 4; rw [a1] at this; exact this.of_ne (by simp)
  replace a2 : containsKey Fn.comp t 5 = .ok true := by
    have := Eval.containsKeyF_le Fn.comp t 5; rw [a2] at this; exact this.of_ne (by simp)
  obtain ⟨t', os', d', l', es', ss', b1, b2, -, b4⟩ := read_exact (K := Nat) (V := Nat) Fn.comp_strict.toLawful 2 (Nat.le_refl _) (ascending 8)
    (by simp [ascending, Inserts])
  rw [h1] at b1
  injection b1 with b1
  injection b1 with e1 e2
  subst e1 e2
  obtain ⟨-, -, rfl, -⟩ := h2.unique b2
  have b5 := b4 (by simp [Distinct, pairs]; decide)
  refine ⟨t, h1, ?_, ?_, a2⟩
  · obtain ⟨o, o1, -, o3⟩ := b5 4
    have := o1.1
    rw [a1] at this
    injection this with this
    by_contra hn
    have h6 := o3.2 ⟨⟨(4, 4), by simp [pairs], by decide⟩, hn⟩
    rw [← this] at h6
    simp at h6
  · obtain ⟨o, o1, -, o3⟩ := b5 5
    have := o1.1
    rw [a2] at this
    injection this with this
    exact (o3.1 this.symm).2

end Gds.BPlus
