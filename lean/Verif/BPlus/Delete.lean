import Verif.BPlus.Shift

/-! `deleteNonOne` and `delete` on abstract trees. -/

namespace Gds.BPlus
open BT Tree
variable {K V : Type} [Inhabited K] [Inhabited V]

/-- `key` is stored below `b`, nothing below `b` is smaller, and `b` is in order. -/
structure MinHyp {d : Nat} (cmp : Compare K) (key : K) (b : BT K V d) : Prop where
  lawful : cmp.Lawful
  sorted : Sorted cmp b.inter
  le : ∀ x ∈ b.inter, cmp key x.1 ≤ 0
  mem : ∃ e ∈ b.entries, cmp key e.1 = 0

omit [Inhabited K] [Inhabited V] in
theorem Smear.inside {xs ys : List (K × V)} (h : Smear xs ys) (A B : List (K × V)) : Smear (A ++ (xs ++ B)) (A ++ (ys ++ B)) := by
  rcases h with rfl | ⟨P, x, y, S, rfl, rfl⟩
  · exact Or.inl rfl
  · exact Or.inr ⟨A ++ P, x, y, S ++ B, by simp, by simp⟩

omit [Inhabited K] [Inhabited V] in
theorem Drop1.inside {cmp : Compare K} {key : K} {xs ys : List (K × V)} (h : Drop1 cmp key xs ys) (A B : List (K × V)) :
    Drop1 cmp key (A ++ (xs ++ B)) (A ++ (ys ++ B)) := by
  rcases h with rfl | ⟨P, e, S, rfl, rfl, h⟩
  · exact Or.inl rfl
  · exact Or.inr ⟨A ++ P, e, S ++ B, by simp, by simp, h⟩

omit [Inhabited K] [Inhabited V] in
theorem Drop1.sorted {cmp : Compare K} {key : K} {xs ys P S : List (K × V)} (h : Drop1 cmp key xs ys) (hs : Sorted cmp (P ++ xs ++ S)) : Sorted cmp (P ++ ys ++ S) := by
  rcases h with rfl | ⟨A, e, B, rfl, rfl, -⟩
  · exact hs
  · exact List.Pairwise.sublist (by simp) hs

/-- What deleting below `b` achieves. -/
structure DelPost {d : Nat} (cmp : Compare K) (key : K) (t t' : Tree K V) (b b' : BT K V d) (X Y : List Nat) : Prop where
  rep : Rep t'.h b'
  ptr : b'.ptr = b.ptr
  degree : t'.degree = t.degree
  root : t'.root = t.root
  fresh : t'.fresh = t.fresh
  nodup : b'.ids.Nodup
  ids : ∀ q ∈ b'.ids, q ∈ b.ids
  leaves : List.Sublist b'.leaves b.leaves
  same : ∀ q, q ∉ b.ids → SameAt t.h t'.h q
  occ : b'.KidsOcc t.degree
  len : b.vals.length ≤ b'.vals.length + 1 ∧ b'.vals.length ≤ b.vals.length
  count : (t'.size = t.size ∧ b'.entries.length = b.entries.length) ∨ (t'.size = t.size - 1 ∧ b'.entries.length + 1 = b.entries.length)
  ring : Ring t'.h (X ++ b'.leaves ++ Y)
  sorted : cmp.Lawful → d ≤ 1 → ∀ P S, Sorted cmp (P ++ b.inter ++ S) → Sorted cmp (P ++ b'.inter ++ S)
  loss : ∃ ms, (d = 0 → ms = b.entries) ∧ Smear b.entries ms ∧ Drop1 cmp key ms b'.entries

/-- Exactly the least entry is gone and the order is kept. -/
structure DelMin {d : Nat} (cmp : Compare K) (key : K) (b b' : BT K V d) : Prop where
  entries : ∃ e, cmp key e.1 = 0 ∧ b.entries = e :: b'.entries
  sub : ∀ x ∈ b'.inter, x ∈ b.inter
  sorted : ∀ P S, Sorted cmp (P ++ b.inter ++ S) → Sorted cmp (P ++ b'.inter ++ S)

/-- bplustree.go:345-359: deleting in a leaf. -/
theorem deleteNonOne_leaf (cmp : Compare K) (t : Tree K V) (p : Nat) (vs : List (K × V)) (key : K) (hr : Rep t.h (leaf p vs))
    (hlen : vs.length ≤ 2 * t.degree - 1) (hpos : 1 ≤ vs.length) :
    ∃ A B, vs = A ++ B ∧ (∀ x ∈ A, cmp x.1 key < 0) ∧ (∀ x, B.head? = some x → ¬ cmp x.1 key < 0) ∧
      ((B = [] ∧ vs.length = 2 * t.degree - 1 ∧ deleteNonOne cmp t (some p) key = .panic .indexOutOfRange) ∨
       (deleteNonOne cmp t (some p) key = .ok t ∧ ∀ x, B.head? = some x → cmp key x.1 ≠ 0) ∨
       (∃ t' vs', deleteNonOne cmp t (some p) key = .ok t' ∧ t'.degree = t.degree ∧ t'.root = t.root ∧ t'.fresh = t.fresh ∧ t'.size = t.size - 1 ∧
          t'.h.next = t.h.next ∧ t'.h.prev = t.h.prev ∧ (∀ q, q ≠ p → SameAt t.h t'.h q) ∧ Rep t'.h (leaf p vs') ∧
          ((∃ e B', B = e :: B' ∧ cmp key e.1 = 0 ∧ vs' = A ++ B') ∨ (B = [] ∧ vs' = vs.dropLast)))) := by
  obtain ⟨r1, r2, r3, r4⟩ := (rep_leaf _ _ _).1 hr
  obtain ⟨i, -, hi, h1, h2, h3⟩ := findSlot_post cmp t p key vs.length 0 (by omega)
  rw [Nat.zero_add] at hi h3
  obtain ⟨A, B, hA, hvs⟩ : ∃ A B, A.length = i ∧ vs = A ++ B := ⟨vs.take i, vs.drop i, by simp; omega, by simp⟩
  subst hvs
  refine ⟨A, B, rfl, ?_, ?_, ?_⟩
  · intro x hx
    obtain ⟨j, hj, rfl⟩ := List.getElem_of_mem hx
    have := h2 j (Nat.zero_le _) (by omega)
    rwa [r3.left j hj] at this
  · intro x hx
    cases B with
    | nil => simp at hx
    | cons b B =>
      simp at hx; subst hx
      have := h3 (by simp; omega)
      rwa [← hA, r3.at] at this
  · rw [deleteNonOne]
    simp only [getLeaf, r1, Res.bind_ok, getNum, r2, h1, if_true, getVal]
    by_cases hb : i < 2 * t.degree - 1
    · simp only [hb, if_true, Res.bind_ok]
      by_cases hc : cmp key (t.h.values p i).1 = 0
      · right; right
        simp only [hc, if_true, setNum]
        rw [copyValsUp_eq _ _ _ _ _ _ (by omega) (by omega) (by omega)]
        simp only [Res.bind_ok]
        cases B with
        | nil =>
          refine ⟨_, (A ++ []).dropLast, rfl, rfl, rfl, rfl, rfl, rfl, rfl, fun q hq => ⟨rfl, by simp [hq], by funext j; simp [hq], rfl⟩, ?_, Or.inr ⟨rfl, rfl⟩⟩
          simp only [List.append_nil] at *
          refine (rep_leaf _ _ _).2 ⟨r1, by simp, ?_, r4⟩
          rw [List.dropLast_eq_take]
          refine (r3.take _).of_eq (fun j hj => ?_)
          simp at hj
          have : ¬ i ≤ j := by omega
          simp [this]
        | cons b B =>
          refine ⟨_, A ++ B, rfl, rfl, rfl, rfl, rfl, rfl, rfl, fun q hq => ⟨rfl, by simp [hq], by funext j; simp [hq], rfl⟩, ?_, Or.inl ⟨b, B, rfl, ?_, rfl⟩⟩
          · refine (rep_leaf _ _ _).2 ⟨r1, by simp, ?_, r4⟩
            refine r3.erase (fun j hj => ?_)
            simp only [true_and, hA]
            simp at hlen hi
            by_cases hji : j < i
            · rw [if_neg (by omega), if_pos hji]
            · rw [if_pos (by omega), if_neg hji]
              congr 1; omega
          · rwa [← hA, r3.at] at hc
      · right; left
        simp only [hc, if_false]
        refine ⟨trivial, fun x hx => ?_⟩
        cases B with
        | nil => simp at hx
        | cons b B =>
          simp at hx; subst hx
          rwa [← hA, r3.at] at hc
    · left
      simp only [hb, if_false]
      have : B.length = 0 := by simp at hlen hi; omega
      refine ⟨List.length_eq_zero_iff.1 this, by simp at hlen hi ⊢; omega, rfl⟩

omit [Inhabited K] [Inhabited V] in
theorem entries_ne_nil {M : Nat} (hM : 2 ≤ M) {h : Heap K V} : ∀ {d : Nat} (b : BT K V d), Rep h b → b.KidsOcc M → 1 ≤ b.vals.length → b.entries ≠ []
  | 0, b, _, _, hl => by
    obtain ⟨p, vs, rfl⟩ := exists_leaf b
    simp at hl ⊢
    intro e; subst e; simp at hl
  | d + 1, b, hr, ho, hl => by
    obtain ⟨p, vs, ks, rfl⟩ := exists_inner b
    obtain ⟨r1, r2, r3, r4, r5, r6⟩ := (rep_inner _ _ _ _).1 hr
    cases ks with
    | nil => simp at r4
    | cons k ks =>
      have hk := (inner_kidsOcc _ _ _ _).1 ho k (by simp)
      have := entries_ne_nil hM k (r6 k (by simp)) hk.2 (by omega)
      simp [this]

omit [Inhabited K] [Inhabited V] in
theorem inner_inter0 {d : Nat} (p : Nat) (vs : List (K × V)) (k : BT K V d) (B : List (BT K V d)) :
    (inner p vs (k :: B)).inter = k.inter ++ (vs.zip B).flatMap (fun x => x.1 :: inter x.2) := rfl

omit [Inhabited K] [Inhabited V] in
/-- The least key is below the first child. -/
theorem MinHyp.kid {M : Nat} (hM : 2 ≤ M) {h : Heap K V} {d : Nat} {cmp : Compare K} {key : K} {p : Nat} {vs : List (K × V)} {k : BT K V d} {B : List (BT K V d)}
    (hr : Rep h (inner p vs (k :: B))) (ho : (inner p vs (k :: B)).KidsOcc M) (m : MinHyp cmp key (inner p vs (k :: B))) : MinHyp cmp key k := by
  obtain ⟨hc, hs, hle, e, he, hk⟩ := m
  obtain ⟨r1, r2, r3, r4, r5, r6⟩ := (rep_inner _ _ _ _).1 hr
  have hko := (inner_kidsOcc _ _ _ _).1 ho k (by simp)
  rw [inner_inter0] at hs hle
  refine ⟨hc, (List.pairwise_append.1 hs).1, fun x hx => hle x (List.mem_append_left _ hx), ?_⟩
  simp only [inner_entries, List.flatMap_cons, List.mem_append] at he
  rcases he with he | he
  · exact ⟨e, he, hk⟩
  · have hne := entries_ne_nil hM k (r6 k (by simp)) hko.2 (by omega)
    obtain ⟨x, hx⟩ := List.exists_mem_of_ne_nil _ hne
    have hxi := (entries_sublist_inter k ⟨h, r6 k (by simp)⟩).subset hx
    refine ⟨x, hx, ?_⟩
    have h1 := hle x (List.mem_append_left _ hxi)
    obtain ⟨y, hy, hey⟩ := List.mem_flatMap.1 he
    obtain ⟨j, hj, rfl⟩ := List.getElem_of_mem hy
    have hBl : B.length = vs.length := by simpa using r4
    have hmem : e ∈ (vs.zip B).flatMap (fun x => x.1 :: inter x.2) := by
      refine List.mem_flatMap.2 ⟨(vs[j], B[j]), ?_, List.mem_cons_of_mem _ ((entries_sublist_inter _ ⟨h, r6 B[j] (by simp)⟩).subset hey)⟩
      rw [← List.getElem_zip (h := by simp; omega)]
      exact List.getElem_mem _
    have h2 := (List.pairwise_append.1 hs).2.2 x hxi e hmem
    have h3 : cmp e.1 key ≤ 0 := by have := hc.flip key e.1; have := hc.flip e.1 key; omega
    have h4 := hc.trans _ _ _ h2 h3
    have := hc.flip x.1 key
    have := hc.flip key x.1
    omega

/-- Deleting below the child `k` is deleting below the parent. -/
theorem DelPost.lift {d : Nat} {cmp : Compare K} {key : K} {t t' : Tree K V} {p : Nat} {vs : List (K × V)} {A B : List (BT K V d)}
    {k k' : BT K V d} {X Y : List Nat} (pre : Pre t (inner p vs (A ++ k :: B)) X Y)
    (ih : DelPost cmp key t t' k k' (X ++ A.flatMap BT.leaves) (B.flatMap BT.leaves ++ Y)) (hlen : t.degree ≤ k.vals.length) :
    DelPost cmp key t t' (inner p vs (A ++ k :: B)) (inner p vs (A ++ k' :: B)) X Y := by
  have hnd := pre.nodup
  simp only [inner_ids, List.nodup_cons, List.flatMap_append, List.flatMap_cons] at hnd
  have hnd2 := hnd.2
  simp only [List.nodup_append] at hnd2
  have hp_k : p ∉ k.ids := fun h => hnd.1 (by simp [h])
  have hoth : ∀ x, (x ∈ A ∨ x ∈ B) → ∀ q ∈ x.ids, q ∉ k.ids := by
    intro x hx q hq
    rcases hx with hx | hx
    · have hm := List.mem_flatMap.2 ⟨x, hx, hq⟩
      exact fun h => hnd2.2.2 q hm q (by simp [h]) rfl
    · have hm := List.mem_flatMap.2 ⟨x, hx, hq⟩
      exact fun h => hnd2.2.1.2.2 q h q hm rfl
  have hids := ih.ids
  have hocc := (inner_kidsOcc _ _ _ _).1 pre.occ
  have hl := ih.len
  have hdeg := pre.deg
  constructor
  · exact rep_replace pre.rep ih.rep ih.ptr (ih.same p hp_k) (fun x hx q hq => ih.same q (hoth x hx q hq))
  · rfl
  · exact ih.degree
  · exact ih.root
  · exact ih.fresh
  · simp only [inner_ids, List.nodup_cons, List.flatMap_append, List.flatMap_cons, List.nodup_append, List.mem_append] at hnd ⊢
    have hn := ih.nodup
    simp only [List.mem_append] at hnd2
    refine ⟨?_, hnd2.1, ⟨hn, hnd2.2.1.2.1, ?_⟩, ?_⟩
    · rintro (h | h | h)
      · exact hnd.1 (Or.inl h)
      · exact hp_k (hids p h)
      · exact hnd.1 (Or.inr (Or.inr h))
    · intro a ha b hb hab
      exact hnd2.2.1.2.2 a (hids a ha) b hb hab
    · intro a ha b hb hab
      rcases hb with hb | hb
      · exact hnd2.2.2 a ha b (Or.inl (hids b hb)) hab
      · exact hnd2.2.2 a ha b (Or.inr hb) hab
  · intro q hq
    simp only [inner_ids, List.flatMap_append, List.flatMap_cons, List.mem_cons, List.mem_append] at hq ⊢
    have := hids q
    tauto
  · simp only [inner_leaves, List.flatMap_append, List.flatMap_cons]
    exact (List.Sublist.refl _).append (ih.leaves.append (List.Sublist.refl _))
  · intro q hq
    refine ih.same q (fun h => hq ?_)
    simp only [inner_ids, List.flatMap_append, List.flatMap_cons, List.mem_cons, List.mem_append]
    tauto
  · intro x hx
    replace hx : x ∈ A ++ k' :: B := hx
    simp only [List.mem_append, List.mem_cons] at hx
    rcases hx with hx | rfl | hx
    · exact hocc x (by simp [hx])
    · have := hocc k (by simp)
      exact ⟨by omega, ih.occ⟩
    · exact hocc x (by simp [hx])
  · simp
  · have := ih.count
    simp only [inner_entries, List.flatMap_append, List.flatMap_cons, List.length_append]
    omega
  · have := ih.ring
    simpa using this
  · intro hc hd P S hs
    obtain ⟨r1, r2, r3, r4, r5, r6⟩ := (rep_inner _ _ _ _).1 pre.rep
    obtain ⟨va, vb, hva, rfl⟩ : ∃ va vb, A.length = va.length ∧ vs = va ++ vb :=
      ⟨vs.take A.length, vs.drop A.length, by simp at r4 ⊢; omega, by simp⟩
    rw [inner_inter _ _ _ _ _ _ hva] at hs ⊢
    have := ih.sorted hc (by omega) (P ++ (A.zip va).flatMap (fun x => inter x.1 ++ [x.2])) ((vb.zip B).flatMap (fun x => x.1 :: inter x.2) ++ S) (by simpa using hs)
    simpa using this
  · obtain ⟨ms, -, h1, h2⟩ := ih.loss
    simp only [inner_entries, List.flatMap_append, List.flatMap_cons]
    exact ⟨_, by simp, (h1.inside _ _), h2.inside _ _⟩

theorem DelMin.lift {d : Nat} {cmp : Compare K} {key : K} {p : Nat} {vs : List (K × V)} {B : List (BT K V d)}
    {k k' : BT K V d} (ih : DelMin cmp key k k') : DelMin cmp key (inner p vs (k :: B)) (inner p vs (k' :: B)) := by
  obtain ⟨⟨e, h1, h2⟩, h3, h4⟩ := ih
  refine ⟨⟨e, h1, ?_⟩, ?_, ?_⟩
  · simp only [inner_entries, List.flatMap_cons, h2, List.cons_append]
  · intro x hx
    rw [inner_inter0] at hx ⊢
    rcases List.mem_append.1 hx with h | h
    · exact List.mem_append_left _ (h3 x h)
    · exact List.mem_append_right _ h
  · intro P S hs
    rw [inner_inter0] at hs ⊢
    have := h4 P ((vs.zip B).flatMap (fun x => x.1 :: inter x.2) ++ S) (by simpa using hs)
    simpa using this

/-- Deleting after a rearrangement is deleting. -/
theorem DelPost.after {d : Nat} {cmp : Compare K} {key : K} {t t1 t' : Tree K V} {b b1 b' : BT K V (d + 1)} {X Y : List Nat}
    (st : Step t t1 b b1 X Y) (post : DelPost cmp key t1 t' b1 b' X Y)
    (hlen : b.vals.length ≤ b'.vals.length + 1 ∧ b'.vals.length ≤ b.vals.length) (hloss : Damage cmp key b.entries b'.entries)
    (hsort : cmp.Lawful → d + 1 ≤ 1 → ∀ P S, Sorted cmp (P ++ b.inter ++ S) → Sorted cmp (P ++ b1.inter ++ S)) :
    DelPost cmp key t t' b b' X Y := by
  constructor
  · exact post.rep
  · rw [post.ptr, st.ptr]
  · rw [post.degree, st.degree]
  · rw [post.root, st.root]
  · rw [post.fresh, st.fresh]
  · exact post.nodup
  · exact fun q hq => st.ids q (post.ids q hq)
  · exact post.leaves.trans st.leaves
  · intro q hq
    exact (st.same q hq).trans (post.same q (fun h => hq (st.ids q h)))
  · have := post.occ; rw [st.degree] at this; exact this
  · exact hlen
  · have := post.count
    rw [st.size, st.count] at this
    exact this
  · exact post.ring
  · exact fun hc hd P S hs => post.sorted hc hd P S (hsort hc hd P S hs)
  · obtain ⟨ms, h1, h2⟩ := hloss
    exact ⟨ms, by simp, h1, h2⟩

theorem DelPost.damage {d : Nat} {cmp : Compare K} {key : K} {t t' : Tree K V} {b b' : BT K V d} {X Y : List Nat}
    (h : DelPost cmp key t t' b b' X Y) : Damage cmp key b.entries b'.entries := by
  obtain ⟨ms, -, h1, h2⟩ := h.loss
  exact ⟨ms, h1, h2⟩

omit [Inhabited K] [Inhabited V] in
theorem MinHyp.keeps {d : Nat} {cmp : Compare K} {key : K} {b b1 : BT K V d} (kp : Keeps cmp b b1) (m : MinHyp cmp key b) : MinHyp cmp key b1 := by
  refine ⟨m.lawful, ?_, fun x hx => m.le x (kp.sub x hx), by rw [kp.entries]; exact m.mem⟩
  have := kp.sorted m.lawful [] [] (by simpa using m.sorted)
  simpa using this

omit [Inhabited K] [Inhabited V] in
theorem DelMin.after {d : Nat} {cmp : Compare K} {key : K} {b b1 b' : BT K V d} (hc : cmp.Lawful) (kp : Keeps cmp b b1) (h : DelMin cmp key b1 b') :
    DelMin cmp key b b' := by
  obtain ⟨h1, h2, h3⟩ := h
  rw [kp.entries] at h1
  exact ⟨h1, fun x hx => kp.sub x (h2 x hx), fun P S hs => h3 P S (kp.sorted hc P S hs)⟩

/-- A node with a single separator must be able to give it up without becoming empty. -/
def BT.Roomy (M : Nat) : {d : Nat} → BT K V d → Prop
  | 0, _ => True
  | _ + 1, b => (InnerT.vals b).length = 1 → ∃ k ∈ InnerT.kids b, k.vals.length ≠ M - 1

omit [Inhabited K] [Inhabited V] in
theorem inner_roomy {d : Nat} (M p : Nat) (vs : List (K × V)) (ks : List (BT K V d)) :
    (inner p vs ks).Roomy M ↔ (vs.length = 1 → ∃ k ∈ ks, k.vals.length ≠ M - 1) := Iff.rfl

omit [Inhabited K] [Inhabited V] in
theorem roomy_of_le {M : Nat} (hM : 2 ≤ M) {d : Nat} (b : BT K V d) (h : M ≤ b.vals.length) : b.Roomy M := by
  cases d with
  | zero => trivial
  | succ d =>
    obtain ⟨p, vs, ks, rfl⟩ := exists_inner b
    rw [inner_roomy]
    simp at h
    omega

theorem deleteNonOne_spec_leaf (cmp : Compare K) (key : K) (t : Tree K V) (p : Nat) (vs : List (K × V)) (X Y : List Nat)
    (pre : Pre t (leaf p vs) X Y) (hhi : vs.length ≤ 2 * t.degree - 1) (hlo : 1 ≤ vs.length) :
    (∃ t' b', deleteNonOne cmp t (some p) key = .ok t' ∧ DelPost cmp key t t' (leaf p vs) b' X Y ∧
      (MinHyp cmp key (leaf p vs) → DelMin cmp key (leaf p vs) b')) ∨
    (deleteNonOne cmp t (some p) key = .panic .indexOutOfRange ∧ ¬ MinHyp cmp key (leaf p vs)) := by
  have hmin : MinHyp cmp key (leaf p vs) → ∀ A B, vs = A ++ B → (∀ x ∈ A, cmp x.1 key < 0) → ∃ e B', A = [] ∧ B = e :: B' ∧ cmp key e.1 = 0 := by
    intro m A B hvs hA
    have hA0 : A = [] := by
      cases A with
      | nil => rfl
      | cons a A =>
        have h1 := hA a (by simp)
        have h2 := m.le a (by simp [hvs])
        have := m.lawful.flip a.1 key
        omega
    subst hA0
    simp at hvs; subst hvs
    obtain ⟨e, he, hk⟩ := m.mem
    simp at he
    cases vs with
    | nil => simp at hlo
    | cons v vs =>
      refine ⟨v, vs, rfl, rfl, ?_⟩
      rcases List.mem_cons.1 he with rfl | he
      · exact hk
      · have h1 := m.le v (by simp)
        have h2 : cmp v.1 e.1 ≤ 0 := by
          have := m.sorted
          unfold Sorted at this
          simp only [leaf_inter, List.pairwise_cons] at this
          exact this.1 e he
        have hc := m.lawful
        have h3 : cmp e.1 key ≤ 0 := by have := hc.flip key e.1; have := hc.flip e.1 key; omega
        have h4 := hc.trans _ _ _ h2 h3
        have := hc.flip key v.1; have := hc.flip v.1 key
        omega
  obtain ⟨A, B, hvs, hA, hB, h⟩ := deleteNonOne_leaf cmp t p vs key pre.rep hhi hlo
  rcases h with ⟨h1, -, h2⟩ | ⟨h1, h2⟩ | ⟨t', vs', h1, h2, h3, h4, h5, h6, h7, h8, h9, h10⟩
  · right
    refine ⟨h2, fun m => ?_⟩
    obtain ⟨e, B', -, hb, -⟩ := hmin m A B hvs hA
    rw [h1] at hb; simp at hb
  · left
    refine ⟨t, leaf p vs, h1, ⟨pre.rep, rfl, rfl, rfl, rfl, pre.nodup, fun q hq => hq, List.Sublist.refl _, fun q _ => SameAt.refl _ _, pre.occ, by omega,
      Or.inl ⟨rfl, rfl⟩, pre.ring, fun _ _ _ _ hs => hs, ⟨_, fun _ => rfl, Or.inl rfl, Or.inl rfl⟩⟩, fun m => ?_⟩
    obtain ⟨e, B', -, hb, hk⟩ := hmin m A B hvs hA
    exact absurd hk (h2 e (by simp [hb]))
  · left
    have hlen' : vs'.length + 1 = vs.length := by
      rcases h10 with ⟨e, B', hb, -, hv⟩ | ⟨-, hv⟩
      · rw [hvs, hv, hb]; simp; omega
      · rw [hv]; simp; omega
    have hdrop : Drop1 cmp key (leaf p vs).entries (leaf p vs').entries := by
      simp only [leaf_entries]
      rcases h10 with ⟨e, B', hb, he, hv⟩ | ⟨hb, hv⟩
      · exact Or.inr ⟨A, e, B', by rw [hvs, hb], hv, Or.inl he⟩
      · rcases List.eq_nil_or_concat vs with rfl | ⟨vs2, e, rfl⟩
        · simp at hlo
        · refine Or.inr ⟨vs2, e, [], by simp, by simp [hv], Or.inr (hA e ?_)⟩
          rw [hb, List.append_nil] at hvs
          rw [← hvs]; simp
    refine ⟨t', leaf p vs', h1, ⟨h9, rfl, h2, h3, h4, by simp, fun q hq => hq, List.Sublist.refl _, fun q hq => h8 q (by simpa using hq), trivial,
      by simp; omega, Or.inr ⟨h5, by simp; omega⟩, pre.ring.congr (fun q _ => by rw [h6, h7]; exact ⟨rfl, rfl⟩), fun _ _ P S hs => hdrop.sorted hs, ⟨_, fun _ => rfl, Or.inl rfl, hdrop⟩⟩, fun m => ?_⟩
    obtain ⟨e, B', hA0, hb, hk⟩ := hmin m A B hvs hA
    subst hA0
    simp only [List.nil_append] at hvs h10
    rcases h10 with ⟨e2, B2, hb2, -, hv⟩ | ⟨hb2, -⟩
    · rw [hb] at hb2
      simp at hb2
      obtain ⟨rfl, rfl⟩ := hb2
      subst hv hvs
      subst hb
      refine ⟨⟨e, hk, rfl⟩, fun x hx => ?_, fun P S hs => ?_⟩
      · simp at hx ⊢; exact Or.inr hx
      · simp only [leaf_inter] at hs ⊢
        refine List.Pairwise.sublist ?_ hs
        exact ((List.Sublist.refl P).append (List.sublist_cons_self _ _)).append (List.Sublist.refl S)
    · rw [hb] at hb2; simp at hb2

omit [Inhabited K] [Inhabited V] in
theorem next_of_leaf {d : Nat} {t : Tree K V} {p : Nat} {vs : List (K × V)} {ks : List (BT K V d)} {y z : BT K V d} {X Y : List Nat}
    (pre : Pre t (inner p vs ks) X Y) (hz : z ∈ ks) (hy : Rep t.h y) (_ : Rep t.h z) : t.h.isLeaf y.ptr = true → ∃ s, t.h.next z.ptr = some s := by
  intro hl
  have hd : d = 0 := by
    rw [hy.isLeaf_eq] at hl; simpa using hl
  subst hd
  have hmem : z.ptr ∈ X ++ (inner p vs ks).leaves ++ Y := by
    simp only [inner_leaves, List.mem_append, List.mem_flatMap]
    refine Or.inl (Or.inr ⟨z, hz, ?_⟩)
    obtain ⟨c, ws, rfl⟩ := exists_leaf z
    simp
  obtain ⟨s, hs1, hs2⟩ := pre.ring.next_mem hmem
  exact ⟨s, hs1⟩

/-- A call that deletes `key` below the inner node `b`. -/
def DelOk {d : Nat} (cmp : Compare K) (key : K) (t : Tree K V) (b : BT K V (d + 1)) (X Y : List Nat) (r : Res (Tree K V)) : Prop :=
  (∃ t' b', r = .ok t' ∧ DelPost cmp key t t' b b' X Y ∧ (MinHyp cmp key b → DelMin cmp key b b') ∧ 1 ≤ b'.vals.length) ∨ (r = .panic .indexOutOfRange ∧ ¬ MinHyp cmp key b)

set_option maxHeartbeats 3200000 in
/-- bplustree.go:343-392: deleting below a node. -/
theorem deleteNonOne_spec (cmp : Compare K) (key : K) : ∀ (d : Nat) (t : Tree K V) (b : BT K V d) (X Y : List Nat), Pre t b X Y →
    b.vals.length ≤ 2 * t.degree - 1 → 1 ≤ b.vals.length → b.Roomy t.degree →
    (∃ t' b', deleteNonOne cmp t (some b.ptr) key = .ok t' ∧ DelPost cmp key t t' b b' X Y ∧ (MinHyp cmp key b → DelMin cmp key b b') ∧ (d ≠ 0 → 1 ≤ b'.vals.length)) ∨
    (deleteNonOne cmp t (some b.ptr) key = .panic .indexOutOfRange ∧ ¬ MinHyp cmp key b) := by
  intro d
  induction d with
  | zero =>
    intro t b X Y pre hhi hlo _
    obtain ⟨p, vs, rfl⟩ := exists_leaf b
    rcases deleteNonOne_spec_leaf cmp key t p vs X Y pre hhi hlo with ⟨t', b', h1, h2, h3⟩ | h
    · exact Or.inl ⟨t', b', h1, h2, h3, by simp⟩
    · exact Or.inr h
  | succ d ih =>
    intro t b X Y pre hhi hlo hroom
    obtain ⟨p, vs, ks, rfl⟩ := exists_inner b
    simp only [inner_vals, inner_ptr] at hhi hlo ⊢
    obtain ⟨r1, r2, r3, r4, r5, r6⟩ := (rep_inner _ _ _ _).1 pre.rep
    obtain ⟨i, -, hi, h1, h2, h3⟩ := findSlot_post cmp t p key vs.length 0 (by omega)
    rw [Nat.zero_add] at hi h3
    have hdeg := pre.deg
    have hocc := (inner_kidsOcc _ _ _ _).1 pre.occ
    have hkid : ∀ j (hj : j < ks.length), t.h.children p j = some ks[j].ptr := by
      intro j hj
      rw [r5 j (by simpa using hj)]
      simp
    have hpk : i < ks.length := by omega
    obtain ⟨va, vb, hva, hvs⟩ : ∃ va vb, va.length = i ∧ vs = va ++ vb := ⟨vs.take i, vs.drop i, by simp; omega, by simp⟩
    obtain ⟨A, y, B, hA, hks⟩ : ∃ A y B, A.length = i ∧ ks = A ++ y :: B :=
      ⟨ks.take i, ks[i], ks.drop (i + 1), by simp; omega, by rw [← List.drop_eq_getElem_cons hpk]; simp⟩
    have hyp : t.h.children p i = some y.ptr := by
      rw [hkid i hpk]; subst hks; simp [← hA]
    have hmin0 : MinHyp cmp key (inner p vs ks) → i = 0 := by
      intro m
      by_contra hne
      have h4 := h2 0 (Nat.le_refl _) (by omega)
      rw [r3 0 (by omega)] at h4
      have hmem : vs[0] ∈ (inner p vs ks).inter := by
        cases ks with
        | nil => simp at r4
        | cons k ks =>
          cases vs with
          | nil => simp at hlo
          | cons v vs =>
            cases ks with
            | nil => simp at r4
            | cons k2 ks =>
              rw [inner_inter0, List.zip_cons_cons, List.flatMap_cons]
              simp
      have h5 := m.le _ hmem
      have := m.lawful.flip (vs[0]).1 key
      omega
    suffices hsuff : DelOk cmp key t (inner p vs ks) X Y (deleteNonOne cmp t (some p) key) by
      rcases hsuff with ⟨t', b', e1, e2, e3, e4⟩ | h
      · exact Or.inl ⟨t', b', e1, e2, e3, fun _ => e4⟩
      · exact Or.inr h
    have hb1 : i < 2 * t.degree := by omega
    have hyk := r6 y (by simp [hks])
    have hyo := hocc y (by simp [hks])
    have hz : i < vs.length → ∃ z B', B = z :: B' ∧ t.getKid (some p) (i + 1) = .ok (some z.ptr) := by
      intro hin
      have hb2 : i + 1 < 2 * t.degree := by omega
      have hb3 : i + 1 < ks.length := by omega
      cases B with
      | nil => subst hks; simp at r4; omega
      | cons z B =>
        refine ⟨z, B, rfl, ?_⟩
        simp only [getKid, hkid (i + 1) hb3, hb2, if_true]
        subst hks
        have : (A ++ y :: z :: B)[i + 1] = z := by
          rw [List.getElem_append_right (by omega)]
          simp [← hA]
        rw [this]
    have hs : 0 < i → ∃ A' s, A = A' ++ [s] ∧ t.getKid (some p) (i - 1) = .ok (some s.ptr) := by
      intro hin
      have hb2 : i - 1 < 2 * t.degree := by omega
      have hb3 : i - 1 < ks.length := by omega
      rcases List.eq_nil_or_concat A with rfl | ⟨A, s, rfl⟩
      · simp at hA; omega
      · simp only [List.concat_eq_append] at *
        refine ⟨A, s, rfl, ?_⟩
        simp only [getKid, hkid (i - 1) hb3, hb2, if_true]
        subst hks
        have : (A ++ [s] ++ y :: B)[i - 1] = s := by
          simp at hA
          simp only [← hA]
          simp
        rw [this]
    have hkidy : t.getKid (some p) i = .ok (some y.ptr) := by
      simp only [getKid, hyp, hb1, if_true]
    -- the five ways to continue
    have hDirect : t.degree ≤ y.vals.length → DelOk cmp key t (inner p vs ks) X Y (deleteNonOne cmp t (some y.ptr) key) := by
      intro hyl
      subst hks
      rcases ih t y _ _ pre.kid hyo.1.2 (by omega) (roomy_of_le hdeg y hyl) with ⟨t', y', e, post, hx, -⟩ | ⟨e, hm⟩
      · refine Or.inl ⟨t', _, e, post.lift pre hyl, fun m => ?_, hlo⟩
        have : A = [] := List.length_eq_zero_iff.1 (by have := hmin0 m; omega)
        subst this
        exact (hx (m.kid hdeg pre.rep pre.occ)).lift
      · refine Or.inr ⟨e, fun m => hm ?_⟩
        have : A = [] := List.length_eq_zero_iff.1 (by have := hmin0 m; omega)
        subst this
        exact m.kid hdeg pre.rep pre.occ
    have hRight : ∀ A' s, A = A' ++ [s] → 0 < i → y.vals.length = t.degree - 1 → t.degree - 1 < s.vals.length →
        DelOk cmp key t (inner p vs ks) X Y (do let t ← shiftToRightChild t (some p) (some s.ptr) (some y.ptr) (i - 1); deleteNonOne cmp t (some y.ptr) key) := by
      intro A' s hA' hi0 hyl hsl
      have hnm : ¬ MinHyp cmp key (inner p vs ks) := fun m => by have := hmin0 m; omega
      obtain ⟨va', sv, hva'⟩ : ∃ va' sv, va = va' ++ [sv] := by
        rcases List.eq_nil_or_concat va with rfl | ⟨va', sv, rfl⟩
        · simp at hva; omega
        · exact ⟨va', sv, by simp⟩
      have hA'l : A'.length = i - 1 := by rw [hA'] at hA; simp at hA; omega
      have hva'l : va'.length = i - 1 := by rw [hva'] at hva; simp at hva; omega
      have evs : vs = va' ++ sv :: vb := by rw [hvs, hva']; simp
      have eks : ks = A' ++ s :: y :: B := by rw [hks, hA']; simp
      clear hvs hks
      subst evs eks
      have ad := addr pre.nodup
      have hso := hocc s (by simp)
      have hsk := r6 s (by simp)
      have hps : p ≠ s.ptr := fun e => ad.py (e ▸ ptr_mem_ids s)
      have hpy : p ≠ y.ptr := fun e => ad.pz (e ▸ ptr_mem_ids y)
      have hsy : s.ptr ≠ y.ptr := fun e => (List.nodup_append.1 ad.yz).2.2 _ (ptr_mem_ids s) _ (ptr_mem_ids y) e
      have hsn := hsk.num_eq
      have hyn := hyk.num_eq
      obtain ⟨t1, e1, rp⟩ := shiftToRightChild_post t p s.ptr y.ptr (i - 1) hps hpy hsy (by omega) (by omega) (by omega) (by omega) (by omega)
      rw [e1]
      simp only [Res.bind_ok]
      rw [← hA'l] at rp
      obtain ⟨s', y', sh, hy'l, hl0, hl1⟩ := right_shifted rp hsk hyk (by omega) hso.1.2 hyl hdeg hso.2 hyo.2 ad.py ad.pz ad.yz
      have st := shift_step pre (by omega) (rp.frame hps hpy) sh
      generalize hsv' : (if t.h.isLeaf y.ptr then t.h.values s.ptr (t.h.num s.ptr - 2) else t.h.values s.ptr (t.h.num s.ptr - 1)) = sv' at st
      have pre1 := st.pre pre
      have pre2 : Pre t1 (inner p (va' ++ sv' :: vb) ((A' ++ [s']) ++ y' :: B)) X Y := by simpa using pre1
      have hd1 := st.degree
      rcases ih t1 y' _ _ pre2.kid (by omega) (by omega) (roomy_of_le (by omega) y' (by omega)) with ⟨t', y2, e, post, -, -⟩ | ⟨e, hm⟩
      · rw [sh.ptrZ] at e
        refine Or.inl ⟨t', inner p (va' ++ sv' :: vb) ((A' ++ [s']) ++ y2 :: B), e, ?_, fun m => absurd m hnm, by simp; omega⟩
        have hl := post.lift pre2 (by omega)
        refine DelPost.after st (by simpa using hl) (by simp) ?_ ?_
        swap
        · intro hc hd P S hs
          obtain ⟨P', x, w, S', -, -, Q, u, rfl, e1, e2, e3, e4, e5⟩ := hl0 (by omega)
          have hAv : A'.length = va'.length := by omega
          rw [inner_inter _ _ _ _ _ _ hAv, List.zip_cons_cons, List.flatMap_cons] at hs ⊢
          rw [e1, e2] at hs
          rw [e3, e4, ← hsv', e5]
          have hsub := List.Pairwise.sublist (l₁ := (P ++ (A'.zip va').flatMap (fun x => inter x.1 ++ [x.2]) ++ Q) ++ u :: x :: (S' ++ (vb.zip B).flatMap (fun x => x.1 :: inter x.2) ++ S)) (by simp) hs
          have h1 := sorted_dup hc hsub
          have h2 := sorted_dup (P := (P ++ (A'.zip va').flatMap (fun x => inter x.1 ++ [x.2]) ++ Q) ++ [u, u]) hc (by simpa using h1)
          simpa using h2
        obtain ⟨ms, hms, h1, h2⟩ := post.loss
        simp only [inner_entries, List.flatMap_append, List.flatMap_cons, List.flatMap_nil, List.append_nil, List.append_assoc]
        have hd2 := h2.inside (A'.flatMap entries ++ s'.entries) (B.flatMap entries)
        have hs2 := h1.inside (A'.flatMap entries ++ s'.entries) (B.flatMap entries)
        simp only [List.append_assoc] at hd2 hs2
        refine ⟨_, ?_, hd2⟩
        by_cases hd0 : d = 0
        · obtain ⟨P, x, w, S, e1, e2, -⟩ := hl0 hd0
          rw [hms hd0]
          refine Or.inr ⟨A'.flatMap entries ++ P, x, w, S ++ B.flatMap entries, ?_, ?_⟩
          · rw [← List.append_assoc s.entries, e1]; simp
          · rw [← List.append_assoc s'.entries, e2]; simp
        · rw [← List.append_assoc s'.entries y'.entries, hl1 hd0, List.append_assoc] at hs2
          exact hs2
      · rw [sh.ptrZ] at e
        exact Or.inr ⟨e, hnm⟩
    have hLeft : ∀ z B', B = z :: B' → i < vs.length → y.vals.length = t.degree - 1 → t.degree - 1 < z.vals.length →
        DelOk cmp key t (inner p vs ks) X Y (do let t ← shiftToLeftChild t (some p) (some y.ptr) (some z.ptr) i; deleteNonOne cmp t (some y.ptr) key) := by
      intro z B' hB' hin hyl hzl
      obtain ⟨sv, vb', hvb'⟩ : ∃ sv vb', vb = sv :: vb' := by
        cases vb with
        | nil => rw [hvs] at hin; simp at hin; omega
        | cons sv vb' => exact ⟨sv, vb', rfl⟩
      have evs : vs = va ++ sv :: vb' := by rw [hvs, hvb']
      have eks : ks = A ++ y :: z :: B' := by rw [hks, hB']
      clear hvs hks
      subst evs eks
      have ad := addr pre.nodup
      have hzo := hocc z (by simp)
      have hzk := r6 z (by simp)
      have hpy : p ≠ y.ptr := fun e => ad.py (e ▸ ptr_mem_ids y)
      have hpz : p ≠ z.ptr := fun e => ad.pz (e ▸ ptr_mem_ids z)
      have hyz : y.ptr ≠ z.ptr := fun e => (List.nodup_append.1 ad.yz).2.2 _ (ptr_mem_ids y) _ (ptr_mem_ids z) e
      have hzn := hzk.num_eq
      have hyn := hyk.num_eq
      obtain ⟨t1, e1, lp⟩ := shiftToLeftChild_post t p y.ptr z.ptr i hpy hpz hyz (by omega) (by omega) (by omega) (by omega) (by omega)
      rw [e1]
      simp only [Res.bind_ok]
      rw [← hA] at lp
      have hsv : t.h.values p A.length = sv := by have := r3.at; rw [hA, ← hva]; exact this
      obtain ⟨y', z', sh, hy'l, hent, hsub, hsrt⟩ := left_shifted lp hsv hyk hzk hyl (by omega) hzo.1.2 hdeg hyo.2 hzo.2 ad.py ad.pz ad.yz
      have st := shift_step pre (by omega) (lp.frame hpy hpz) sh
      generalize t.h.values z.ptr 0 = sv' at st hsub hsrt
      have kp : Keeps cmp (inner p (va ++ sv :: vb') (A ++ y :: z :: B')) (inner p (va ++ sv' :: vb') (A ++ y' :: z' :: B')) := by
        have hAv : A.length = va.length := by omega
        refine ⟨?_, ?_, ?_⟩
        · simp only [inner_entries, List.flatMap_append, List.flatMap_cons]
          rw [← List.append_assoc y'.entries, hent, List.append_assoc]
        · intro x hx
          rw [inner_inter _ _ _ _ _ _ hAv, List.zip_cons_cons, List.flatMap_cons] at hx ⊢
          have := hsub x
          simp only [List.mem_append, List.mem_cons] at hx this ⊢
          tauto
        · intro hc P S hs
          rw [inner_inter _ _ _ _ _ _ hAv, List.zip_cons_cons, List.flatMap_cons] at hs ⊢
          have := hsrt cmp hc (P ++ (A.zip va).flatMap (fun x => inter x.1 ++ [x.2])) ((vb'.zip B').flatMap (fun x => x.1 :: inter x.2) ++ S) (by simpa using hs)
          simpa using this
      have pre1 := st.pre pre
      have hd1 := st.degree
      rcases ih t1 y' _ _ pre1.kid (by omega) (by omega) (roomy_of_le (by omega) y' (by omega)) with ⟨t', y2, e, post, hx, -⟩ | ⟨e, hm⟩
      · rw [sh.ptrY] at e
        refine Or.inl ⟨t', inner p (va ++ sv' :: vb') (A ++ y2 :: z' :: B'), e, ?_, fun m => ?_, by simp; omega⟩
        · have hp := post.lift pre1 (by omega)
          exact DelPost.after st hp (by simp) (by have := hp.damage; rwa [kp.entries] at this) (fun hc _ => kp.sorted hc)
        · have hA0 : A = [] := List.length_eq_zero_iff.1 (by have := hmin0 m; omega)
          subst hA0
          exact ((hx ((m.keeps kp).kid (by omega) pre1.rep pre1.occ)).lift).after m.lawful kp
      · rw [sh.ptrY] at e
        refine Or.inr ⟨e, fun m => hm ?_⟩
        have hA0 : A = [] := List.length_eq_zero_iff.1 (by have := hmin0 m; omega)
        subst hA0
        exact (m.keeps kp).kid (by omega) pre1.rep pre1.occ
    have hMergeS : ∀ A' s, A = A' ++ [s] → 0 < i → y.vals.length = t.degree - 1 → s.vals.length = t.degree - 1 → 2 ≤ vs.length →
        DelOk cmp key t (inner p vs ks) X Y (do let t ← mergeChild t (some p) (some s.ptr) (some y.ptr) (i - 1); deleteNonOne cmp t (some s.ptr) key) := by
      intro A' s hA' hi0 hyl hsl hvl
      have hnm : ¬ MinHyp cmp key (inner p vs ks) := fun m => by have := hmin0 m; omega
      obtain ⟨va', sv, hva'⟩ : ∃ va' sv, va = va' ++ [sv] := by
        rcases List.eq_nil_or_concat va with rfl | ⟨va', sv, rfl⟩
        · simp at hva; omega
        · exact ⟨va', sv, by simp⟩
      have hA'l : A'.length = i - 1 := by rw [hA'] at hA; simp at hA; omega
      have hva'l : va'.length = i - 1 := by rw [hva'] at hva; simp at hva; omega
      have evs : vs = va' ++ sv :: vb := by rw [hvs, hva']; simp
      have eks : ks = A' ++ s :: y :: B := by rw [hks, hA']; simp
      clear hvs hks
      subst evs eks
      have ad := addr pre.nodup
      have hso := hocc s (by simp)
      have hsk := r6 s (by simp)
      have hps : p ≠ s.ptr := fun e => ad.py (e ▸ ptr_mem_ids s)
      have hpy : p ≠ y.ptr := fun e => ad.pz (e ▸ ptr_mem_ids y)
      have hsy : s.ptr ≠ y.ptr := fun e => (List.nodup_append.1 ad.yz).2.2 _ (ptr_mem_ids s) _ (ptr_mem_ids y) e
      have hsn := hsk.num_eq
      have hyn := hyk.num_eq
      obtain ⟨t1, e1, mp⟩ := mergeChild_post t p s.ptr y.ptr (i - 1) hps hpy hsy (by omega) (by omega) (by omega)
        (next_of_leaf pre (by simp) hsk hyk)
      rw [e1]
      simp only [Res.bind_ok]
      rw [← hA'l] at mp
      obtain ⟨st, kp⟩ := merge_step cmp pre (by omega) mp hsl hyl
      have hjl := join_length hdeg s y sv hsl hyl
      have pre1 := st.pre pre
      have hd1 := st.degree
      rcases ih t1 (s.join sv y) _ _ pre1.kid (by omega) (by omega) (roomy_of_le (by omega) _ (by omega)) with ⟨t', y2, e, post, hx, -⟩ | ⟨e, hm⟩
      · rw [join_ptr] at e
        refine Or.inl ⟨t', inner p (va' ++ vb) (A' ++ y2 :: B), e, ?_, fun m => absurd m hnm, by simp at hvl ⊢; omega⟩
        have hp := post.lift pre1 (by omega)
        exact DelPost.after st hp (by simp; omega) (by have := hp.damage; rwa [kp.entries] at this) (fun hc _ => kp.sorted hc)
      · rw [join_ptr] at e
        exact Or.inr ⟨e, hnm⟩
    have hMergeZ : ∀ z B', B = z :: B' → i < vs.length → y.vals.length = t.degree - 1 → z.vals.length = t.degree - 1 → 2 ≤ vs.length →
        DelOk cmp key t (inner p vs ks) X Y (do let t ← mergeChild t (some p) (some y.ptr) (some z.ptr) i; deleteNonOne cmp t (some y.ptr) key) := by
      intro z B' hB' hin hyl hzl hvl
      obtain ⟨sv, vb', hvb'⟩ : ∃ sv vb', vb = sv :: vb' := by
        cases vb with
        | nil => rw [hvs] at hin; simp at hin; omega
        | cons sv vb' => exact ⟨sv, vb', rfl⟩
      have evs : vs = va ++ sv :: vb' := by rw [hvs, hvb']
      have eks : ks = A ++ y :: z :: B' := by rw [hks, hB']
      clear hvs hks
      subst evs eks
      have ad := addr pre.nodup
      have hzo := hocc z (by simp)
      have hzk := r6 z (by simp)
      have hpy : p ≠ y.ptr := fun e => ad.py (e ▸ ptr_mem_ids y)
      have hpz : p ≠ z.ptr := fun e => ad.pz (e ▸ ptr_mem_ids z)
      have hyz : y.ptr ≠ z.ptr := fun e => (List.nodup_append.1 ad.yz).2.2 _ (ptr_mem_ids y) _ (ptr_mem_ids z) e
      have hzn := hzk.num_eq
      have hyn := hyk.num_eq
      obtain ⟨t1, e1, mp⟩ := mergeChild_post t p y.ptr z.ptr i hpy hpz hyz (by omega) (by omega) (by omega)
        (next_of_leaf pre (by simp) hyk hzk)
      rw [e1]
      simp only [Res.bind_ok]
      rw [← hA] at mp
      obtain ⟨st, kp⟩ := merge_step cmp pre (by omega) mp hyl hzl
      have hjl := join_length hdeg y z sv hyl hzl
      have pre1 := st.pre pre
      have hd1 := st.degree
      rcases ih t1 (y.join sv z) _ _ pre1.kid (by omega) (by omega) (roomy_of_le (by omega) _ (by omega)) with ⟨t', y2, e, post, hx, -⟩ | ⟨e, hm⟩
      · rw [join_ptr] at e
        refine Or.inl ⟨t', inner p (va ++ vb') (A ++ y2 :: B'), e, ?_, fun m => ?_, by simp at hvl ⊢; omega⟩
        · have hp := post.lift pre1 (by omega)
          exact DelPost.after st hp (by simp; omega) (by have := hp.damage; rwa [kp.entries] at this) (fun hc _ => kp.sorted hc)
        · have hA0 : A = [] := List.length_eq_zero_iff.1 (by have := hmin0 m; omega)
          subst hA0
          exact ((hx ((m.keeps kp).kid (by omega) pre1.rep pre1.occ)).lift).after m.lawful kp
      · rw [join_ptr] at e
        refine Or.inr ⟨e, fun m => hm ?_⟩
        have hA0 : A = [] := List.length_eq_zero_iff.1 (by have := hmin0 m; omega)
        subst hA0
        exact (m.keeps kp).kid (by omega) pre1.rep pre1.occ
    rw [deleteNonOne]
    simp only [getLeaf, r1, Res.bind_ok, getNum, r2, h1, Bool.false_eq_true, if_false, hkidy, hyk.num_eq]
    have hle := hyo.1.1
    by_cases hym : y.vals.length = t.degree - 1
    · have hlow : ∀ x ∈ ks, ¬ t.degree - 1 < x.vals.length → x.vals.length = t.degree - 1 := by
        intro x hx h
        have := (hocc x hx).1.1
        omega
      by_cases h0 : 0 < i
      · obtain ⟨A', s, hA', es⟩ := hs h0
        have hsn := (r6 s (by simp [hks, hA'])).num_eq
        by_cases hin : i < vs.length
        · obtain ⟨z, B', hB', ez⟩ := hz hin
          have hzn := (r6 z (by simp [hks, hB'])).num_eq
          simp only [hin, h0, if_true, es, ez, Res.bind_ok, hsn, hzn, hym, true_and]
          by_cases c1 : t.degree - 1 < s.vals.length
          · rw [if_pos c1]; exact hRight A' s hA' h0 hym c1
          · rw [if_neg c1]
            by_cases c2 : t.degree - 1 < z.vals.length
            · rw [if_pos c2]; exact hLeft z B' hB' hin hym c2
            · rw [if_neg c2]
              exact hMergeS A' s hA' h0 hym (hlow s (by simp [hks, hA']) c1) (by omega)
        · simp only [hin, h0, if_true, if_false, es, Res.bind_ok, hsn, hym, true_and, false_and]
          by_cases c1 : t.degree - 1 < s.vals.length
          · rw [if_pos c1]; exact hRight A' s hA' h0 hym c1
          · rw [if_neg c1]
            refine hMergeS A' s hA' h0 hym (hlow s (by simp [hks, hA']) c1) ?_
            by_contra hc
            have hv1 : vs.length = 1 := by omega
            obtain ⟨k, hk, hkl⟩ := (inner_roomy _ _ _ _).1 hroom hv1
            have hAl : A'.length = 0 := by rw [hA'] at hA; simp at hA; omega
            have hBl : B.length = 0 := by rw [hks] at r4; simp at r4; omega
            rw [hks, hA', List.length_eq_zero_iff.1 hAl, List.length_eq_zero_iff.1 hBl] at hk
            simp at hk
            rcases hk with rfl | rfl
            · exact hkl (hlow _ (by simp [hks, hA']) c1)
            · exact hkl hym
      · have hin : i < vs.length := by omega
        obtain ⟨z, B', hB', ez⟩ := hz hin
        have hzn := (r6 z (by simp [hks, hB'])).num_eq
        simp only [hin, h0, if_true, if_false, ez, Res.bind_ok, hzn, hym, true_and, false_and]
        by_cases c2 : t.degree - 1 < z.vals.length
        · rw [if_pos c2]; exact hLeft z B' hB' hin hym c2
        · rw [if_neg c2]
          refine hMergeZ z B' hB' hin hym (hlow z (by simp [hks, hB']) c2) ?_
          by_contra hc
          have hv1 : vs.length = 1 := by omega
          obtain ⟨k, hk, hkl⟩ := (inner_roomy _ _ _ _).1 hroom hv1
          have hAl : A.length = 0 := by omega
          have hBl : B'.length = 0 := by rw [hks, hB'] at r4; simp at r4; omega
          rw [hks, hB', List.length_eq_zero_iff.1 hAl, List.length_eq_zero_iff.1 hBl] at hk
          simp at hk
          rcases hk with rfl | rfl
          · exact hkl hym
          · exact hkl (hlow _ (by simp [hks, hB']) c2)
    · have hd := hDirect (by omega)
      by_cases h0 : 0 < i
      · obtain ⟨A', s, hA', es⟩ := hs h0
        by_cases hin : i < vs.length
        · obtain ⟨z, B', hB', ez⟩ := hz hin
          simp only [hin, h0, if_true, es, ez, Res.bind_ok, hym, if_false]
          exact hd
        · simp only [hin, h0, if_true, es, Res.bind_ok, hym, if_false]
          exact hd
      · have hin : i < vs.length := by omega
        obtain ⟨z, B', hB', ez⟩ := hz hin
        simp only [hin, h0, if_true, ez, Res.bind_ok, hym, if_false]
        exact hd

end Gds.BPlus
