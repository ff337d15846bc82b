import Verif.BPlus.Tight

/-! `insertNonFull` and `insert` on abstract trees. -/

namespace Gds.BPlus
open BT Tree
variable {K V : Type} [Inhabited K] [Inhabited V]

theorem split_ring {t t' : Tree K V} {d : Nat} {k : BT K V d} {p pos : Nat} (sp : SplitPost t t' p k.ptr pos) (hk : Rep t.h k)
    {X Y : List Nat} (hr : Ring t.h (X ++ k.leaves ++ Y)) (hnd : (X ++ k.leaves ++ Y).Nodup) (hlt : ∀ q ∈ X ++ k.leaves ++ Y, q < t.fresh) :
    Ring t'.h (X ++ ((k.splitL t.degree).leaves ++ (k.splitR t.degree t.fresh).leaves) ++ Y) := by
  have hn := sp.next
  have hp := sp.prev
  simp only [hk.isLeaf_eq] at hn hp
  cases d with
  | zero =>
    obtain ⟨c, vs, rfl⟩ := exists_leaf k
    simp only [leaf_ptr, leaf_leaves, beq_self_eq_true, if_true] at *
    simp only [splitL_leaf, splitR_leaf, leaf_leaves, List.append_assoc, List.cons_append, List.nil_append] at *
    refine ring_insert hr hnd ?_ hn hp
    intro h
    have := hlt _ h
    omega
  | succ d =>
    rw [split_leaves_inner]
    refine hr.congr (fun q hq => ?_)
    have := hlt q hq
    rw [hn, hp]
    simp [show q ≠ t.fresh by omega]

/-- What the operations on a subtree `b` need; the leaves of the whole tree are `X ++ b.leaves ++ Y`. -/
structure Pre {d : Nat} (t : Tree K V) (b : BT K V d) (X Y : List Nat) : Prop where
  rep : Rep t.h b
  nodup : b.ids.Nodup
  lt : ∀ q ∈ b.ids, q < t.fresh
  deg : 2 ≤ t.degree
  occ : b.KidsOcc t.degree
  ring : Ring t.h (X ++ b.leaves ++ Y)
  rnodup : (X ++ b.leaves ++ Y).Nodup
  rlt : ∀ q ∈ X ++ b.leaves ++ Y, q < t.fresh

/-- What inserting `e` below `b` achieves. -/
structure InsPost {d : Nat} (cmp : Compare K) (e : K × V) (t t' : Tree K V) (b b' : BT K V d) (X Y : List Nat) : Prop where
  rep : Rep t'.h b'
  ptr : b'.ptr = b.ptr
  degree : t'.degree = t.degree
  root : t'.root = t.root
  size : t'.size = t.size + 1
  fresh : t.fresh ≤ t'.fresh
  nodup : b'.ids.Nodup
  ids : ∀ q ∈ b'.ids, q ∈ b.ids ∨ (t.fresh ≤ q ∧ q < t'.fresh)
  same : ∀ q, q < t.fresh → q ∉ b.ids → SameAt t.h t'.h q
  occ : b'.KidsOcc t.degree
  len : b.vals.length ≤ b'.vals.length ∧ b'.vals.length ≤ b.vals.length + 1
  entries : Added e b.entries b'.entries
  ring : Ring t'.h (X ++ b'.leaves ++ Y)
  sorted : cmp.Lawful → ∀ P S, Sorted cmp (P ++ b.inter ++ S) → (∀ x ∈ P, cmp x.1 e.1 ≤ 0) → (∀ x ∈ S, cmp e.1 x.1 ≤ 0) →
    Sorted cmp (P ++ b'.inter ++ S)
  tight : cmp.Lawful → Sorted cmp b.inter → b.Tight cmp → b'.Tight cmp

theorem insertNonFull_leaf (cmp : Compare K) (t : Tree K V) (p : Nat) (vs : List (K × V)) (e : K × V) (X Y : List Nat)
    (pre : Pre t (leaf p vs) X Y) (hlen : vs.length < 2 * t.degree - 1) :
    ∃ t' b', insertNonFull cmp t (some p) e = .ok t' ∧ InsPost cmp e t t' (leaf p vs) b' X Y := by
  obtain ⟨r1, r2, r3, r4⟩ := (rep_leaf _ _ _).1 pre.rep
  obtain ⟨pos, h1, h2, h3, h4⟩ := leafShift_post cmp p e.1 vs.length t hlen
  have hposM : pos < 2 * t.degree - 1 := by omega
  rw [insertNonFull]
  simp only [getLeaf, r1, Res.bind_ok, if_true, getNum, r2, h2, setVal, hposM, setNum]
  refine ⟨_, leaf p (vs.take pos ++ e :: vs.drop pos), rfl, ?_⟩
  have hsplit := List.take_append_drop pos vs
  constructor
  · refine (rep_leaf _ _ _).2 ⟨r1, by simp; omega, ?_, r4⟩
    refine Slots.insert (f := t.h.values p) (by rw [hsplit]; exact r3) (fun j hj => ?_)
    simp at hj ⊢
    grind
  · rfl
  · rfl
  · rfl
  · rfl
  · exact Nat.le_refl _
  · simp
  · intro q hq; exact Or.inl hq
  · intro q _ hq
    simp at hq
    refine ⟨rfl, ?_, ?_, rfl⟩
    · simp [hq]
    · funext j; simp [hq]
  · simp
  · simp; omega
  · simp only [leaf_entries]
    exact ⟨_, _, hsplit.symm, rfl⟩
  · exact pre.ring.congr (fun q hq => ⟨rfl, rfl⟩)
  · intro hc P S hs hP hS
    simp only [leaf_inter] at hs ⊢
    have hlo : ∀ x ∈ vs.drop pos, cmp e.1 x.1 ≤ 0 := by
      intro x hx
      obtain ⟨i, hi, rfl⟩ := List.getElem_of_mem hx
      simp at hi
      have := h3 (pos + i) (by omega) (by omega)
      rw [r3 (pos + i) (by omega)] at this
      rw [List.getElem_drop]
      omega
    have hhi : ∀ x ∈ vs.take pos, cmp x.1 e.1 ≤ 0 := by
      intro x hx
      obtain ⟨i, hi, rfl⟩ := List.getElem_of_mem hx
      simp at hi
      have h5 := h4 (by omega)
      rw [r3 (pos - 1) (by omega)] at h5
      have h6 : cmp (vs[pos - 1]).1 e.1 ≤ 0 := by have := hc.flip e.1 (vs[pos - 1]).1; omega
      rw [List.getElem_take]
      by_cases hi' : i = pos - 1
      · subst hi'; exact h6
      · have hp : Sorted cmp vs := by
          unfold Sorted at hs ⊢
          simp only [List.pairwise_append] at hs; exact hs.1.2.1
        have h7 := List.pairwise_iff_getElem.1 hp i (pos - 1) (by omega) (by omega) (by omega)
        exact hc.trans _ _ _ h7 h6
    rw [← hsplit] at hs
    generalize vs.take pos = A at *
    generalize vs.drop pos = B at *
    unfold Sorted at *
    simp only [List.pairwise_append, List.pairwise_cons, List.append_assoc, List.mem_append, List.mem_cons] at hs ⊢
    grind
  · intro _ _ _
    trivial

/-- Replacing one child in place. -/
theorem rep_replace {h h' : Heap K V} {d : Nat} {p : Nat} {vs : List (K × V)} {A B : List (BT K V d)} {k k' : BT K V d}
    (hr : Rep h (inner p vs (A ++ k :: B))) (hk : Rep h' k') (hp : k'.ptr = k.ptr) (hs : SameAt h h' p)
    (hA : ∀ x, (x ∈ A ∨ x ∈ B) → ∀ q ∈ x.ids, SameAt h h' q) : Rep h' (inner p vs (A ++ k' :: B)) := by
  obtain ⟨r1, r2, r3, r4, r5, r6⟩ := (rep_inner _ _ _ _).1 hr
  refine (rep_inner _ _ _ _).2 ⟨by rw [hs.isLeaf]; exact r1, by rw [hs.num]; exact r2, by rw [hs.values]; exact r3, by simpa using r4, ?_, ?_⟩
  · rw [hs.children]
    simpa [hp] using r5
  · intro x hx
    simp only [List.mem_append, List.mem_cons] at hx
    rcases hx with hx | rfl | hx
    · exact (r6 x (by simp [hx])).congr (hA x (Or.inl hx))
    · exact hk
    · exact (r6 x (by simp [hx])).congr (hA x (Or.inr hx))

/-- The precondition for a child. -/
theorem Pre.kid {d : Nat} {t : Tree K V} {p : Nat} {vs : List (K × V)} {A B : List (BT K V d)} {k : BT K V d} {X Y : List Nat}
    (pre : Pre t (inner p vs (A ++ k :: B)) X Y) : Pre t k (X ++ A.flatMap leaves) (B.flatMap leaves ++ Y) := by
  have e : X ++ (inner p vs (A ++ k :: B)).leaves ++ Y = X ++ A.flatMap leaves ++ k.leaves ++ (B.flatMap leaves ++ Y) := by simp
  obtain ⟨h1, h2, h3, h4, h5, h6, h7, h8⟩ := pre
  rw [e] at h6 h7 h8
  obtain ⟨r1, r2, r3, r4, r5, r6⟩ := (rep_inner _ _ _ _).1 h1
  refine ⟨r6 k (by simp), ?_, ?_, h4, ?_, h6, h7, h8⟩
  · simp only [inner_ids, List.nodup_cons, List.flatMap_append, List.flatMap_cons, List.nodup_append] at h2
    exact h2.2.2.1.1
  · intro q hq
    exact h3 q (by simp only [inner_ids, List.flatMap_append, List.flatMap_cons]; simp [hq])
  · exact ((inner_kidsOcc _ _ _ _).1 h5 k (by simp)).2

theorem inter_before_le {cmp : Compare K} (hc : cmp.Lawful) {d : Nat} (A : List (BT K V d)) (va : List (K × V)) (hA : A.length = va.length) (e : K × V)
    {P : List (K × V)} (hs : Sorted cmp (P ++ (A.zip va).flatMap (fun x => inter x.1 ++ [x.2])))
    (hlast : ∀ v, va.getLast? = some v → cmp v.1 e.1 ≤ 0) :
    ∀ x ∈ (A.zip va).flatMap (fun x => inter x.1 ++ [x.2]), cmp x.1 e.1 ≤ 0 := by
  rcases List.eq_nil_or_concat va with rfl | ⟨va', v, rfl⟩
  · simp
  · rcases List.eq_nil_or_concat A with rfl | ⟨A', a, rfl⟩
    · simp
    · have hl : A'.length = va'.length := by simpa using hA
      have hv := hlast v (by simp)
      simp only [List.concat_eq_append] at *
      rw [List.zip_append hl] at hs ⊢
      simp only [List.flatMap_append, List.zip_cons_cons, List.zip_nil_right, List.flatMap_cons, List.flatMap_nil, List.append_nil] at hs ⊢
      intro x hx
      by_cases hxv : x = v
      · subst hxv; exact hv
      · refine hc.trans _ v.1 _ ?_ hv
        rw [← List.append_assoc] at hx
        have hx' : x ∈ List.flatMap (fun x => x.1.inter ++ [x.2]) (A'.zip va') ++ a.inter := by
          simp only [List.mem_append, List.mem_cons, List.mem_nil_iff, or_false] at hx ⊢
          rcases hx with h | h
          · exact h
          · exact absurd h hxv
        unfold Sorted at hs
        rw [← List.append_assoc, ← List.append_assoc] at hs
        have := (List.pairwise_append.1 hs).2.2 x (by rw [List.append_assoc]; exact List.mem_append_right _ hx') v (by simp)
        exact this

theorem inter_after_ge {cmp : Compare K} (hc : cmp.Lawful) {d : Nat} (B : List (BT K V d)) (vb : List (K × V)) (e : K × V)
    {S : List (K × V)} (hs : Sorted cmp ((vb.zip B).flatMap (fun x => x.1 :: inter x.2) ++ S))
    (hfirst : ∀ v, vb.head? = some v → cmp e.1 v.1 ≤ 0) :
    ∀ x ∈ (vb.zip B).flatMap (fun x => x.1 :: inter x.2), cmp e.1 x.1 ≤ 0 := by
  cases vb with
  | nil => simp
  | cons v vb => cases B with
    | nil => simp
    | cons b B =>
      have hv := hfirst v rfl
      simp only [List.zip_cons_cons, List.flatMap_cons, List.cons_append] at hs ⊢
      unfold Sorted at hs
      rw [List.pairwise_cons] at hs
      intro x hx
      simp only [List.mem_cons] at hx
      rcases hx with rfl | hx
      · exact hv
      · exact hc.trans _ _ _ hv (hs.1 x (List.mem_append_left _ hx))

/-- Inserting into the child `k` is inserting into the parent. -/
theorem InsPost.lift {d : Nat} {cmp : Compare K} {e : K × V} {t t' : Tree K V} {p : Nat} {va vb : List (K × V)} {A B : List (BT K V d)}
    {k k' : BT K V d} {X Y : List Nat} (pre : Pre t (inner p (va ++ vb) (A ++ k :: B)) X Y)
    (ih : InsPost cmp e t t' k k' (X ++ A.flatMap leaves) (B.flatMap leaves ++ Y)) (hA : A.length = va.length)
    (hlen : k'.vals.length ≤ 2 * t.degree - 1)
    (hlast : cmp.Lawful → ∀ v, va.getLast? = some v → cmp v.1 e.1 ≤ 0) (hfirst : cmp.Lawful → ∀ v, vb.head? = some v → cmp e.1 v.1 ≤ 0) :
    InsPost cmp e t t' (inner p (va ++ vb) (A ++ k :: B)) (inner p (va ++ vb) (A ++ k' :: B)) X Y := by
  have hnd := pre.nodup
  have hlt := pre.lt
  simp only [inner_ids, List.nodup_cons, List.flatMap_append, List.flatMap_cons] at hnd hlt
  have hnd2 := hnd.2
  simp only [List.nodup_append] at hnd2
  have hp_lt : p < t.fresh := hlt p (by simp)
  have hp_k : p ∉ k.ids := fun h => hnd.1 (by simp [h])
  have hoth : ∀ x, (x ∈ A ∨ x ∈ B) → ∀ q ∈ x.ids, q < t.fresh ∧ q ∉ k.ids := by
    intro x hx q hq
    rcases hx with hx | hx
    · have hm := List.mem_flatMap.2 ⟨x, hx, hq⟩
      exact ⟨hlt q (by simp only [List.mem_cons, List.mem_append]; exact Or.inr (Or.inl hm)), fun h => hnd2.2.2 q hm q (by simp [h]) rfl⟩
    · have hm := List.mem_flatMap.2 ⟨x, hx, hq⟩
      exact ⟨hlt q (by simp only [List.mem_cons, List.mem_append]; exact Or.inr (Or.inr (Or.inr hm))), fun h => hnd2.2.1.2.2 q h q hm rfl⟩
  constructor
  · exact rep_replace pre.rep ih.rep ih.ptr (ih.same p hp_lt hp_k)
      (fun x hx q hq => ih.same q (hoth x hx q hq).1 (hoth x hx q hq).2)
  · rfl
  · exact ih.degree
  · exact ih.root
  · exact ih.size
  · exact ih.fresh
  · simp only [inner_ids, List.nodup_cons, List.flatMap_append, List.flatMap_cons, List.nodup_append, List.mem_append]
    have hA' : ∀ q ∈ A.flatMap BT.ids, q < t.fresh ∧ q ∉ k.ids := by
      intro q hq
      obtain ⟨x, hx, hq⟩ := List.mem_flatMap.1 hq
      exact hoth x (Or.inl hx) q hq
    have hB' : ∀ q ∈ B.flatMap BT.ids, q < t.fresh ∧ q ∉ k.ids := by
      intro q hq
      obtain ⟨x, hx, hq⟩ := List.mem_flatMap.1 hq
      exact hoth x (Or.inr hx) q hq
    have hids := ih.ids
    have hn := ih.nodup
    simp only [List.mem_append] at hnd hnd2
    refine ⟨?_, hnd2.1, ⟨hn, hnd2.2.1.2.1, ?_⟩, ?_⟩
    · rintro (h | h | h)
      · exact hnd.1 (Or.inl h)
      · rcases hids p h with h | h
        · exact hp_k h
        · omega
      · exact hnd.1 (Or.inr (Or.inr h))
    · intro a ha b hb hab
      subst hab
      rcases hids a ha with h | h
      · exact (hB' a hb).2 h
      · have := (hB' a hb).1; omega
    · intro a ha b hb hab
      subst hab
      rcases hb with hb | hb
      · rcases hids a hb with h | h
        · exact (hA' a ha).2 h
        · have := (hA' a ha).1; omega
      · exact hnd2.2.2 a ha a (Or.inr hb) rfl
  · intro q hq
    simp only [inner_ids, List.flatMap_append, List.flatMap_cons, List.mem_cons, List.mem_append] at hq ⊢
    have := ih.ids q
    tauto
  · intro q hq hq'
    refine ih.same q hq (fun h => hq' ?_)
    simp only [inner_ids, List.flatMap_append, List.flatMap_cons, List.mem_cons, List.mem_append]
    tauto
  · intro x hx
    have hocc := pre.occ
    simp only [inner_kidsOcc] at hocc
    replace hx : x ∈ A ++ k' :: B := hx
    simp only [List.mem_append, List.mem_cons] at hx
    rcases hx with hx | rfl | hx
    · exact hocc x (by simp [hx])
    · have := hocc k (by simp)
      exact ⟨⟨by have := ih.len; omega, hlen⟩, ih.occ⟩
    · exact hocc x (by simp [hx])
  · simp
  · simp only [inner_entries, List.flatMap_append, List.flatMap_cons]
    obtain ⟨P, S, e1, e2⟩ := ih.entries
    exact ⟨A.flatMap BT.entries ++ P, S ++ B.flatMap BT.entries, by simp [e1], by simp [e2]⟩
  · have := ih.ring
    simpa using this
  · intro hc P S hs hP hS
    rw [inner_inter _ _ _ _ _ _ hA] at hs ⊢
    have hl := hlast hc
    have hf := hfirst hc
    generalize hPA : (A.zip va).flatMap (fun x => inter x.1 ++ [x.2]) = PA at *
    generalize hSB : (vb.zip B).flatMap (fun x => x.1 :: inter x.2) = SB at *
    have h1 : ∀ x ∈ PA, cmp x.1 e.1 ≤ 0 := by
      rw [← hPA]
      refine inter_before_le hc A va hA e (P := P) ?_ hl
      rw [hPA]
      unfold Sorted at hs ⊢
      simp only [← List.append_assoc] at hs
      exact (List.pairwise_append.1 (List.pairwise_append.1 (List.pairwise_append.1 hs).1).1).1
    have h2 : ∀ x ∈ SB, cmp e.1 x.1 ≤ 0 := by
      rw [← hSB]
      refine inter_after_ge hc B vb e (S := S) ?_ hf
      rw [hSB]
      unfold Sorted at hs ⊢
      simp only [List.append_assoc] at hs
      exact (List.pairwise_append.1 (List.pairwise_append.1 (List.pairwise_append.1 hs).2.1).2.1).2.1
    have := ih.sorted hc (P ++ PA) (SB ++ S) (by simpa using hs)
      (by intro x hx; rcases List.mem_append.1 hx with h | h; exacts [hP x h, h1 x h])
      (by intro x hx; rcases List.mem_append.1 hx with h | h; exacts [h2 x h, hS x h])
    simpa using this
  · intro hc hs ht
    have hs0 := hs
    rw [inner_inter _ _ _ _ _ _ hA] at hs
    have hsk : Sorted cmp k.inter := (List.pairwise_append.1 (List.pairwise_append.1 hs).1).2.1
    have hb' : Sorted cmp k'.inter := by
      have h1 := inter_before_le hc A va hA e (P := []) (by rw [List.nil_append]; exact (List.pairwise_append.1 (List.pairwise_append.1 hs).1).1) (hlast hc)
      have h2 := inter_after_ge hc B vb e (S := []) (by rw [List.append_nil]; exact (List.pairwise_append.1 hs).2.1) (hfirst hc)
      have := ih.sorted hc _ _ hs h1 h2
      exact (List.pairwise_append.1 (List.pairwise_append.1 this).1).2.1
    exact tight_replace hc hA (List.Pairwise.sublist (entries_sublist_inter k' ⟨_, ih.rep⟩) hb') ih.entries (hfirst hc) ht
      (ih.tight hc hsk (((tight_inner _ _ _ _).1 ht).2 k (by simp)))

/-- The precondition still holds after a child has been split. -/
theorem Pre.after_split {d : Nat} {t t1 : Tree K V} {p : Nat} {va vb : List (K × V)} {A B : List (BT K V d)} {k : BT K V d} {X Y : List Nat}
    (pre : Pre t (inner p (va ++ vb) (A ++ k :: B)) X Y) (hA : A.length = va.length) (sp : SplitPost t t1 p k.ptr A.length)
    (hlen : k.vals.length = 2 * t.degree - 1) (hm : t.degree - 1 < k.vals.length) :
    Pre t1 (inner p (va ++ k.vals[t.degree - 1] :: vb) (A ++ k.splitL t.degree :: k.splitR t.degree t.fresh :: B)) X Y := by
  have hdeg := pre.deg
  have hkpre := pre.kid
  have perm : (inner p (va ++ k.vals[t.degree - 1] :: vb) (A ++ k.splitL t.degree :: k.splitR t.degree t.fresh :: B)).ids.Perm
      (t.fresh :: (inner p (va ++ vb) (A ++ k :: B)).ids) := by
    simp only [inner_ids, List.flatMap_append, List.flatMap_cons]
    refine List.Perm.trans (List.Perm.cons p ?_) (List.Perm.swap _ _ _)
    have h := split_ids t.degree t.fresh k
    have h2 := (h.append_right (B.flatMap ids)).append_left (A.flatMap ids)
    simp only [List.append_assoc] at h2
    refine h2.trans ?_
    simp only [List.cons_append]
    exact List.perm_middle
  have hring := split_ring sp hkpre.rep hkpre.ring hkpre.rnodup hkpre.rlt
  have hringe : X ++ List.flatMap leaves A ++ ((k.splitL t.degree).leaves ++ (k.splitR t.degree t.fresh).leaves) ++ (List.flatMap leaves B ++ Y) =
      X ++ (inner p (va ++ k.vals[t.degree - 1] :: vb) (A ++ k.splitL t.degree :: k.splitR t.degree t.fresh :: B)).leaves ++ Y := by simp
  have hlv : ((k.splitL t.degree).leaves ++ (k.splitR t.degree t.fresh).leaves).Perm (t.fresh :: k.leaves) ∨
      (k.splitL t.degree).leaves ++ (k.splitR t.degree t.fresh).leaves = k.leaves := by
    cases d with
    | zero =>
      obtain ⟨c, vs, rfl⟩ := exists_leaf k
      exact Or.inl (List.Perm.swap _ _ _)
    | succ d => exact Or.inr (split_leaves_inner _ _ _)
  have hall : (X ++ List.flatMap leaves A ++ ((k.splitL t.degree).leaves ++ (k.splitR t.degree t.fresh).leaves) ++ (List.flatMap leaves B ++ Y)).Perm
      (t.fresh :: (X ++ List.flatMap leaves A ++ k.leaves ++ (List.flatMap leaves B ++ Y))) ∨
      X ++ List.flatMap leaves A ++ ((k.splitL t.degree).leaves ++ (k.splitR t.degree t.fresh).leaves) ++ (List.flatMap leaves B ++ Y) =
      X ++ List.flatMap leaves A ++ k.leaves ++ (List.flatMap leaves B ++ Y) := by
    rcases hlv with h | h
    · left
      rw [List.append_assoc, List.append_assoc (X ++ List.flatMap leaves A) k.leaves]
      refine ((h.append_right _).append_left _).trans ?_
      simp only [List.cons_append]
      exact List.perm_middle
    · right; rw [h]
  have hkr := hkpre.rlt
  have hkn := hkpre.rnodup
  constructor
  · exact split_parent_rep sp pre.rep hA (by omega) hlen hm pre.nodup pre.lt
  · refine perm.nodup_iff.2 (List.nodup_cons.2 ⟨fun h => ?_, pre.nodup⟩)
    have := pre.lt _ h
    omega
  · intro q hq
    rw [sp.fresh]
    rcases List.mem_cons.1 (perm.mem_iff.1 hq) with h | h
    · omega
    · have := pre.lt q h; omega
  · rw [sp.degree]; exact hdeg
  · rw [sp.degree]
    intro x hx
    replace hx : x ∈ A ++ k.splitL t.degree :: k.splitR t.degree t.fresh :: B := hx
    have hocc := (inner_kidsOcc _ _ _ _).1 pre.occ
    simp only [List.mem_append, List.mem_cons] at hx
    rcases hx with hx | rfl | rfl | hx
    · exact hocc x (by simp [hx])
    · have h1 := splitL_length (M := t.degree) (by omega) k hlen
      refine ⟨?_, splitL_kidsOcc hkpre.occ⟩
      split at h1 <;> omega
    · have h1 := splitR_length (M := t.degree) (n := t.fresh) k hlen
      refine ⟨by omega, splitR_kidsOcc hkpre.occ⟩
    · exact hocc x (by simp [hx])
  · rw [← hringe]; exact hring
  · rw [← hringe]
    rcases hall with h | h
    · refine h.nodup_iff.2 (List.nodup_cons.2 ⟨fun h => ?_, hkn⟩)
      have := hkr _ h
      omega
    · rw [h]; exact hkn
  · rw [← hringe, sp.fresh]
    intro q hq
    rcases hall with h | h
    · rcases List.mem_cons.1 (h.mem_iff.1 hq) with h | h
      · omega
      · have := hkr q h; omega
    · rw [h] at hq
      have := hkr q hq; omega

/-- Inserting after a split is inserting. -/
theorem InsPost.after_split {d : Nat} {cmp : Compare K} {e : K × V} {t t1 t' : Tree K V} {p : Nat} {va vb : List (K × V)} {A B ks' : List (BT K V d)}
    {k : BT K V d} {X Y : List Nat} (pre : Pre t (inner p (va ++ vb) (A ++ k :: B)) X Y) (hA : A.length = va.length)
    (sp : SplitPost t t1 p k.ptr A.length) (hlen : k.vals.length = 2 * t.degree - 1) (hm : t.degree - 1 < k.vals.length)
    (post : InsPost cmp e t1 t' (inner p (va ++ k.vals[t.degree - 1] :: vb) (A ++ k.splitL t.degree :: k.splitR t.degree t.fresh :: B))
      (inner p (va ++ k.vals[t.degree - 1] :: vb) ks') X Y) :
    InsPost cmp e t t' (inner p (va ++ vb) (A ++ k :: B)) (inner p (va ++ k.vals[t.degree - 1] :: vb) ks') X Y := by
  have pre1 := pre.after_split hA sp hlen hm
  have hdeg := pre.deg
  have perm : ∀ q, q ∈ (inner p (va ++ k.vals[t.degree - 1] :: vb) (A ++ k.splitL t.degree :: k.splitR t.degree t.fresh :: B)).ids ↔
      q = t.fresh ∨ q ∈ (inner p (va ++ vb) (A ++ k :: B)).ids := by
    intro q
    have h := (split_ids t.degree t.fresh k).mem_iff (a := q)
    simp only [List.mem_append, List.mem_cons] at h
    simp only [inner_ids, List.flatMap_append, List.flatMap_cons, List.mem_cons, List.mem_append]
    tauto
  have hkp : k.ptr ∈ (inner p (va ++ vb) (A ++ k :: B)).ids := by
    simp only [inner_ids, List.flatMap_append, List.flatMap_cons, List.mem_cons, List.mem_append]
    exact Or.inr (Or.inr (Or.inl (ptr_mem_ids k)))
  have hfresh := sp.fresh
  have hf2 := post.fresh
  constructor
  · exact post.rep
  · exact post.ptr
  · rw [post.degree, sp.degree]
  · rw [post.root, sp.root]
  · rw [post.size, sp.size]
  · omega
  · exact post.nodup
  · intro q hq
    rcases post.ids q hq with h | h
    · rcases (perm q).1 h with h | h
      · right; omega
      · exact Or.inl h
    · right; omega
  · intro q hq hq'
    have h1 : q ≠ t.fresh := by omega
    have h2 : q ≠ p := fun h => hq' (by simp [h])
    have h3 : q ≠ k.ptr := fun h => hq' (h ▸ hkp)
    refine SameAt.trans (h' := t1.h) ⟨?_, ?_, ?_, ?_⟩ (post.same q (by omega) (fun h => ?_))
    · rw [sp.isLeaf, if_neg h1]
    · rw [sp.num, if_neg h2, if_neg h3, if_neg h1]
    · funext j; rw [sp.values, if_neg h2, if_neg h1]
    · funext j; rw [sp.children, if_neg h2, if_neg h1]
    · rcases (perm q).1 h with h | h
      · exact h1 h
      · exact hq' h
  · have := post.occ
    rw [sp.degree] at this
    exact this
  · simp; omega
  · have := post.entries
    simp only [inner_entries, List.flatMap_append, List.flatMap_cons] at this ⊢
    rwa [← List.append_assoc (BT.entries _), split_entries] at this
  · exact post.ring
  · intro hc P S hs hP hS
    refine post.sorted hc P S ?_ hP hS
    rw [inner_inter _ _ _ _ _ _ hA] at hs ⊢
    rw [List.zip_cons_cons, List.flatMap_cons]
    have := split_inter hc (n := t.fresh) (by omega) k pre.kid.rep hlen hm (P ++ (A.zip va).flatMap (fun x => inter x.1 ++ [x.2]))
      ((vb.zip B).flatMap (fun x => x.1 :: inter x.2) ++ S) (by simpa using hs)
    simpa using this
  · intro hc hs ht
    refine post.tight hc ?_ (Tight.split hc hdeg hA pre.kid.rep pre.kid.occ hlen hm ht)
    rw [inner_inter _ _ _ _ _ _ hA] at hs ⊢
    rw [List.zip_cons_cons, List.flatMap_cons]
    have := split_inter hc (n := t.fresh) (by omega) k pre.kid.rep hlen hm ((A.zip va).flatMap (fun x => inter x.1 ++ [x.2]))
      ((vb.zip B).flatMap (fun x => x.1 :: inter x.2)) (by simpa using hs)
    simpa using this

/-- bplustree.go:154-181: inserting below a node that is not full. -/
theorem insertNonFull_spec (cmp : Compare K) : ∀ (d : Nat) (t : Tree K V) (b : BT K V d) (e : K × V) (X Y : List Nat), Pre t b X Y →
    b.vals.length < 2 * t.degree - 1 → ∃ t' b', insertNonFull cmp t (some b.ptr) e = .ok t' ∧ InsPost cmp e t t' b b' X Y := by
  intro d
  induction d with
  | zero =>
    intro t b e X Y pre hlen
    obtain ⟨p, vs, rfl⟩ := exists_leaf b
    exact insertNonFull_leaf cmp t p vs e X Y pre hlen
  | succ d ih =>
    intro t b e X Y pre hlen
    obtain ⟨p, vs, ks, rfl⟩ := exists_inner b
    simp only [inner_vals, inner_ptr] at hlen ⊢
    obtain ⟨r1, r2, r3, r4, r5, r6⟩ := (rep_inner _ _ _ _).1 pre.rep
    obtain ⟨pos, h1, h2, h3, h4⟩ := descendPos_post cmp t p e.1 vs.length (by omega)
    have hdeg := pre.deg
    have hpk : pos < ks.length := by omega
    obtain ⟨va, vb, hva, hvs⟩ : ∃ va vb, va.length = pos ∧ vs = va ++ vb := ⟨vs.take pos, vs.drop pos, by simp; omega, by simp⟩
    obtain ⟨A, k, B, hA, hks⟩ : ∃ A k B, A.length = pos ∧ ks = A ++ k :: B :=
      ⟨ks.take pos, ks[pos], ks.drop (pos + 1), by simp; omega, by rw [← List.drop_eq_getElem_cons hpk]; simp⟩
    subst hvs hks
    have hkc : t.h.children p pos = some k.ptr := by
      have : Slots (t.h.children p) (A.map (fun k => some k.ptr) ++ some k.ptr :: B.map (fun k => some k.ptr)) := by simpa using r5
      have := this.at
      simpa [hA] using this
    have hAva : A.length = va.length := by omega
    have hkpre := pre.kid
    have hocck := ((inner_kidsOcc _ _ _ _).1 pre.occ k (by simp)).1
    have hlast : cmp.Lawful → ∀ v, va.getLast? = some v → cmp v.1 e.1 ≤ 0 := by
      intro hc v hv
      rcases List.eq_nil_or_concat va with rfl | ⟨va', w, rfl⟩
      · simp at hv
      · simp at hv hva
        subst hv
        have h5 := h4 (by omega)
        have h6 : t.h.values p (pos - 1) = w := by
          have : Slots (t.h.values p) (va' ++ w :: vb) := by simpa using r3
          have := this.at
          rw [← hva]; simpa using this
        rw [h6] at h5
        have := hc.flip e.1 w.1
        omega
    have hfirst : cmp.Lawful → ∀ v, vb.head? = some v → cmp e.1 v.1 ≤ 0 := by
      intro hc v hv
      cases vb with
      | nil => simp at hv
      | cons w vb =>
        simp at hv; subst hv
        have h5 := h3 pos (by omega) (by simp; omega)
        have h6 := r3.at
        rw [hva] at h6
        rw [h6] at h5
        omega
    rw [insertNonFull]
    have hp2 : pos < 2 * t.degree := by simp at h1 hlen; omega
    simp only [getLeaf, r1, Res.bind_ok, Bool.false_eq_true, if_false, getNum, r2, h2, getKid, hp2, if_true, hkc, hkpre.rep.num_eq]
    by_cases hfull : 2 * t.degree - 1 = k.vals.length
    · have hp_lt : p < t.fresh := pre.lt p (by simp)
      have hnd := pre.nodup
      simp only [inner_ids, List.nodup_cons, List.flatMap_append, List.flatMap_cons, List.mem_append] at hnd
      have hpk' : p ≠ k.ptr := fun h => hnd.1 (Or.inr (Or.inl (h ▸ ptr_mem_ids k)))
      obtain ⟨t1, e1, sp⟩ := splitChild_post t p k.ptr pos hpk' hp_lt (hkpre.lt _ (ptr_mem_ids k)) (by omega) (by omega) (by omega) (by
        intro hl
        have hd : d = 0 := by
          rw [hkpre.rep.isLeaf_eq] at hl; simpa using hl
        subst hd
        have hmem : k.ptr ∈ X ++ List.flatMap leaves A ++ k.leaves ++ (List.flatMap leaves B ++ Y) := by
          obtain ⟨c, ws, rfl⟩ := exists_leaf k
          simp
        obtain ⟨s, hs1, hs2⟩ := hkpre.ring.next_mem hmem
        exact ⟨s, hs1, hkpre.rlt s hs2⟩)
      rw [if_pos hfull]
      have hm : t.degree - 1 < k.vals.length := by omega
      rw [← hA] at sp
      have pre1 := pre.after_split hAva sp hfull.symm hm
      obtain ⟨s1, s2, s3, s4, s5, s6⟩ := (rep_inner _ _ _ _).1 pre1.rep
      have hmid : t1.h.values p pos = k.vals[t.degree - 1] := by have := s3.at; rw [hva] at this; exact this
      have hb1 : pos < 2 * t.degree - 1 := by simp at hlen; omega
      have hb2 : pos + 1 < 2 * t.degree := by omega
      have hlenL := splitL_length (M := t.degree) (by omega) k hfull.symm
      have hlenR := splitR_length (M := t.degree) (n := t.fresh) k hfull.symm
      simp only [e1, Res.bind_ok, getVal, sp.degree, hb1, if_true, hmid]
      by_cases hc : cmp (k.vals[t.degree - 1]).1 e.1 < 0
      · -- the right half
        have hkid : t1.h.children p (pos + 1) = some (k.splitR t.degree t.fresh).ptr := by
          have : Slots (t1.h.children p) ((A ++ [k.splitL t.degree]).map (fun k => some k.ptr) ++ some (k.splitR t.degree t.fresh).ptr :: B.map (fun k => some k.ptr)) := by
            simpa using s5
          have := this.at
          simpa [hA] using this
        simp only [hc, if_true, hb2, hkid, Res.bind_ok]
        have pre2 : Pre t1 (inner p ((va ++ [k.vals[t.degree - 1]]) ++ vb) ((A ++ [k.splitL t.degree]) ++ k.splitR t.degree t.fresh :: B)) X Y := by
          simpa using pre1
        obtain ⟨t', k', he, post⟩ := ih t1 (k.splitR t.degree t.fresh) e _ _ pre2.kid (by rw [sp.degree]; omega)
        have hl := post.len
        have lifted := post.lift pre2 (by simp [hAva]) (by rw [sp.degree]; omega) (by
          intro hcl v hv
          simp at hv
          subst hv; omega) hfirst
        refine ⟨t', _, he, InsPost.after_split pre hAva sp hfull.symm hm (ks' := (A ++ [k.splitL t.degree]) ++ k' :: B) ?_⟩
        simpa using lifted
      · -- the left half
        have hkid : t1.h.children p pos = some (k.splitL t.degree).ptr := by
          have : Slots (t1.h.children p) (A.map (fun k => some k.ptr) ++ some (k.splitL t.degree).ptr :: some (k.splitR t.degree t.fresh).ptr :: B.map (fun k => some k.ptr)) := by
            simpa using s5
          have := this.at
          simpa [hA] using this
        simp only [hc, if_false, hp2, if_true, hkid, Res.bind_ok]
        obtain ⟨t', k', he, post⟩ := ih t1 (k.splitL t.degree) e _ _ pre1.kid (by rw [sp.degree]; split at hlenL <;> omega)
        have hl := post.len
        have lifted := post.lift pre1 hAva (by rw [sp.degree]; split at hlenL <;> omega) hlast (by
          intro hcl v hv
          simp at hv
          subst hv
          have := hcl.flip (k.vals[t.degree - 1]).1 e.1
          have := hcl.flip e.1 (k.vals[t.degree - 1]).1
          omega)
        exact ⟨t', _, he, InsPost.after_split pre hAva sp hfull.symm hm lifted⟩
    · rw [if_neg hfull]
      obtain ⟨t', k', he, post⟩ := ih t k e _ _ hkpre (by omega)
      have hl := post.len
      exact ⟨t', _, he, post.lift pre hAva (by omega) hlast hfirst⟩

end Gds.BPlus
