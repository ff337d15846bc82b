import Verif.BPlus.Search

/-! `mergeChild`, `shiftToLeftChild`, `shiftToRightChild` on abstract trees. -/

namespace Gds.BPlus
open BT Tree
variable {K V : Type} [Inhabited K] [Inhabited V]

/-- What a rearrangement of the children of `b` achieves. -/
structure Step {d : Nat} (t t' : Tree K V) (b b' : BT K V d) (X Y : List Nat) : Prop where
  rep : Rep t'.h b'
  ptr : b'.ptr = b.ptr
  degree : t'.degree = t.degree
  root : t'.root = t.root
  size : t'.size = t.size
  fresh : t'.fresh = t.fresh
  nodup : b'.ids.Nodup
  ids : ∀ q ∈ b'.ids, q ∈ b.ids
  leaves : List.Sublist b'.leaves b.leaves
  same : ∀ q, q ∉ b.ids → SameAt t.h t'.h q
  occ : b'.KidsOcc t.degree
  count : b'.entries.length = b.entries.length
  ring : Ring t'.h (X ++ b'.leaves ++ Y)

/-- The order is kept and no entry changes. -/
structure Keeps {d : Nat} (cmp : Compare K) (b b' : BT K V d) : Prop where
  entries : b'.entries = b.entries
  sub : ∀ x ∈ b'.inter, x ∈ b.inter
  sorted : cmp.Lawful → ∀ P S, Sorted cmp (P ++ b.inter ++ S) → Sorted cmp (P ++ b'.inter ++ S)

theorem Step.pre {d : Nat} {t t' : Tree K V} {b b' : BT K V d} {X Y : List Nat} (pre : Pre t b X Y) (s : Step t t' b b' X Y) : Pre t' b' X Y := by
  have hsub : List.Sublist (X ++ b'.leaves ++ Y) (X ++ b.leaves ++ Y) := ((List.Sublist.refl X).append s.leaves).append (List.Sublist.refl Y)
  refine ⟨s.rep, s.nodup, ?_, by rw [s.degree]; exact pre.deg, by rw [s.degree]; exact s.occ, s.ring, hsub.nodup pre.rnodup, ?_⟩
  · intro q hq; rw [s.fresh]; exact pre.lt q (s.ids q hq)
  · intro q hq; rw [s.fresh]; exact pre.rlt q (hsub.subset hq)

/-! ### mergeChild -/

/-- The merged child. -/
def BT.join : {d : Nat} → BT K V d → K × V → BT K V d → BT K V d
  | 0, y, _, z => leaf (LeafT.ptr y) (LeafT.vals y ++ LeafT.vals z)
  | _ + 1, y, s, z => inner (InnerT.ptr y) (InnerT.vals y ++ s :: InnerT.vals z) (InnerT.kids y ++ InnerT.kids z)

theorem join_leaf (p q : Nat) (vs ws : List (K × V)) (s : K × V) : (leaf p vs).join s (leaf q ws) = leaf p (vs ++ ws) := rfl
theorem join_inner {d : Nat} (p q : Nat) (vs ws : List (K × V)) (s : K × V) (ks ls : List (BT K V d)) :
    (inner p vs ks).join s (inner q ws ls) = inner p (vs ++ s :: ws) (ks ++ ls) := rfl

theorem join_ptr {d : Nat} (y z : BT K V d) (s : K × V) : (y.join s z).ptr = y.ptr := by cases d <;> rfl

theorem join_entries {d : Nat} (y z : BT K V d) (s : K × V) : (y.join s z).entries = y.entries ++ z.entries := by
  cases d with
  | zero => rfl
  | succ d =>
    obtain ⟨p, vs, ks, rfl⟩ := exists_inner y
    obtain ⟨q, ws, ls, rfl⟩ := exists_inner z
    simp [join_inner]

theorem join_ids {d : Nat} (y z : BT K V d) (s : K × V) : (y.ids ++ z.ids).Perm (z.ptr :: (y.join s z).ids) := by
  cases d with
  | zero =>
    obtain ⟨p, vs, rfl⟩ := exists_leaf y
    obtain ⟨q, ws, rfl⟩ := exists_leaf z
    exact List.Perm.swap _ _ _
  | succ d =>
    obtain ⟨p, vs, ks, rfl⟩ := exists_inner y
    obtain ⟨q, ws, ls, rfl⟩ := exists_inner z
    simp only [join_inner, inner_ids, inner_ptr, List.flatMap_append]
    exact List.perm_middle

theorem join_length {d M : Nat} (hM : 2 ≤ M) (y z : BT K V d) (s : K × V) (hy : y.vals.length = M - 1) (hz : z.vals.length = M - 1) :
    M ≤ (y.join s z).vals.length ∧ (y.join s z).vals.length ≤ 2 * M - 1 := by
  cases d with
  | zero =>
    obtain ⟨p, vs, rfl⟩ := exists_leaf y
    obtain ⟨q, ws, rfl⟩ := exists_leaf z
    simp only [join_leaf, leaf_vals, List.length_append] at *
    omega
  | succ d =>
    obtain ⟨p, vs, ks, rfl⟩ := exists_inner y
    obtain ⟨q, ws, ls, rfl⟩ := exists_inner z
    simp only [join_inner, inner_vals, List.length_append, List.length_cons] at *
    omega

theorem join_kidsOcc {d M : Nat} {y z : BT K V d} {s : K × V} (hy : y.KidsOcc M) (hz : z.KidsOcc M) : (y.join s z).KidsOcc M := by
  cases d with
  | zero => trivial
  | succ d =>
    obtain ⟨p, vs, ks, rfl⟩ := exists_inner y
    obtain ⟨q, ws, ls, rfl⟩ := exists_inner z
    rw [join_inner]
    intro k hk
    replace hk : k ∈ ks ++ ls := hk
    rcases List.mem_append.1 hk with h | h
    · exact hy k h
    · exact hz k h

theorem join_leaves {d : Nat} (y z : BT K V d) (s : K × V) : List.Sublist (y.join s z).leaves (y.leaves ++ z.leaves) := by
  cases d with
  | zero =>
    obtain ⟨p, vs, rfl⟩ := exists_leaf y
    obtain ⟨q, ws, rfl⟩ := exists_leaf z
    simp [join_leaf]
  | succ d =>
    obtain ⟨p, vs, ks, rfl⟩ := exists_inner y
    obtain ⟨q, ws, ls, rfl⟩ := exists_inner z
    simp [join_inner]

/-- Merging does not add to the in-order sequence. -/
theorem join_inter {d : Nat} {h : Heap K V} {y z : BT K V d} (s : K × V) (hy : Rep h y) (hz : Rep h z) :
    List.Sublist (y.join s z).inter (y.inter ++ s :: z.inter) := by
  cases d with
  | zero =>
    obtain ⟨p, vs, rfl⟩ := exists_leaf y
    obtain ⟨q, ws, rfl⟩ := exists_leaf z
    simp [join_leaf]
  | succ d =>
    obtain ⟨p, vs, ks, rfl⟩ := exists_inner y
    obtain ⟨q, ws, ls, rfl⟩ := exists_inner z
    have l1 := ((rep_inner _ _ _ _).1 hy).2.2.2.1
    have l2 := ((rep_inner _ _ _ _).1 hz).2.2.2.1
    rw [join_inner]
    rcases List.eq_nil_or_concat ks with rfl | ⟨ks', k, rfl⟩
    · simp at l1
    cases ls with
    | nil => simp at l2
    | cons l ls =>
      simp only [List.concat_eq_append] at *
      have hl : ks'.length = vs.length := by simpa using l1
      have i1 := inner_inter p vs [] ks' k [] hl
      have i2 := inner_inter q [] ws [] l ls rfl
      have i3 := inner_inter p vs (s :: ws) ks' k (l :: ls) hl
      rw [List.append_nil] at i1
      simp only [List.nil_append] at i2
      rw [List.append_assoc, List.singleton_append, i3, i1, i2]
      simp

theorem merge_rep {t t' : Tree K V} {d : Nat} {y z : BT K V d} {r pos : Nat} (mp : MergePost t t' r y.ptr z.ptr pos)
    (hy : Rep t.h y) (hz : Rep t.h z) (hly : y.vals.length = t.degree - 1) (hlz : z.vals.length = t.degree - 1) (hM : 1 ≤ t.degree)
    (hry : r ∉ y.ids) (hrz : r ∉ z.ids) (hnd : (y.ids ++ z.ids).Nodup) :
    Rep t'.h (y.join (t.h.values r pos) z) := by
  have h1 : y.ptr ≠ r := fun e => hry (e ▸ ptr_mem_ids y)
  have hn := mp.num y.ptr
  have hv := mp.values y.ptr
  have hc := mp.children y.ptr
  have hl := congrFun mp.isLeaf y.ptr
  simp only [h1, if_false, if_true, hy.isLeaf_eq] at hn hv hc hl
  cases d with
  | zero =>
    obtain ⟨p, vs, rfl⟩ := exists_leaf y
    obtain ⟨q, ws, rfl⟩ := exists_leaf z
    obtain ⟨r1, r2, r3, r4⟩ := (rep_leaf _ _ _).1 hy
    obtain ⟨s1, s2, s3, s4⟩ := (rep_leaf _ _ _).1 hz
    simp only [leaf_ptr, leaf_vals, beq_self_eq_true, if_true] at *
    rw [join_leaf]
    refine (rep_leaf _ _ _).2 ⟨hl, by rw [hn]; simp; omega, ?_, ?_⟩
    · refine Slots.append r3 s3 (fun j hj => ?_)
      rw [hv]
      by_cases hjj : j < vs.length
      · rw [if_neg (by omega), if_pos hjj]
      · rw [if_pos (by omega), if_neg hjj, hly]
    · intro j; rw [hc]; simpa using r4 j
  | succ d =>
    obtain ⟨p, vs, ks, rfl⟩ := exists_inner y
    obtain ⟨q, ws, ls, rfl⟩ := exists_inner z
    obtain ⟨r1, r2, r3, r4, r5, r6⟩ := (rep_inner _ _ _ _).1 hy
    obtain ⟨s1, s2, s3, s4, s5, s6⟩ := (rep_inner _ _ _ _).1 hz
    simp only [inner_ptr, inner_vals, Nat.add_eq_zero_iff, Nat.succ_ne_self, and_false, beq_iff_eq, if_false, Nat.reduceEqDiff] at *
    rw [join_inner]
    have hkids : ∀ x ∈ ks ++ ls, Rep t'.h x := by
      intro x hx
      have hrx : Rep t.h x := by
        rcases List.mem_append.1 hx with h | h
        · exact r6 x h
        · exact s6 x h
      refine hrx.congr (fun q' hq => ?_)
      have hne : q' ≠ r ∧ q' ≠ p := by
        simp only [inner_ids, List.mem_cons, List.mem_flatMap, not_or, not_exists, not_and, List.nodup_append, List.nodup_cons] at hry hrz hnd
        rcases List.mem_append.1 hx with h | h
        · exact ⟨fun e => hry.2 x h (e ▸ hq), fun e => hnd.1.1 x h (e ▸ hq)⟩
        · refine ⟨fun e => hrz.2 x h (e ▸ hq), fun e => ?_⟩
          exact hnd.2.2 p (Or.inl rfl) q' (Or.inr ⟨x, h, hq⟩) e.symm
      constructor
      · rw [mp.isLeaf]
      · rw [mp.num]; simp [hne]
      · funext j; rw [mp.values]; simp [hne]
      · funext j; rw [mp.children]; simp [hne]
    refine (rep_inner _ _ _ _).2 ⟨by simpa using hl, by rw [hn]; simp; omega, ?_, by simp; omega, ?_, hkids⟩
    · have e : vs ++ t.h.values r pos :: ws = (vs ++ [t.h.values r pos]) ++ ws := by simp
      rw [e]
      refine Slots.append (f := fun j => if j = vs.length then t.h.values r pos else t.h.values p j) ?_ s3 (fun j hj => ?_)
      · intro i hi
        simp at hi
        show (if i = vs.length then _ else _) = _
        by_cases hiv : i = vs.length
        · subst hiv; simp
        · rw [if_neg hiv, r3 i (by omega), List.getElem_append_left (by omega)]
      · simp at hj
        rw [hv]
        simp only [List.length_append, List.length_singleton]
        have e2 : t.degree = vs.length + 1 := by omega
        have e3 : 2 * t.degree - 1 = vs.length + 1 + ws.length := by omega
        rw [e3, e2]
        grind
    · rw [List.map_append]
      refine Slots.append r5 s5 (fun j hj => ?_)
      simp at hj ⊢
      rw [hc]
      by_cases hjj : j < ks.length
      · rw [if_neg (by rintro ⟨-, h, -⟩; omega), if_pos hjj]
      · rw [if_pos (by refine ⟨by simp, ?_, ?_⟩ <;> omega), if_neg hjj]
        congr 1; omega

/-- Facts about the addresses below a node with neighbouring children `y` and `z`. -/
structure Addr {d : Nat} (p : Nat) (A : List (BT K V d)) (y z : BT K V d) (B : List (BT K V d)) : Prop where
  py : p ∉ y.ids
  pz : p ∉ z.ids
  yz : (y.ids ++ z.ids).Nodup
  other : ∀ x, (x ∈ A ∨ x ∈ B) → ∀ q ∈ x.ids, q ≠ p ∧ q ∉ y.ids ∧ q ∉ z.ids

omit [Inhabited K] [Inhabited V] in
theorem addr {d : Nat} {p : Nat} {vs : List (K × V)} {A B : List (BT K V d)} {y z : BT K V d}
    (hnd : (inner p vs (A ++ y :: z :: B)).ids.Nodup) : Addr p A y z B := by
  simp only [inner_ids, List.nodup_cons, List.flatMap_append, List.flatMap_cons, List.mem_append, not_or] at hnd
  obtain ⟨⟨p1, p2, p3, p4⟩, hnd⟩ := hnd
  simp only [List.nodup_append, List.mem_append] at hnd
  obtain ⟨n1, ⟨n2, ⟨n3, n4, n5⟩, n6⟩, n7⟩ := hnd
  refine ⟨p2, p3, List.nodup_append.2 ⟨n2, n3, fun a ha b hb => n6 a ha b (Or.inl hb)⟩, ?_⟩
  intro x hx q hq
  rcases hx with hx | hx
  · have hm := List.mem_flatMap.2 ⟨x, hx, hq⟩
    exact ⟨fun e => p1 (e ▸ hm), fun h => n7 q hm q (Or.inl h) rfl, fun h => n7 q hm q (Or.inr (Or.inl h)) rfl⟩
  · have hm := List.mem_flatMap.2 ⟨x, hx, hq⟩
    exact ⟨fun e => p4 (e ▸ hm), fun h => n6 q h q (Or.inr hm) rfl, fun h => n5 q h q hm rfl⟩

theorem merge_step (cmp : Compare K) {t t' : Tree K V} {d : Nat} {y z : BT K V d} {p : Nat} {va vb : List (K × V)} {s : K × V} {A B : List (BT K V d)}
    {X Y : List Nat} (pre : Pre t (inner p (va ++ s :: vb) (A ++ y :: z :: B)) X Y) (hA : A.length = va.length)
    (mp : MergePost t t' p y.ptr z.ptr A.length) (hly : y.vals.length = t.degree - 1) (hlz : z.vals.length = t.degree - 1) :
    Step t t' (inner p (va ++ s :: vb) (A ++ y :: z :: B)) (inner p (va ++ vb) (A ++ y.join s z :: B)) X Y ∧
    Keeps cmp (inner p (va ++ s :: vb) (A ++ y :: z :: B)) (inner p (va ++ vb) (A ++ y.join s z :: B)) := by
  have ad := addr pre.nodup
  have hdeg := pre.deg
  obtain ⟨r1, r2, r3, r4, r5, r6⟩ := (rep_inner _ _ _ _).1 pre.rep
  have hy := r6 y (by simp)
  have hz := r6 z (by simp)
  have hsv : t.h.values p A.length = s := by have := r3.at; rw [hA]; exact this
  have hyp : y.ptr ≠ p := fun e => ad.py (e ▸ ptr_mem_ids y)
  have hsame : ∀ q, q ≠ p → q ≠ y.ptr → SameAt t.h t'.h q := by
    intro q h1 h2
    constructor
    · rw [mp.isLeaf]
    · rw [mp.num]; simp [h1, h2]
    · funext j; rw [mp.values]; simp [h1, h2]
    · funext j; rw [mp.children]; simp [h1, h2]
  have hoth : ∀ x, (x ∈ A ∨ x ∈ B) → Rep t'.h x := by
    intro x hx
    refine (r6 x (by simp; tauto)).congr (fun q hq => ?_)
    obtain ⟨a1, a2, a3⟩ := ad.other x hx q hq
    exact hsame q a1 (fun e => a2 (e ▸ ptr_mem_ids y))
  have hj := merge_rep mp hy hz hly hlz (by omega) ad.py ad.pz ad.yz
  rw [hsv] at hj
  have hperm : (inner p (va ++ s :: vb) (A ++ y :: z :: B)).ids.Perm (z.ptr :: (inner p (va ++ vb) (A ++ y.join s z :: B)).ids) := by
    simp only [inner_ids, List.flatMap_append, List.flatMap_cons]
    refine List.Perm.trans (List.Perm.cons p ?_) (List.Perm.swap _ _ _)
    have h2 := ((join_ids y z s).append_right (B.flatMap ids)).append_left (A.flatMap ids)
    simp only [List.append_assoc] at h2
    refine h2.trans ?_
    simp only [List.cons_append]
    exact List.perm_middle
  have hnd' := hperm.nodup_iff.1 pre.nodup
  have hocc := (inner_kidsOcc _ _ _ _).1 pre.occ
  have hleaves : List.Sublist (inner p (va ++ vb) (A ++ y.join s z :: B)).leaves (inner p (va ++ s :: vb) (A ++ y :: z :: B)).leaves := by
    simp only [inner_leaves, List.flatMap_append, List.flatMap_cons]
    refine (List.Sublist.refl _).append ?_
    rw [← List.append_assoc]
    exact (join_leaves y z s).append (List.Sublist.refl _)
  have hent : (inner p (va ++ vb) (A ++ y.join s z :: B)).entries = (inner p (va ++ s :: vb) (A ++ y :: z :: B)).entries := by
    simp only [inner_entries, List.flatMap_append, List.flatMap_cons, join_entries, List.append_assoc]
  have hinter : List.Sublist (inner p (va ++ vb) (A ++ y.join s z :: B)).inter (inner p (va ++ s :: vb) (A ++ y :: z :: B)).inter := by
    rw [inner_inter _ _ _ _ _ _ hA, inner_inter _ _ _ _ _ _ hA, List.zip_cons_cons, List.flatMap_cons]
    simp only [List.append_assoc]
    refine (List.Sublist.refl _).append ?_
    have := (join_inter s hy hz).append (List.Sublist.refl ((vb.zip B).flatMap (fun x => x.1 :: inter x.2)))
    simpa using this
  refine ⟨⟨?_, rfl, mp.degree, mp.root, mp.size, mp.fresh, (List.nodup_cons.1 hnd').2, ?_, hleaves, ?_, ?_, by rw [hent], ?_⟩,
    ⟨hent, fun x hx => hinter.subset hx, fun _ P S hs => ?_⟩⟩
  · refine (rep_inner _ _ _ _).2 ⟨by rw [mp.isLeaf]; exact r1, ?_, ?_, by simp at r4 ⊢; omega, ?_, ?_⟩
    · rw [mp.num, if_pos rfl, r2]; simp
    · refine r3.erase (fun j hj => ?_)
      rw [mp.values, if_pos rfl, r2, hA]
      simp only [List.length_append, List.length_cons]
      by_cases hjv : j < va.length
      · rw [if_neg (by omega), if_pos hjv]
      · rw [if_pos (by omega), if_neg hjv]
    · simp only [List.map_append, List.map_cons, join_ptr] at r5 ⊢
      have e1 : ∀ l : List (Option Nat), A.map (fun k => some k.ptr) ++ some y.ptr :: l = (A.map (fun k => some k.ptr) ++ [some y.ptr]) ++ l := by simp
      rw [e1] at r5 ⊢
      refine r5.erase (fun j hj => ?_)
      simp at hj r4
      rw [mp.children, if_pos rfl, r2]
      simp only [List.length_append, List.length_cons, List.length_map, List.length_nil]
      by_cases hjv : j < A.length + 1
      · rw [if_neg (by omega), if_pos (by omega)]
      · rw [if_pos (by omega), if_neg (by omega)]
    · intro x hx
      simp only [List.mem_append, List.mem_cons] at hx
      rcases hx with hx | rfl | hx
      · exact hoth x (Or.inl hx)
      · exact hj
      · exact hoth x (Or.inr hx)
  · intro q hq
    exact hperm.mem_iff.2 (List.mem_cons_of_mem _ hq)
  · intro q hq
    refine hsame q (fun e => hq (by simp [e])) (fun e => hq ?_)
    simp only [inner_ids, List.flatMap_append, List.flatMap_cons, List.mem_cons, List.mem_append]
    exact Or.inr (Or.inr (Or.inl (e ▸ ptr_mem_ids y)))
  · intro x hx
    replace hx : x ∈ A ++ y.join s z :: B := hx
    simp only [List.mem_append, List.mem_cons] at hx
    rcases hx with hx | rfl | hx
    · exact hocc x (by simp [hx])
    · have := join_length hdeg y z s hly hlz
      exact ⟨by omega, join_kidsOcc (hocc y (by simp)).2 (hocc z (by simp)).2⟩
    · exact hocc x (by simp [hx])
  · have hring := pre.ring
    have hrnd := pre.rnodup
    have hn := mp.next
    have hp := mp.prev
    simp only [hy.isLeaf_eq] at hn hp
    cases d with
    | zero =>
      obtain ⟨c, vs, rfl⟩ := exists_leaf y
      obtain ⟨c', ws, rfl⟩ := exists_leaf z
      simp only [join_leaf, inner_leaves, List.flatMap_append, List.flatMap_cons, leaf_leaves, leaf_ptr, List.append_assoc, List.cons_append, List.nil_append,
        beq_self_eq_true, true_and] at *
      have := ring_remove (A := X ++ A.flatMap leaves) (B := B.flatMap leaves ++ Y) (y := c) (z := c') (h := t.h) (h' := t'.h)
        (by simpa using hring) (by simpa using hrnd) hn hp
      simpa using this
    | succ d =>
      have e : (inner p (va ++ vb) (A ++ y.join s z :: B)).leaves = (inner p (va ++ s :: vb) (A ++ y :: z :: B)).leaves := by
        obtain ⟨c, vs, ks, rfl⟩ := exists_inner y
        obtain ⟨c', ws, ls, rfl⟩ := exists_inner z
        simp only [join_inner, inner_leaves, List.flatMap_append, List.flatMap_cons, List.append_assoc]
      rw [e]
      refine hring.congr (fun q hq => ?_)
      rw [hn, hp]
      simp
  · exact List.Pairwise.sublist (((List.Sublist.refl P).append hinter).append (List.Sublist.refl S)) hs

end Gds.BPlus
