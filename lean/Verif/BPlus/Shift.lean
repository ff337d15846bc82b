import Verif.BPlus.Del
import Verif.BPlus.Spec

/-! `shiftToLeftChild`, `shiftToRightChild` on abstract trees. -/

namespace Gds.BPlus
open BT Tree
variable {K V : Type} [Inhabited K] [Inhabited V]

/-- Entries have moved between the neighbours `y` and `z`, which are now `y'` and `z'`. -/
structure Shifted {d : Nat} (t t' : Tree K V) (y z y' z' : BT K V d) : Prop where
  repY : Rep t'.h y'
  repZ : Rep t'.h z'
  ptrY : y'.ptr = y.ptr
  ptrZ : z'.ptr = z.ptr
  ids : (y'.ids ++ z'.ids).Perm (y.ids ++ z.ids)
  leaves : y'.leaves ++ z'.leaves = y.leaves ++ z.leaves
  count : y'.entries.length + z'.entries.length = y.entries.length + z.entries.length
  occY : y'.KidsOcc t.degree
  occZ : z'.KidsOcc t.degree
  lenY : t.degree - 1 ≤ y'.vals.length ∧ y'.vals.length ≤ 2 * t.degree - 1
  lenZ : t.degree - 1 ≤ z'.vals.length ∧ z'.vals.length ≤ 2 * t.degree - 1

/-- What both shifts do around the two children. -/
structure ShiftFrame (t t' : Tree K V) (p y z pos : Nat) (s' : K × V) : Prop where
  fresh : t'.fresh = t.fresh
  root : t'.root = t.root
  size : t'.size = t.size
  degree : t'.degree = t.degree
  next : t'.h.next = t.h.next
  prev : t'.h.prev = t.h.prev
  same : ∀ q, q ≠ p → q ≠ y → q ≠ z → SameAt t.h t'.h q
  isLeaf : t'.h.isLeaf p = t.h.isLeaf p
  num : t'.h.num p = t.h.num p
  children : t'.h.children p = t.h.children p
  values : ∀ j, t'.h.values p j = if j = pos then s' else t.h.values p j

theorem shift_step {t t' : Tree K V} {d : Nat} {y z y' z' : BT K V d} {p : Nat} {va vb : List (K × V)} {s s' : K × V} {A B : List (BT K V d)}
    {X Y : List Nat} (pre : Pre t (inner p (va ++ s :: vb) (A ++ y :: z :: B)) X Y) (hA : A.length = va.length)
    (fr : ShiftFrame t t' p y.ptr z.ptr A.length s') (sh : Shifted t t' y z y' z') :
    Step t t' (inner p (va ++ s :: vb) (A ++ y :: z :: B)) (inner p (va ++ s' :: vb) (A ++ y' :: z' :: B)) X Y := by
  have ad := addr pre.nodup
  obtain ⟨r1, r2, r3, r4, r5, r6⟩ := (rep_inner _ _ _ _).1 pre.rep
  have hoth : ∀ x, (x ∈ A ∨ x ∈ B) → Rep t'.h x := by
    intro x hx
    refine (r6 x (by simp; tauto)).congr (fun q hq => ?_)
    obtain ⟨a1, a2, a3⟩ := ad.other x hx q hq
    exact fr.same q a1 (fun e => a2 (e ▸ ptr_mem_ids y)) (fun e => a3 (e ▸ ptr_mem_ids z))
  have hperm : (inner p (va ++ s' :: vb) (A ++ y' :: z' :: B)).ids.Perm (inner p (va ++ s :: vb) (A ++ y :: z :: B)).ids := by
    simp only [inner_ids, List.flatMap_append, List.flatMap_cons]
    refine List.Perm.cons p (List.Perm.append_left _ ?_)
    have h2 := sh.ids.append_right (B.flatMap ids)
    simpa only [List.append_assoc] using h2
  have hocc := (inner_kidsOcc _ _ _ _).1 pre.occ
  have hleaves : (inner p (va ++ s' :: vb) (A ++ y' :: z' :: B)).leaves = (inner p (va ++ s :: vb) (A ++ y :: z :: B)).leaves := by
    simp only [inner_leaves, List.flatMap_append, List.flatMap_cons]
    rw [← List.append_assoc y'.leaves, sh.leaves, List.append_assoc]
  refine ⟨?_, rfl, fr.degree, fr.root, fr.size, fr.fresh, hperm.nodup_iff.2 pre.nodup, fun q hq => hperm.mem_iff.1 hq, by rw [hleaves], ?_, ?_, ?_, ?_⟩
  · refine (rep_inner _ _ _ _).2 ⟨by rw [fr.isLeaf]; exact r1, by rw [fr.num, r2]; simp, ?_, by simp at r4 ⊢; omega, ?_, ?_⟩
    · refine r3.set (fun j hj => ?_)
      rw [fr.values, hA]
    · rw [fr.children]
      simpa [sh.ptrY, sh.ptrZ] using r5
    · intro x hx
      simp only [List.mem_append, List.mem_cons] at hx
      rcases hx with hx | rfl | rfl | hx
      · exact hoth x (Or.inl hx)
      · exact sh.repY
      · exact sh.repZ
      · exact hoth x (Or.inr hx)
  · intro q hq
    simp only [inner_ids, List.flatMap_append, List.flatMap_cons, List.mem_cons, List.mem_append, not_or] at hq
    exact fr.same q hq.1 (fun e => hq.2.2.1 (e ▸ ptr_mem_ids y)) (fun e => hq.2.2.2.1 (e ▸ ptr_mem_ids z))
  · intro x hx
    replace hx : x ∈ A ++ y' :: z' :: B := hx
    simp only [List.mem_append, List.mem_cons] at hx
    rcases hx with hx | rfl | rfl | hx
    · exact hocc x (by simp [hx])
    · exact ⟨sh.lenY, sh.occY⟩
    · exact ⟨sh.lenZ, sh.occZ⟩
    · exact hocc x (by simp [hx])
  · have := sh.count
    simp only [inner_entries, List.flatMap_append, List.flatMap_cons, List.length_append]
    omega
  · rw [hleaves]
    exact pre.ring.congr (fun q _ => by rw [fr.next, fr.prev]; exact ⟨rfl, rfl⟩)

theorem LeftPost.frame {t t' : Tree K V} {p y z pos : Nat} (lp : LeftPost t t' p y z pos) (hpy : p ≠ y) (hpz : p ≠ z) :
    ShiftFrame t t' p y z pos (t.h.values z 0) := by
  refine ⟨lp.fresh, lp.root, lp.size, lp.degree, lp.next, lp.prev, ?_, by rw [lp.isLeaf], by rw [lp.num]; simp [hpy, hpz], ?_, ?_⟩
  · intro q h1 h2 h3
    constructor
    · rw [lp.isLeaf]
    · rw [lp.num]; simp [h2, h3]
    · funext j; rw [lp.values]; simp [h1, h2, h3]
    · funext j; rw [lp.children]; simp [h2, h3]
  · funext j; rw [lp.children]; simp [hpy, hpz]
  · intro j; rw [lp.values]; simp

theorem RightPost.frame {t t' : Tree K V} {p y z pos : Nat} (rp : RightPost t t' p y z pos) (hpy : p ≠ y) (hpz : p ≠ z) :
    ShiftFrame t t' p y z pos (if t.h.isLeaf z then t.h.values y (t.h.num y - 2) else t.h.values y (t.h.num y - 1)) := by
  refine ⟨rp.fresh, rp.root, rp.size, rp.degree, rp.next, rp.prev, ?_, by rw [rp.isLeaf], by rw [rp.num]; simp [hpy, hpz], ?_, ?_⟩
  · intro q h1 h2 h3
    constructor
    · rw [rp.isLeaf]
    · rw [rp.num]; simp [h2, h3]
    · funext j; rw [rp.values]; simp [h1, h3]
    · funext j; rw [rp.children]; simp [h3]
  · funext j; rw [rp.children]; simp [hpz]
  · intro j; rw [rp.values]; simp

omit [Inhabited K] [Inhabited V] in
theorem sorted_dup {cmp : Compare K} (hc : cmp.Lawful) {P S : List (K × V)} {x : K × V} (h : Sorted cmp (P ++ x :: S)) : Sorted cmp (P ++ x :: x :: S) := by
  unfold Sorted at *
  have := hc.self x.1
  simp only [List.pairwise_append, List.pairwise_cons, List.mem_cons] at h ⊢
  grind

theorem left_shifted {t t' : Tree K V} {d : Nat} {y z : BT K V d} {p pos : Nat} {s : K × V}
    (lp : LeftPost t t' p y.ptr z.ptr pos) (hs : t.h.values p pos = s)
    (hy : Rep t.h y) (hz : Rep t.h z) (hly : y.vals.length = t.degree - 1) (hlz : t.degree ≤ z.vals.length) (hlz' : z.vals.length ≤ 2 * t.degree - 1)
    (hM : 2 ≤ t.degree) (hoy : y.KidsOcc t.degree) (hoz : z.KidsOcc t.degree)
    (hpy : p ∉ y.ids) (hpz : p ∉ z.ids) (hnd : (y.ids ++ z.ids).Nodup) :
    ∃ y' z', Shifted t t' y z y' z' ∧ y'.vals.length = t.degree ∧ y'.entries ++ z'.entries = y.entries ++ z.entries ∧
      (∀ x ∈ y'.inter ++ t.h.values z.ptr 0 :: z'.inter, x ∈ y.inter ++ s :: z.inter) ∧
      (∀ cmp : Compare K, cmp.Lawful → ∀ P S, Sorted cmp (P ++ (y.inter ++ s :: z.inter) ++ S) →
        Sorted cmp (P ++ (y'.inter ++ t.h.values z.ptr 0 :: z'.inter) ++ S)) := by
  have h1 : y.ptr ≠ p := fun e => hpy (e ▸ ptr_mem_ids y)
  have h2 : z.ptr ≠ p := fun e => hpz (e ▸ ptr_mem_ids z)
  have h3 : y.ptr ≠ z.ptr := by
    intro e
    exact (List.nodup_append.1 hnd).2.2 _ (ptr_mem_ids y) _ (ptr_mem_ids z) e
  have hny := lp.num y.ptr
  have hnz := lp.num z.ptr
  have hvy := lp.values y.ptr
  have hvz := lp.values z.ptr
  have hcy := lp.children y.ptr
  have hcz := lp.children z.ptr
  have hl := lp.isLeaf
  simp only [h1, h2, h3, h3.symm, if_false, if_true, hz.isLeaf_eq, hy.num_eq, hz.num_eq] at hny hnz hvy hvz hcy hcz
  have hzpos : 0 < z.vals.length := by omega
  have hz0 := hz.slots 0 hzpos
  cases d with
  | zero =>
    obtain ⟨c, vs, rfl⟩ := exists_leaf y
    obtain ⟨c', ws, rfl⟩ := exists_leaf z
    obtain ⟨r1, r2, r3, r4⟩ := (rep_leaf _ _ _).1 hy
    obtain ⟨s1, s2, s3, s4⟩ := (rep_leaf _ _ _).1 hz
    cases ws with
    | nil => simp at hlz; omega
    | cons w ws =>
      simp only [leaf_ptr, leaf_vals, beq_self_eq_true, if_true, List.length_cons, List.getElem_cons_zero] at *
      rw [hz0] at hvy ⊢
      refine ⟨leaf c (vs ++ [w]), leaf c' ws, ⟨?_, ?_, rfl, rfl, List.Perm.refl _, rfl, by simp; omega, trivial, trivial, by simp; omega, by simp; omega⟩,
        by simp; omega, by simp, ?_, ?_⟩
      · refine (rep_leaf _ _ _).2 ⟨by rw [hl]; exact r1, by rw [hny]; simp, ?_, ?_⟩
        · refine Slots.insert (f := t.h.values c) (ys := []) (by simpa using r3) (fun j hj => ?_)
          simp at hj
          rw [hvy]
          grind
        · intro j; rw [hcy]; exact r4 j
      · refine (rep_leaf _ _ _).2 ⟨by rw [hl]; exact s1, by rw [hnz]; simp, ?_, ?_⟩
        · refine Slots.erase (f := t.h.values c') (xs := []) (m := w) (by simpa using s3) (fun j hj => ?_)
          simp at hj
          rw [hvz]; simp [hj]
        · intro j; rw [hcz]; exact s4 j
      · simp only [leaf_inter]
        intro x hx
        simp at hx ⊢
        tauto
      · intro cmp hc P S hs
        simp only [leaf_inter] at hs ⊢
        have hsub : List.Sublist (P ++ vs ++ w :: (ws ++ S)) (P ++ (vs ++ s :: w :: ws) ++ S) := by simp
        have := sorted_dup hc (List.Pairwise.sublist hsub hs)
        simpa using this
  | succ d =>
    obtain ⟨c, vs, ks, rfl⟩ := exists_inner y
    obtain ⟨c', ws, ls, rfl⟩ := exists_inner z
    obtain ⟨r1, r2, r3, r4, r5, r6⟩ := (rep_inner _ _ _ _).1 hy
    obtain ⟨s1, s2, s3, s4, s5, s6⟩ := (rep_inner _ _ _ _).1 hz
    cases ws with
    | nil => simp at hlz; omega
    | cons w ws =>
    cases ls with
    | nil => simp at s4
    | cons l ls =>
      have hkids : ∀ x, (x ∈ ks ∨ x ∈ l :: ls) → Rep t'.h x := by
        intro x hx
        have hrx : Rep t.h x := hx.elim (r6 x) (s6 x)
        refine hrx.congr (fun q hq => ?_)
        have hne : q ≠ p ∧ q ≠ c ∧ q ≠ c' := by
          simp only [inner_ids, List.mem_cons, List.mem_flatMap, not_or, not_exists, not_and, List.nodup_append, List.nodup_cons] at hpy hpz hnd
          rcases hx with h | h
          · refine ⟨fun e => hpy.2 x h (e ▸ hq), fun e => hnd.1.1 x h (e ▸ hq), fun e => ?_⟩
            exact hnd.2.2 q (Or.inr ⟨x, h, hq⟩) c' (Or.inl rfl) e
          · refine ⟨fun e => hpz.2 x (List.mem_cons.1 h) (e ▸ hq), fun e => ?_, fun e => hnd.2.1.1 x (List.mem_cons.1 h) (e ▸ hq)⟩
            exact hnd.2.2 c (Or.inl rfl) q (Or.inr ⟨x, List.mem_cons.1 h, hq⟩) e.symm
        constructor
        · rw [lp.isLeaf]
        · rw [lp.num]; simp [hne]
        · funext j; rw [lp.values]; simp [hne]
        · funext j; rw [lp.children]; simp [hne]
      simp only [inner_ptr, inner_vals, Nat.add_eq_zero_iff, Nat.succ_ne_self, and_false, beq_iff_eq, if_false, Nat.reduceEqDiff, List.length_cons, List.getElem_cons_zero] at *
      rw [hz0]
      refine ⟨inner c (vs ++ [s]) (ks ++ [l]), inner c' ws ls, ⟨?_, ?_, rfl, rfl, ?_, by simp, by simp; omega, ?_, ?_, by simp; omega, by simp; omega⟩,
        by simp; omega, by simp, ?_, ?_⟩
      · refine (rep_inner _ _ _ _).2 ⟨by rw [hl]; exact r1, by rw [hny]; simp, ?_, by simp; omega, ?_, ?_⟩
        · refine Slots.insert (f := t.h.values c) (ys := []) (by simpa using r3) (fun j hj => ?_)
          simp at hj
          rw [hvy, hs]
          grind
        · rw [List.map_append]
          refine Slots.insert (f := t.h.children c) (ys := []) (by simpa using r5) (fun j hj => ?_)
          simp at hj
          rw [hcy, show t.h.children c' 0 = some l.ptr from s5 0 (by simp)]
          simp only [List.length_map]
          grind
        · intro x hx
          simp only [List.mem_append, List.mem_cons, List.mem_nil_iff, or_false] at hx
          exact hkids x (by simp; tauto)
      · refine (rep_inner _ _ _ _).2 ⟨by rw [hl]; exact s1, by rw [hnz]; simp, ?_, by simpa using s4, ?_, ?_⟩
        · refine Slots.erase (f := t.h.values c') (xs := []) (m := w) (by simpa using s3) (fun j hj => ?_)
          simp at hj
          rw [hvz]; simp [hj]
        · refine Slots.erase (f := t.h.children c') (xs := []) (m := some l.ptr) (by simpa using s5) (fun j hj => ?_)
          simp at hj s4
          refine (hcz j).trans ?_
          have hj' : j < ws.length + 1 := by omega
          exact if_pos hj'
        · intro x hx; exact hkids x (by simp [hx])
      · simp only [inner_ids, List.flatMap_append, List.flatMap_cons, List.flatMap_nil, List.append_nil, List.cons_append, List.append_assoc]
        refine List.Perm.cons _ (List.Perm.append_left _ ?_)
        exact List.perm_middle
      · intro x hx
        replace hx : x ∈ ks ++ [l] := hx
        simp at hx
        rcases hx with h | rfl
        · exact hoy x h
        · exact hoz x List.mem_cons_self
      · intro x hx
        exact hoz x (List.mem_cons_of_mem _ hx)
      all_goals
        have e : (inner c (vs ++ [s]) (ks ++ [l])).inter ++ w :: (inner c' ws ls).inter = (inner c vs ks).inter ++ s :: (inner c' (w :: ws) (l :: ls)).inter := by
          rcases List.eq_nil_or_concat ks with rfl | ⟨ks', k, rfl⟩
          · simp at r4
          cases ls with
          | nil => simp at s4
          | cons l2 ls =>
            simp only [List.concat_eq_append] at *
            have hl : ks'.length = vs.length := by simpa using r4
            have i1 := inner_inter c vs [s] ks' k [l] hl
            have i2 := inner_inter c' [] ws [] l2 ls rfl
            have i3 := inner_inter c vs [] ks' k [] hl
            have i4 := inner_inter c' [] (w :: ws) [] l (l2 :: ls) rfl
            simp only [List.nil_append, List.append_nil, List.append_assoc, List.cons_append] at i1 i2 i3 i4 ⊢
            rw [i1, i2, i3, i4]
            simp
        rw [e]
      · exact fun x hx => hx
      · exact fun cmp hc P S hs => hs

omit [Inhabited K] [Inhabited V] in
theorem slots_dup {f g : Nat → K × V} {w m : K × V} {ws : List (K × V)} (h : Slots f (w :: ws))
    (hg : ∀ j, j ≤ ws.length + 1 → g j = if j = 0 ∨ j = 1 then m else f (j - 1)) : Slots g (m :: m :: ws) := by
  intro i hi
  simp at hi
  rw [hg i (by omega)]
  match i with
  | 0 => simp
  | 1 => simp
  | i + 2 =>
    rw [if_neg (by omega), show i + 2 - 1 = i + 1 by omega, h (i + 1) (by simp; omega)]
    simp

theorem right_shifted {t t' : Tree K V} {d : Nat} {y z : BT K V d} {p pos : Nat}
    (rp : RightPost t t' p y.ptr z.ptr pos)
    (hy : Rep t.h y) (hz : Rep t.h z) (hly : t.degree ≤ y.vals.length) (hly' : y.vals.length ≤ 2 * t.degree - 1) (hlz : z.vals.length = t.degree - 1)
    (hM : 2 ≤ t.degree) (hoy : y.KidsOcc t.degree) (hoz : z.KidsOcc t.degree)
    (hpy : p ∉ y.ids) (hpz : p ∉ z.ids) (hnd : (y.ids ++ z.ids).Nodup) :
    ∃ y' z', Shifted t t' y z y' z' ∧ z'.vals.length = t.degree ∧ (d = 0 → ∃ P x w S, y.entries ++ z.entries = P ++ x :: w :: S ∧
      y'.entries ++ z'.entries = P ++ x :: x :: S ∧ ∃ Q u, P = Q ++ [u] ∧ y.inter = P ++ [x] ∧ z.inter = w :: S ∧ y'.inter = P ∧ z'.inter = x :: x :: S ∧
        (if t.h.isLeaf z.ptr then t.h.values y.ptr (t.h.num y.ptr - 2) else t.h.values y.ptr (t.h.num y.ptr - 1)) = u) ∧ (d ≠ 0 → y'.entries ++ z'.entries = y.entries ++ z.entries) := by
  have h1 : y.ptr ≠ p := fun e => hpy (e ▸ ptr_mem_ids y)
  have h2 : z.ptr ≠ p := fun e => hpz (e ▸ ptr_mem_ids z)
  have h3 : y.ptr ≠ z.ptr := by
    intro e
    exact (List.nodup_append.1 hnd).2.2 _ (ptr_mem_ids y) _ (ptr_mem_ids z) e
  have hny := rp.num y.ptr
  have hnz := rp.num z.ptr
  have hvy := rp.values y.ptr
  have hvz := rp.values z.ptr
  have hcy := rp.children y.ptr
  have hcz := rp.children z.ptr
  have hl := rp.isLeaf
  simp only [h1, h2, h3, h3.symm, if_false, if_true, hz.isLeaf_eq, hy.num_eq, hz.num_eq] at hny hnz hvy hvz hcy hcz
  cases d with
  | zero =>
    obtain ⟨c, vs, rfl⟩ := exists_leaf y
    obtain ⟨c', ws, rfl⟩ := exists_leaf z
    obtain ⟨r1, r2, r3, r4⟩ := (rep_leaf _ _ _).1 hy
    obtain ⟨s1, s2, s3, s4⟩ := (rep_leaf _ _ _).1 hz
    rcases List.eq_nil_or_concat vs with rfl | ⟨vs, m, rfl⟩
    · simp at hly; omega
    cases ws with
    | nil => simp at hlz; omega
    | cons w ws =>
      simp only [List.concat_eq_append, leaf_ptr, leaf_vals, beq_self_eq_true, if_true, List.length_cons, List.length_append, List.length_nil, Nat.zero_add] at *
      have hlast : ∃ Q u, vs = Q ++ [u] ∧ (leaf c (vs ++ [m])).inter = vs ++ [m] ∧ (leaf c' (w :: ws)).inter = w :: ws ∧ (leaf c vs).inter = vs ∧
          (leaf c' (m :: m :: ws)).inter = m :: m :: ws ∧
          (if t.h.isLeaf c' then t.h.values c (t.h.num c - 2) else t.h.values c (t.h.num c - 1)) = u := by
        rcases List.eq_nil_or_concat vs with rfl | ⟨Q, u, rfl⟩
        · simp at hly; omega
        · simp only [List.concat_eq_append] at *
          refine ⟨Q, u, rfl, by simp, by simp, by simp, by simp, ?_⟩
          rw [s1, if_pos rfl, r2]
          have : t.h.values c Q.length = u := by
            have h := r3 Q.length (by simp)
            rw [h]; simp
          rw [← this]; congr 1; simp
      refine ⟨leaf c vs, leaf c' (m :: m :: ws), ⟨?_, ?_, rfl, rfl, List.Perm.refl _, rfl, by simp; omega, trivial, trivial, by simp; omega, by simp; omega⟩,
        by simp; omega, fun _ => ⟨vs, m, w, ws, by simp, by simp, hlast⟩, fun h => absurd rfl h⟩
      · refine (rep_leaf _ _ _).2 ⟨by rw [hl]; exact r1, by rw [hny]; simp, ?_, ?_⟩
        · exact r3.left.of_eq (fun j _ => hvy j)
        · intro j; rw [hcy]; exact r4 j
      · refine (rep_leaf _ _ _).2 ⟨by rw [hl]; exact s1, by rw [hnz]; simp, ?_, ?_⟩
        · refine slots_dup s3 (fun j hj => ?_)
          rw [hvz]
          have : t.h.values c (vs.length + 1 - 1) = m := r3.at
          rw [this]
          grind
        · intro j; rw [hcz]; exact s4 j
  | succ d =>
    obtain ⟨c, vs, ks, rfl⟩ := exists_inner y
    obtain ⟨c', ws, ls, rfl⟩ := exists_inner z
    obtain ⟨r1, r2, r3, r4, r5, r6⟩ := (rep_inner _ _ _ _).1 hy
    obtain ⟨s1, s2, s3, s4, s5, s6⟩ := (rep_inner _ _ _ _).1 hz
    rcases List.eq_nil_or_concat vs with rfl | ⟨vs, m, rfl⟩
    · simp at hly; omega
    rcases List.eq_nil_or_concat ks with rfl | ⟨ks, k, rfl⟩
    · simp at r4
    cases ws with
    | nil => simp at hlz; omega
    | cons w ws =>
      simp only [List.concat_eq_append] at *
      have hkids : ∀ x, (x ∈ ks ++ [k] ∨ x ∈ ls) → Rep t'.h x := by
        intro x hx
        have hrx : Rep t.h x := hx.elim (r6 x) (s6 x)
        refine hrx.congr (fun q hq => ?_)
        have hne : q ≠ p ∧ q ≠ c ∧ q ≠ c' := by
          simp only [inner_ids, List.mem_cons, List.mem_flatMap, not_or, not_exists, not_and, List.nodup_append, List.nodup_cons] at hpy hpz hnd
          rcases hx with h | h
          · refine ⟨fun e => hpy.2 x h (e ▸ hq), fun e => hnd.1.1 x h (e ▸ hq), fun e => ?_⟩
            exact hnd.2.2 q (Or.inr ⟨x, h, hq⟩) c' (Or.inl rfl) e
          · refine ⟨fun e => hpz.2 x h (e ▸ hq), fun e => ?_, fun e => hnd.2.1.1 x h (e ▸ hq)⟩
            exact hnd.2.2 c (Or.inl rfl) q (Or.inr ⟨x, h, hq⟩) e.symm
        constructor
        · rw [rp.isLeaf]
        · rw [rp.num]; simp [hne]
        · funext j; rw [rp.values]; simp [hne]
        · funext j; rw [rp.children]; simp [hne]
      simp only [inner_ptr, inner_vals, Nat.add_eq_zero_iff, Nat.succ_ne_self, and_false, beq_iff_eq, if_false, Nat.reduceEqDiff, List.length_cons, List.length_append,
        List.length_nil, Nat.zero_add] at *
      generalize hsp : t.h.values p pos = s at *
      refine ⟨inner c vs ks, inner c' (s :: s :: ws) (k :: ls), ⟨?_, ?_, rfl, rfl, ?_, by simp, by simp; omega, ?_, ?_, by simp; omega, by simp; omega⟩,
        by simp; omega, fun h => by simp at h, fun _ => by simp⟩
      · refine (rep_inner _ _ _ _).2 ⟨by rw [hl]; exact r1, by rw [hny]; simp, ?_, by omega, ?_, ?_⟩
        · exact r3.left.of_eq (fun j _ => hvy j)
        · rw [List.map_append] at r5
          exact r5.left.of_eq (fun j _ => hcy j)
        · intro x hx; exact hkids x (by simp [hx])
      · refine (rep_inner _ _ _ _).2 ⟨by rw [hl]; exact s1, by rw [hnz]; simp, ?_, by simp; omega, ?_, ?_⟩
        · refine slots_dup s3 (fun j hj => ?_)
          refine (hvz j).trans ?_
          grind
        · refine Slots.insert (f := t.h.children c') (xs := []) (by simpa using s5) (fun j hj => ?_)
          refine (hcz j).trans ?_
          have : t.h.children c (vs.length + 1) = some k.ptr := by
            rw [List.map_append] at r5
            have := r5.at
            simp only [List.length_map] at this
            rw [← this]; congr 1; omega
          rw [this]
          simp at hj
          grind
        · intro x hx
          simp only [List.mem_cons] at hx
          exact hkids x (by simp; tauto)
      · simp only [inner_ids, List.flatMap_append, List.flatMap_cons, List.flatMap_nil, List.append_nil, List.cons_append, List.append_assoc]
        refine List.Perm.cons _ (List.Perm.append_left _ ?_)
        exact List.perm_middle.symm
      · intro x hx
        exact hoy x (List.mem_append_left _ hx)
      · intro x hx
        replace hx : x ∈ k :: ls := hx
        rcases List.mem_cons.1 hx with rfl | h
        · exact hoy x (List.mem_append_right _ List.mem_cons_self)
        · exact hoz x h

end Gds.BPlus
