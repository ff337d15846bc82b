import Verif.BPlus.View
import Verif.BPlus.Delete

/-! What moving entries between neighbours is for the pure tree. -/

namespace Gds.BPlus
open BT Tree
variable {K V : Type} [Inhabited K] [Inhabited V]

omit [Inhabited K] [Inhabited V] in
/-- Addresses below two neighbours are neither the neighbours nor their parent. -/
theorem kid_ne {d : Nat} {p c c' : Nat} {vs ws : List (K × V)} {ks ls : List (BT K V d)} (hpy : p ∉ (inner c vs ks).ids) (hpz : p ∉ (inner c' ws ls).ids)
    (hnd : ((inner c vs ks).ids ++ (inner c' ws ls).ids).Nodup) : ∀ x, (x ∈ ks ∨ x ∈ ls) → ∀ q ∈ x.ids, q ≠ p ∧ q ≠ c ∧ q ≠ c' := by
  intro x hx q hq
  simp only [inner_ids, List.mem_cons, List.mem_flatMap, not_or, not_exists, not_and, List.nodup_append, List.nodup_cons] at hpy hpz hnd
  rcases hx with h | h
  · refine ⟨fun e => hpy.2 x h (e ▸ hq), fun e => hnd.1.1 x h (e ▸ hq), fun e => ?_⟩
    exact hnd.2.2 q (Or.inr ⟨x, h, hq⟩) c' (Or.inl rfl) e
  · refine ⟨fun e => hpz.2 x h (e ▸ hq), fun e => ?_, fun e => hnd.2.1.1 x h (e ▸ hq)⟩
    exact hnd.2.2 c (Or.inl rfl) q (Or.inr ⟨x, h, hq⟩) e.symm

/-- bplustree.go:410-433 -/
theorem view_borrowL {t t' : Tree K V} {d : Nat} {y z : BT K V d} {p pos : Nat} {v : K × V}
    (rp : RightPost t t' p y.ptr z.ptr pos) (hv : t.h.values p pos = v) (hy : Rep t.h y) (hz : Rep t.h z)
    (hly : 1 ≤ y.vals.length) (hlz : 1 ≤ z.vals.length) (hpy : p ∉ y.ids) (hpz : p ∉ z.ids) (hnd : (y.ids ++ z.ids).Nodup) :
    FT.borrowL (view t.h d y.ptr) v (view t.h d z.ptr) = (view t'.h d y.ptr,
      (if t.h.isLeaf z.ptr then t.h.values y.ptr (t.h.num y.ptr - 2) else t.h.values y.ptr (t.h.num y.ptr - 1)), view t'.h d z.ptr) := by
  have h1 : y.ptr ≠ p := fun e => hpy (e ▸ ptr_mem_ids y)
  have h2 : z.ptr ≠ p := fun e => hpz (e ▸ ptr_mem_ids z)
  have h3 : y.ptr ≠ z.ptr := by
    intro e
    exact (List.nodup_append.1 hnd).2.2 _ (ptr_mem_ids y) _ (ptr_mem_ids z) e
  have hny := rp.num y.ptr
  have hnz := rp.num z.ptr
  have hvy := rp.values y.ptr
  have hvz := rp.values z.ptr
  have hcy := rp.children y.ptr
  have hcz := rp.children z.ptr
  simp only [h1, h2, h3, h3.symm, if_false, if_true, hz.isLeaf_eq] at hny hnz hvy hvz hcy hcz
  rw [hz.isLeaf_eq]
  cases d with
  | zero =>
    have e1 : t'.h.values y.ptr = t.h.values y.ptr := funext hvy
    have e2 := hz.num_eq
    show ((FLeaf.mk _ _, _, FLeaf.mk _ _) : FLeaf (K × V) × (K × V) × FLeaf (K × V)) = (FLeaf.mk _ _, _, FLeaf.mk _ _)
    rw [e1, hny, hnz]
    refine Prod.ext rfl (Prod.ext rfl ?_)
    simp only [FLeaf.mk.injEq]
    refine ⟨?_, rfl⟩
    funext j
    rw [hvz]
    show (if j ≤ 1 then t.h.values y.ptr (t.h.num y.ptr - 1) else if j ≤ t.h.num z.ptr then t.h.values z.ptr (j - 1) else t.h.values z.ptr j) = _
    grind
  | succ d =>
    simp only [hy.num_eq, hz.num_eq] at hny hnz hvy hvz hcy hcz
    obtain ⟨c, vs, ks, rfl⟩ := exists_inner y
    obtain ⟨c', ws, ls, rfl⟩ := exists_inner z
    obtain ⟨r1, r2, r3, r4, r5, r6⟩ := (rep_inner _ _ _ _).1 hy
    obtain ⟨s1, s2, s3, s4, s5, s6⟩ := (rep_inner _ _ _ _).1 hz
    rcases List.eq_nil_or_concat vs with rfl | ⟨vs, m, rfl⟩
    · simp at hly
    rcases List.eq_nil_or_concat ks with rfl | ⟨ks, k, rfl⟩
    · simp at r4
    cases ws with
    | nil => simp at hlz
    | cons w ws =>
      simp only [List.concat_eq_append] at *
      have hkids : ∀ x, (x ∈ ks ++ [k] ∨ x ∈ ls) → view t'.h d x.ptr = view t.h d x.ptr := by
        intro x hx
        have hrx : Rep t.h x := hx.elim (r6 x) (s6 x)
        refine view_congr hrx (fun q hq => ?_)
        have hne := kid_ne hpy hpz hnd x hx q hq
        constructor
        · rw [rp.isLeaf]
        · rw [rp.num]; simp [hne]
        · funext j; rw [rp.values]; simp [hne]
        · funext j; rw [rp.children]; simp [hne]
      simp only [inner_ptr, inner_vals, Nat.add_eq_zero_iff, Nat.succ_ne_self, and_false, beq_iff_eq, if_false, Nat.reduceEqDiff, List.length_cons, List.length_append,
        List.length_nil, Nat.zero_add] at *
      have v1 : view t'.h (d + 1) c = FT.node vs ((ks.map BT.ptr).map (view t'.h d)) := by
        refine view_slots (by rw [hny]; simp) (r3.left.of_eq (fun j _ => hvy j)) (by simp; omega) ?_
        rw [List.map_append] at r5
        have := r5.left.of_eq (fun j _ => hcy j)
        simpa [Function.comp_def] using this
      have v2 : view t'.h (d + 1) c' = FT.node (v :: v :: ws) (((k :: ls).map BT.ptr).map (view t'.h d)) := by
        refine view_slots (by rw [hnz]; simp) ?_ (by simp; omega) ?_
        · refine slots_dup s3 (fun j hj => ?_)
          refine (hvz j).trans ?_
          rw [hv]
          grind
        · have : Slots (t'.h.children c') ([] ++ some k.ptr :: ls.map (fun k => some k.ptr)) := by
            refine Slots.insert (f := t.h.children c') (xs := []) (by simpa using s5) (fun j hj => ?_)
            refine (hcz j).trans ?_
            have : t.h.children c (vs.length + 1) = some k.ptr := by
              rw [List.map_append] at r5
              have := r5.at
              simp only [List.length_map] at this
              rw [← this]; congr 1; omega
            rw [this]
            simp at hj
            grind
          simpa [Function.comp_def] using this
      have hm : t.h.values c (t.h.num c - 1) = m := by
        rw [r2]; simp only [Nat.add_sub_cancel]; exact r3.at
      rw [v1, v2, view_inner hy, view_inner hz]
      show (((_, _), _, (_, _)) : (List (K × V) × List (FT (K × V) d)) × (K × V) × (List (K × V) × List (FT (K × V) d))) = ((_, _), _, (_, _))
      have m1 : (ks.map BT.ptr).map (view t'.h d) = ks.map (fun k => view t.h d k.ptr) := by
        rw [List.map_map]; exact List.map_congr_left (fun x hx => hkids x (by simp [hx]))
      have m2 : ((k :: ls).map BT.ptr).map (view t'.h d) = (k :: ls).map (fun k => view t.h d k.ptr) := by
        rw [List.map_map]; exact List.map_congr_left (fun x hx => hkids x (by simp at hx ⊢; tauto))
      rw [m1, m2, hm]
      simp [FT.node]

/-- bplustree.go:435-458 -/
theorem view_borrowR {t t' : Tree K V} {d : Nat} {y z : BT K V d} {p pos : Nat} {v : K × V}
    (lp : LeftPost t t' p y.ptr z.ptr pos) (hv : t.h.values p pos = v) (hy : Rep t.h y) (hz : Rep t.h z)
    (hlz : 1 ≤ z.vals.length) (hpy : p ∉ y.ids) (hpz : p ∉ z.ids) (hnd : (y.ids ++ z.ids).Nodup) :
    FT.borrowR (view t.h d y.ptr) v (view t.h d z.ptr) = (view t'.h d y.ptr, t.h.values z.ptr 0, view t'.h d z.ptr) := by
  have h1 : y.ptr ≠ p := fun e => hpy (e ▸ ptr_mem_ids y)
  have h2 : z.ptr ≠ p := fun e => hpz (e ▸ ptr_mem_ids z)
  have h3 : y.ptr ≠ z.ptr := by
    intro e
    exact (List.nodup_append.1 hnd).2.2 _ (ptr_mem_ids y) _ (ptr_mem_ids z) e
  have hny := lp.num y.ptr
  have hnz := lp.num z.ptr
  have hvy := lp.values y.ptr
  have hvz := lp.values z.ptr
  have hcy := lp.children y.ptr
  have hcz := lp.children z.ptr
  simp only [h1, h2, h3, h3.symm, if_false, if_true, hz.isLeaf_eq] at hny hnz hvy hvz hcy hcz
  cases d with
  | zero =>
    show ((FLeaf.mk _ _, _, FLeaf.mk _ _) : FLeaf (K × V) × (K × V) × FLeaf (K × V)) = (FLeaf.mk _ _, _, FLeaf.mk _ _)
    rw [hny, hnz, funext hvy, funext hvz]
    rfl
  | succ d =>
    simp only [hy.num_eq, hz.num_eq] at hny hnz hvy hvz hcy hcz
    obtain ⟨c, vs, ks, rfl⟩ := exists_inner y
    obtain ⟨c', ws, ls, rfl⟩ := exists_inner z
    obtain ⟨r1, r2, r3, r4, r5, r6⟩ := (rep_inner _ _ _ _).1 hy
    obtain ⟨s1, s2, s3, s4, s5, s6⟩ := (rep_inner _ _ _ _).1 hz
    cases ws with
    | nil => simp at hlz
    | cons w ws =>
    cases ls with
    | nil => simp at s4
    | cons l ls =>
      have hkids : ∀ x, (x ∈ ks ∨ x ∈ l :: ls) → view t'.h d x.ptr = view t.h d x.ptr := by
        intro x hx
        have hrx : Rep t.h x := hx.elim (r6 x) (s6 x)
        refine view_congr hrx (fun q hq => ?_)
        have hne := kid_ne hpy hpz hnd x hx q hq
        constructor
        · rw [lp.isLeaf]
        · rw [lp.num]; simp [hne]
        · funext j; rw [lp.values]; simp [hne]
        · funext j; rw [lp.children]; simp [hne]
      simp only [inner_ptr, inner_vals, Nat.add_eq_zero_iff, Nat.succ_ne_self, and_false, beq_iff_eq, if_false, Nat.reduceEqDiff, List.length_cons] at *
      have hz0 : t.h.values c' 0 = w := s3 0 (by simp)
      have v1 : view t'.h (d + 1) c = FT.node (vs ++ [v]) (((ks ++ [l]).map BT.ptr).map (view t'.h d)) := by
        refine view_slots (by rw [hny]; simp) ?_ (by simp; omega) ?_
        · refine Slots.insert (f := t.h.values c) (ys := []) (by simpa using r3) (fun j hj => ?_)
          simp at hj
          rw [hvy, hv]
          grind
        · have : Slots (t'.h.children c) (ks.map (fun k => some k.ptr) ++ some l.ptr :: []) := by
            refine Slots.insert (f := t.h.children c) (ys := []) (by simpa using r5) (fun j hj => ?_)
            simp at hj
            rw [hcy, show t.h.children c' 0 = some l.ptr from s5 0 (by simp)]
            simp only [List.length_map]
            grind
          simpa [Function.comp_def] using this
      have v2 : view t'.h (d + 1) c' = FT.node ws ((ls.map BT.ptr).map (view t'.h d)) := by
        refine view_slots (by rw [hnz]; simp) ?_ (by simp; omega) ?_
        · refine Slots.erase (f := t.h.values c') (xs := []) (m := w) (by simpa using s3) (fun j hj => ?_)
          simp at hj
          rw [hvz]; simp [hj]
        · have : Slots (t'.h.children c') ([] ++ ls.map (fun k => some k.ptr)) := by
            refine Slots.erase (f := t.h.children c') (xs := []) (m := some l.ptr) (by simpa using s5) (fun j hj => ?_)
            simp at hj s4
            refine (hcz j).trans ?_
            have hj' : j < ws.length + 1 := by omega
            exact if_pos hj'
          simpa [Function.comp_def] using this
      rw [v1, v2, view_inner hy, view_inner hz]
      show (((_, _), _, (_, _)) : (List (K × V) × List (FT (K × V) d)) × (K × V) × (List (K × V) × List (FT (K × V) d))) = ((_, _), _, (_, _))
      have m1 : ((ks ++ [l]).map BT.ptr).map (view t'.h d) = (ks ++ [l]).map (fun k => view t.h d k.ptr) := by
        rw [List.map_map]; exact List.map_congr_left (fun x hx => hkids x (by simp at hx ⊢; tauto))
      have m2 : (ls.map BT.ptr).map (view t'.h d) = ls.map (fun k => view t.h d k.ptr) := by
        rw [List.map_map]; exact List.map_congr_left (fun x hx => hkids x (by simp [hx]))
      rw [m1, m2, hz0]
      simp [FT.node]

/-- bplustree.go:254-286 -/
theorem view_join {t t' : Tree K V} {d : Nat} {y z : BT K V d} {r pos : Nat} {v : K × V} (mp : MergePost t t' r y.ptr z.ptr pos) (hv : t.h.values r pos = v)
    (hy : Rep t.h y) (hz : Rep t.h z) (hly : y.vals.length = t.degree - 1) (hlz : z.vals.length = t.degree - 1) (hM : 1 ≤ t.degree)
    (hry : r ∉ y.ids) (hrz : r ∉ z.ids) (hnd : (y.ids ++ z.ids).Nodup) :
    FT.join t.degree (view t.h d y.ptr) v (view t.h d z.ptr) = view t'.h d y.ptr := by
  have hj := merge_rep mp hy hz hly hlz hM hry hrz hnd
  rw [hv] at hj
  have h1 : y.ptr ≠ r := fun e => hry (e ▸ ptr_mem_ids y)
  cases d with
  | zero =>
    have hn := mp.num y.ptr
    have hvs := mp.values y.ptr
    simp only [h1, if_false, if_true, hy.isLeaf_eq, beq_self_eq_true] at hn hvs
    show FLeaf.mk _ _ = FLeaf.mk _ _
    rw [hn, funext hvs]
    rfl
  | succ d =>
    obtain ⟨c, vs, ks, rfl⟩ := exists_inner y
    obtain ⟨c', ws, ls, rfl⟩ := exists_inner z
    obtain ⟨r1, r2, r3, r4, r5, r6⟩ := (rep_inner _ _ _ _).1 hy
    obtain ⟨s1, s2, s3, s4, s5, s6⟩ := (rep_inner _ _ _ _).1 hz
    have hkids : ∀ x, (x ∈ ks ∨ x ∈ ls) → view t'.h d x.ptr = view t.h d x.ptr := by
      intro x hx
      have hrx : Rep t.h x := hx.elim (r6 x) (s6 x)
      refine view_congr hrx (fun q hq => ?_)
      have hne := kid_ne hry hrz hnd x hx q hq
      simp only [inner_ptr] at mp
      constructor
      · rw [mp.isLeaf]
      · rw [mp.num]; simp [hne]
      · funext j; rw [mp.values]; simp [hne]
      · funext j; rw [mp.children]; simp [hne]
    rw [join_inner] at hj
    simp only [inner_ptr]
    rw [view_inner hy, view_inner hz, view_inner hj, List.map_congr_left (fun x hx => hkids x (List.mem_append.1 hx))]
    rw [List.map_append]
    rfl

end Gds.BPlus
