import Verif.BPlus.Abs

/-! `splitChild` on abstract trees. -/

namespace Gds.BPlus
open BT
variable {K V : Type}

/-- Ascending by key (equal keys allowed). -/
def Sorted (cmp : Compare K) (l : List (K × V)) : Prop := l.Pairwise (fun a b => cmp a.1 b.1 ≤ 0)

namespace BT
/-- The left half of a full node. -/
def splitL (M : Nat) : {d : Nat} → BT K V d → BT K V d
  | 0, b => leaf (LeafT.ptr b) ((LeafT.vals b).take M)
  | _ + 1, b => inner (InnerT.ptr b) ((InnerT.vals b).take (M - 1)) ((InnerT.kids b).take M)

/-- The right half, at address `n`. -/
def splitR (M n : Nat) : {d : Nat} → BT K V d → BT K V d
  | 0, b => leaf n ((LeafT.vals b).drop M)
  | _ + 1, b => inner n ((InnerT.vals b).drop M) ((InnerT.kids b).drop M)

variable {d : Nat}
@[simp] theorem splitL_leaf (M p : Nat) (vs : List (K × V)) : (leaf p vs).splitL M = leaf p (vs.take M) := rfl
@[simp] theorem splitR_leaf (M n p : Nat) (vs : List (K × V)) : (leaf p vs).splitR M n = leaf n (vs.drop M) := rfl
@[simp] theorem splitL_inner (M p : Nat) (vs : List (K × V)) (ks : List (BT K V d)) :
    (inner p vs ks).splitL M = inner p (vs.take (M - 1)) (ks.take M) := rfl
@[simp] theorem splitR_inner (M n p : Nat) (vs : List (K × V)) (ks : List (BT K V d)) :
    (inner p vs ks).splitR M n = inner n (vs.drop M) (ks.drop M) := rfl

theorem splitL_ptr (M : Nat) : ∀ {d} (b : BT K V d), (b.splitL M).ptr = b.ptr
  | 0, _ => rfl
  | _ + 1, _ => rfl
theorem splitR_ptr (M n : Nat) : ∀ {d} (b : BT K V d), (b.splitR M n).ptr = n
  | 0, _ => rfl
  | _ + 1, _ => rfl
theorem split_entries (M n : Nat) : ∀ {d} (b : BT K V d), (b.splitL M).entries ++ (b.splitR M n).entries = b.entries
  | 0, b => List.take_append_drop M (LeafT.vals b)
  | _ + 1, b => by
    obtain ⟨p, vs, ks, rfl⟩ := exists_inner b
    simp only [splitL_inner, splitR_inner, inner_entries, ← List.flatMap_append, List.take_append_drop]

theorem split_ids (M n : Nat) : ∀ {d} (b : BT K V d), ((b.splitL M).ids ++ (b.splitR M n).ids).Perm (n :: b.ids)
  | 0, b => by
    obtain ⟨p, vs, rfl⟩ := exists_leaf b
    exact List.Perm.swap _ _ _
  | _ + 1, b => by
    obtain ⟨p, vs, ks, rfl⟩ := exists_inner b
    simp only [splitL_inner, splitR_inner, inner_ids]
    refine List.perm_middle.trans ?_
    simp only [List.cons_append, ← List.flatMap_append, List.take_append_drop]
    exact List.Perm.refl _

theorem splitL_ids (M : Nat) {d} (b : BT K V d) : ∀ q ∈ (b.splitL M).ids, q ∈ b.ids := by
  cases d with
  | zero =>
    obtain ⟨p, vs, rfl⟩ := exists_leaf b
    simp
  | succ d =>
    obtain ⟨p, vs, ks, rfl⟩ := exists_inner b
    intro q hq
    simp only [splitL_inner, inner_ids, List.mem_cons, List.mem_flatMap] at hq ⊢
    rcases hq with hq | ⟨k, hk, hq⟩
    · exact Or.inl hq
    · exact Or.inr ⟨k, List.mem_of_mem_take hk, hq⟩

theorem split_leaves_inner (M n : Nat) {d} (b : BT K V (d + 1)) : (b.splitL M).leaves ++ (b.splitR M n).leaves = b.leaves := by
  obtain ⟨p, vs, ks, rfl⟩ := exists_inner b
  simp only [splitL_inner, splitR_inner, inner_leaves, ← List.flatMap_append, List.take_append_drop]

theorem splitL_length {M : Nat} (hM : 1 ≤ M) {d} (b : BT K V d) (h : b.vals.length = 2 * M - 1) :
    (b.splitL M).vals.length = if d = 0 then M else M - 1 := by
  cases d with
  | zero =>
    obtain ⟨p, vs, rfl⟩ := exists_leaf b
    simp at h ⊢; omega
  | succ d =>
    obtain ⟨p, vs, ks, rfl⟩ := exists_inner b
    simp at h ⊢; omega

theorem splitR_length {M n : Nat} {d} (b : BT K V d) (h : b.vals.length = 2 * M - 1) :
    (b.splitR M n).vals.length = M - 1 := by
  cases d with
  | zero =>
    obtain ⟨p, vs, rfl⟩ := exists_leaf b
    simp at h ⊢; omega
  | succ d =>
    obtain ⟨p, vs, ks, rfl⟩ := exists_inner b
    simp at h ⊢; omega

theorem splitL_kidsOcc {M : Nat} {d} {b : BT K V d} (h : b.KidsOcc M) : (b.splitL M).KidsOcc M := by
  cases d with
  | zero => trivial
  | succ d =>
    obtain ⟨p, vs, ks, rfl⟩ := exists_inner b
    simp only [splitL_inner, inner_kidsOcc] at h ⊢
    exact fun k hk => h k (List.mem_of_mem_take hk)

theorem splitR_kidsOcc {M n : Nat} {d} {b : BT K V d} (h : b.KidsOcc M) : (b.splitR M n).KidsOcc M := by
  cases d with
  | zero => trivial
  | succ d =>
    obtain ⟨p, vs, ks, rfl⟩ := exists_inner b
    simp only [splitR_inner, inner_kidsOcc] at h ⊢
    exact fun k hk => h k (List.mem_of_mem_drop hk)

/-- The separator that moves up stands between the halves. -/
theorem split_inter {cmp : Compare K} (hc : cmp.Lawful) {M n : Nat} (hM : 1 ≤ M) {d} (b : BT K V d) {h : Heap K V} (hr : Rep h b)
    (hlen : b.vals.length = 2 * M - 1) (hm : M - 1 < b.vals.length) (P S : List (K × V)) (hs : Sorted cmp (P ++ b.inter ++ S)) :
    Sorted cmp (P ++ ((b.splitL M).inter ++ b.vals[M - 1] :: (b.splitR M n).inter) ++ S) := by
  cases d with
  | zero =>
    obtain ⟨p, vs, rfl⟩ := exists_leaf b
    simp only [leaf_vals, leaf_inter, splitL_leaf, splitR_leaf] at *
    replace hm : M - 1 < vs.length := hm
    have e : vs = vs.take (M - 1) ++ vs[M - 1] :: vs.drop M := by
      have := List.take_append_drop (M - 1) vs
      rw [List.drop_eq_getElem_cons hm, show M - 1 + 1 = M by omega] at this
      exact this.symm
    have e2 : vs.take M = vs.take (M - 1) ++ [vs[M - 1]] := by
      conv => lhs; rw [show M = (M - 1) + 1 by omega]
      rw [List.take_add_one]; simp [hm]
    rw [e2]
    generalize vs[M - 1] = m at *
    generalize vs.take (M - 1) = X at *
    generalize vs.drop M = Y at *
    subst e
    have := hc.self m.1
    unfold Sorted at *
    simp only [List.pairwise_append, List.pairwise_cons, List.append_assoc, List.mem_append, List.mem_cons, List.cons_append, List.nil_append,
      List.mem_nil_iff, or_false] at hs ⊢
    grind
  | succ d =>
    obtain ⟨p, vs, ks, rfl⟩ := exists_inner b
    simp only [inner_vals, splitL_inner, splitR_inner] at *
    replace hm : M - 1 < vs.length := hm
    obtain ⟨-, -, -, hkl, -, -⟩ := (rep_inner _ _ _ _).1 hr
    have e : vs = vs.take (M - 1) ++ vs[M - 1] :: vs.drop M := by
      have := List.take_append_drop (M - 1) vs
      rw [List.drop_eq_getElem_cons hm, show M - 1 + 1 = M by omega] at this
      exact this.symm
    have hkM : M < ks.length := by omega
    have hk1 : M - 1 < ks.length := by omega
    have e2 : ks = ks.take (M - 1) ++ ks[M - 1] :: ks[M] :: ks.drop (M + 1) := by
      have := List.take_append_drop (M - 1) ks
      rw [List.drop_eq_getElem_cons hk1] at this
      simp only [show M - 1 + 1 = M by omega] at this
      rw [List.drop_eq_getElem_cons hkM] at this
      exact this.symm
    have e3 : ks.take M = ks.take (M - 1) ++ [ks[M - 1]] := by
      conv => lhs; rw [show M = (M - 1) + 1 by omega]
      rw [List.take_add_one]; simp [hk1]
    have e4 : ks.drop M = ks[M] :: ks.drop (M + 1) := List.drop_eq_getElem_cons hkM
    have i1 := inner_inter p (vs.take (M - 1)) (vs[M - 1] :: vs.drop M) (ks.take (M - 1)) ks[M - 1] (ks[M] :: ks.drop (M + 1)) (by simp; omega)
    rw [← e, ← e2] at i1
    have i2 := inner_inter p (vs.take (M - 1)) [] (ks.take (M - 1)) ks[M - 1] [] (by simp; omega)
    rw [List.append_nil, ← e3] at i2
    have i3 := inner_inter n [] (vs.drop M) [] ks[M] (ks.drop (M + 1)) rfl
    rw [List.nil_append, List.nil_append, ← e4] at i3
    rw [i1] at hs
    rw [i2, i3]
    rw [List.zip_cons_cons] at hs
    simpa using hs

end BT

variable [Inhabited K] [Inhabited V]

theorem split_rep {t t' : Tree K V} {d : Nat} {k : BT K V d} {p pos : Nat} (sp : SplitPost t t' p k.ptr pos) (hk : Rep t.h k)
    (hM : 1 ≤ t.degree) (hlen : k.vals.length = 2 * t.degree - 1) (hp : p ∉ k.ids) (hpf : p < t.fresh) (hnd : k.ids.Nodup) (hlt : ∀ q ∈ k.ids, q < t.fresh) :
    Rep t'.h (k.splitL t.degree) ∧ Rep t'.h (k.splitR t.degree t.fresh) := by
  have hkp : k.ptr ≠ p := fun e => hp (e ▸ ptr_mem_ids k)
  have hkf : k.ptr ≠ t.fresh := fun e => by have := hlt _ (ptr_mem_ids k); omega
  have hpf' : p ≠ t.fresh := by omega
  have hn1 := sp.num k.ptr
  have hn2 := sp.num t.fresh
  have hl1 := sp.isLeaf k.ptr
  have hl2 := sp.isLeaf t.fresh
  have hv1 := sp.values k.ptr
  have hv2 := sp.values t.fresh
  have hc1 := sp.children k.ptr
  have hc2 := sp.children t.fresh
  simp only [hkp, hkf, hpf', Ne.symm hpf', Ne.symm hkf, if_false, if_true, hk.isLeaf_eq] at hn1 hn2 hl1 hl2 hv1 hv2 hc1 hc2
  cases d with
  | zero =>
    obtain ⟨c, vs, rfl⟩ := exists_leaf k
    obtain ⟨r1, r2, r3, r4⟩ := (rep_leaf _ _ _).1 hk
    simp only [leaf_ptr, leaf_vals, beq_self_eq_true, if_true] at *
    rw [splitL_leaf, splitR_leaf]
    constructor
    · refine (rep_leaf _ _ _).2 ⟨hl1, by rw [hn1]; simp; omega, (r3.take _).of_eq (fun j _ => hv1 j), fun j => (hc1 j).trans (r4 j)⟩
    · refine (rep_leaf _ _ _).2 ⟨hl2, by rw [hn2]; simp; omega, (r3.drop _).of_eq (fun j hj => ?_), fun j => by rw [hc2]; simp⟩
      simp at hj
      rw [hv2, if_pos (by omega)]
  | succ d =>
    obtain ⟨c, vs, ks, rfl⟩ := exists_inner k
    obtain ⟨r1, r2, r3, r4, r5, r6⟩ := (rep_inner _ _ _ _).1 hk
    simp only [inner_ptr, inner_vals, Nat.add_eq_zero_iff, Nat.succ_ne_self, and_false, beq_iff_eq, if_false, Nat.reduceEqDiff, Nat.reduceBEq] at *
    have hkids : ∀ x ∈ ks, Rep t'.h x := by
      intro x hx
      refine Rep.congr ?_ (r6 x hx)
      intro q hq
      have hqk : q ∈ (inner c vs ks).ids := by
        simp only [inner_ids, List.mem_cons, List.mem_flatMap]; exact Or.inr ⟨x, hx, hq⟩
      have h1 : q ≠ p := fun e => hp (e ▸ hqk)
      have h2 : q ≠ c := by
        intro e; subst e
        simp only [inner_ids, List.nodup_cons, List.mem_flatMap] at hnd
        exact hnd.1 ⟨x, hx, hq⟩
      have h3 : q ≠ t.fresh := fun e => by have := hlt q hqk; omega
      constructor
      · rw [sp.isLeaf]; simp [h3]
      · rw [sp.num]; simp [h1, h2, h3]
      · funext j; rw [sp.values]; simp [h1, h3]
      · funext j; rw [sp.children]; simp [h1, h3]
    rw [splitL_inner, splitR_inner]
    constructor
    · refine (rep_inner _ _ _ _).2 ⟨by simpa using hl1, by rw [hn1]; simp; omega, (r3.take _).of_eq (fun j _ => hv1 j), by simp; omega, ?_,
        fun x hx => hkids x (List.mem_of_mem_take hx)⟩
      rw [List.map_take]
      exact (r5.take _).of_eq (fun j _ => hc1 j)
    · refine (rep_inner _ _ _ _).2 ⟨by simpa using hl2, by rw [hn2]; simp; omega, (r3.drop _).of_eq (fun j hj => ?_), by simp; omega, ?_,
        fun x hx => hkids x (List.mem_of_mem_drop hx)⟩
      · simp at hj
        rw [hv2, if_pos (by omega)]
      · rw [List.map_drop]
        refine (r5.drop _).of_eq (fun j hj => ?_)
        simp at hj
        rw [hc2, if_pos ⟨by simp, by omega⟩]

/-- The parent after the split. -/
theorem split_parent_rep {t t' : Tree K V} {d : Nat} {k : BT K V d} {p : Nat} {va vb : List (K × V)} {A B : List (BT K V d)}
    (sp : SplitPost t t' p k.ptr A.length) (hr : Rep t.h (inner p (va ++ vb) (A ++ k :: B))) (hA : A.length = va.length)
    (hM : 1 ≤ t.degree) (hlen : k.vals.length = 2 * t.degree - 1) (hm : t.degree - 1 < k.vals.length)
    (hnd : (inner p (va ++ vb) (A ++ k :: B)).ids.Nodup) (hlt : ∀ q ∈ (inner p (va ++ vb) (A ++ k :: B)).ids, q < t.fresh) :
    Rep t'.h (inner p (va ++ k.vals[t.degree - 1] :: vb) (A ++ k.splitL t.degree :: k.splitR t.degree t.fresh :: B)) := by
  obtain ⟨r1, r2, r3, r4, r5, r6⟩ := (rep_inner _ _ _ _).1 hr
  have hk : Rep t.h k := r6 k (by simp)
  have hpf : p < t.fresh := hlt p (by simp)
  have hkin : ∀ q ∈ k.ids, q ∈ (A ++ k :: B).flatMap ids := fun q hq => List.mem_flatMap.2 ⟨k, by simp, hq⟩
  simp only [inner_ids, List.nodup_cons] at hnd
  have hpk : p ∉ k.ids := fun h => hnd.1 (hkin p h)
  have hkp : k.ptr ≠ p := fun e => hpk (e ▸ ptr_mem_ids k)
  have hkl : ∀ q ∈ k.ids, q < t.fresh := fun q hq => hlt q (by simp only [inner_ids, List.mem_cons]; exact Or.inr (hkin q hq))
  have hnd2 := hnd.2
  simp only [List.flatMap_append, List.flatMap_cons, List.nodup_append] at hnd2
  obtain ⟨hL, hR⟩ := split_rep sp hk hM hlen hpk hpf (by grind) hkl
  have hpf' : p ≠ t.fresh := by omega
  have hother : ∀ x, (x ∈ A ∨ x ∈ B) → Rep t'.h x := by
    intro x hx
    have hx' : x ∈ A ++ k :: B := by simp; tauto
    refine Rep.congr ?_ (r6 x hx')
    intro q hq
    have hqin : q ∈ (A ++ k :: B).flatMap ids := List.mem_flatMap.2 ⟨x, hx', hq⟩
    have h1 : q ≠ p := fun e => hnd.1 (e ▸ hqin)
    have h2 : q ≠ k.ptr := by
      intro e; subst e
      have hkk := ptr_mem_ids k
      rcases hx with hx | hx
      · exact hnd2.2.2 _ (List.mem_flatMap.2 ⟨x, hx, hq⟩) _ (by simp [hkk]) rfl
      · exact hnd2.2.1.2.2 _ hkk _ (List.mem_flatMap.2 ⟨x, hx, hq⟩) rfl
    have h3 : q ≠ t.fresh := fun e => by
      have := hlt q (by simp only [inner_ids, List.mem_cons]; exact Or.inr hqin); omega
    constructor
    · rw [sp.isLeaf]; simp [h3]
    · rw [sp.num]; simp [h1, h2, h3]
    · funext j; rw [sp.values]; simp [h1, h3]
    · funext j; rw [sp.children]; simp [h1, h3]
  refine (rep_inner _ _ _ _).2 ⟨?_, ?_, ?_, ?_, ?_, ?_⟩
  · rw [sp.isLeaf, if_neg hpf']; exact r1
  · rw [sp.num, if_pos rfl, r2]; simp; omega
  · refine r3.insert (fun j hj => ?_)
    have hkv := hk.slots (t.degree - 1) hm
    rw [sp.values, if_pos rfl, r2, hkv, hA]
    have : j ≤ (va ++ vb).length := by simpa using hj
    simp only [this, if_true]
  · simp at r4 ⊢; omega
  · simp only [List.map_append, List.map_cons, splitL_ptr, splitR_ptr]
    have e : ∀ (Z : List (BT K V d)) (z : Option Nat), (A.map (fun k => some k.ptr)) ++ some k.ptr :: z :: Z.map (fun k => some k.ptr)
        = (A.map (fun k => some k.ptr) ++ [some k.ptr]) ++ z :: Z.map (fun k => some k.ptr) := by simp
    rw [e]
    refine Slots.insert (f := t.h.children p) (by simpa using r5) (fun j hj => ?_)
    rw [sp.children, if_pos rfl, r2]
    have h1 : j ≤ va.length + vb.length + 1 := by simp at hj r4 ⊢; omega
    have h2 : j ≤ A.length ↔ j < A.length + 1 := by omega
    simp only [h1, h2, if_true, List.length_append, List.length_map, List.length_cons, List.length_nil, Nat.zero_add]
  · intro x hx
    simp only [List.mem_append, List.mem_cons] at hx
    rcases hx with hx | rfl | rfl | hx
    · exact hother x (Or.inl hx)
    · exact hL
    · exact hR
    · exact hother x (Or.inr hx)

end Gds.BPlus
