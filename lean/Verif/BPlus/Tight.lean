import Verif.BPlus.Split
import Verif.BPlus.Spec

/-! Separators of trees built by insertions: each one has the key of the last entry below the child on its left. -/

namespace Gds.BPlus
open BT
variable {K V : Type}

namespace BT
/-- Every separator has the key of the last entry of the child before it. -/
def Tight (cmp : Compare K) : {d : Nat} → BT K V d → Prop
  | 0, _ => True
  | _ + 1, b => (∀ x ∈ (InnerT.kids b).zip (InnerT.vals b), ∃ y, x.1.entries.getLast? = some y ∧ cmp y.1 x.2.1 = 0) ∧
      ∀ k ∈ InnerT.kids b, Tight cmp k

variable {d : Nat}
@[simp] theorem tight_leaf (cmp : Compare K) (p : Nat) (vs : List (K × V)) : (leaf p vs).Tight cmp ↔ True := Iff.rfl
theorem tight_inner (cmp : Compare K) (p : Nat) (vs : List (K × V)) (ks : List (BT K V d)) : (inner p vs ks).Tight cmp ↔
    (∀ x ∈ ks.zip vs, ∃ y, x.1.entries.getLast? = some y ∧ cmp y.1 x.2.1 = 0) ∧ ∀ k ∈ ks, k.Tight cmp := Iff.rfl
end BT

/-- No node below the root is empty, so neither are its leaves. -/
theorem entries_ne_nil_occ {M : Nat} (hM : 2 ≤ M) {h : Heap K V} : ∀ {d} (b : BT K V d), Rep h b → b.KidsOcc M → (d = 0 → b.vals ≠ []) → b.entries ≠ []
  | 0, b, _, _, hv => hv rfl
  | d + 1, b, hr, ho, _ => by
    obtain ⟨p, vs, ks, rfl⟩ := exists_inner b
    obtain ⟨-, -, -, hl, -, hk⟩ := (rep_inner _ _ _ _).1 hr
    cases ks with
    | nil => simp at hl
    | cons k ks =>
      have ho' := (inner_kidsOcc _ _ _ _).1 ho k (by simp)
      have := entries_ne_nil_occ hM k (hk k (by simp)) ho'.2 (fun _ h => by have := ho'.1.1; rw [h] at this; simp at this; omega)
      simp [this]

theorem zip_mid {α β : Type} {A B : List α} {k : α} {va vb : List β} (hA : A.length = va.length) :
    (A ++ k :: B).zip (va ++ vb) = A.zip va ++ (k :: B).zip vb := List.zip_append hA

/-- Splitting a child keeps separators at the ends of their children. -/
theorem Tight.split {cmp : Compare K} (hc : cmp.Lawful) {M n : Nat} (hM : 2 ≤ M) {h : Heap K V} {d p : Nat} {va vb : List (K × V)} {A B : List (BT K V d)}
    {k : BT K V d} (hA : A.length = va.length) (hr : Rep h k) (ho : k.KidsOcc M) (hlen : k.vals.length = 2 * M - 1) (hm : M - 1 < k.vals.length)
    (ht : (inner p (va ++ vb) (A ++ k :: B)).Tight cmp) :
    (inner p (va ++ k.vals[M - 1] :: vb) (A ++ k.splitL M :: k.splitR M n :: B)).Tight cmp := by
  rw [tight_inner] at ht ⊢
  obtain ⟨t1, t2⟩ := ht
  rw [zip_mid hA] at t1 ⊢
  have htk := t2 k (by simp)
  -- the two halves
  have hhalf : ((k.splitL M).Tight cmp ∧ (k.splitR M n).Tight cmp) ∧
      (∃ y, (k.splitL M).entries.getLast? = some y ∧ cmp y.1 (k.vals[M - 1]).1 = 0) ∧ (k.splitR M n).entries ≠ [] := by
    cases d with
    | zero =>
      obtain ⟨c, vs, rfl⟩ := exists_leaf k
      simp only [leaf_vals] at hlen hm
      refine ⟨⟨trivial, trivial⟩, ⟨vs[M - 1], ?_, hc.self _⟩, ?_⟩
      · simp only [splitL_leaf, leaf_entries]
        rw [List.getLast?_eq_getElem?]
        simp only [List.length_take, Nat.min_eq_left (show M ≤ vs.length by omega)]
        rw [List.getElem?_take]
        simp [hm]; omega
      · simp only [splitR_leaf, leaf_entries]
        intro h0
        have := congrArg List.length h0
        simp at this; omega
    | succ d =>
      obtain ⟨c, vs, ks, rfl⟩ := exists_inner k
      obtain ⟨-, -, -, hl, -, hk⟩ := (rep_inner _ _ _ _).1 hr
      obtain ⟨a1, a2⟩ := (tight_inner _ _ _ _).1 htk
      simp only [inner_vals] at hlen hm
      have hocc := (inner_kidsOcc _ _ _ _).1 ho
      refine ⟨⟨(tight_inner _ _ _ _).2 ⟨?_, fun x hx => a2 x (List.mem_of_mem_take hx)⟩,
        (tight_inner _ _ _ _).2 ⟨?_, fun x hx => a2 x (List.mem_of_mem_drop hx)⟩⟩, ?_, ?_⟩
      · intro x hx
        refine a1 x ?_
        obtain ⟨i, hi, rfl⟩ := List.getElem_of_mem hx
        simp at hi
        simp only [List.getElem_zip, List.getElem_take]
        rw [← List.getElem_zip (h := by simp; omega)]
        exact List.getElem_mem _
      · intro x hx
        refine a1 x ?_
        obtain ⟨i, hi, rfl⟩ := List.getElem_of_mem hx
        simp at hi
        simp only [List.getElem_zip, List.getElem_drop]
        rw [← List.getElem_zip (h := by simp; omega)]
        exact List.getElem_mem _
      · obtain ⟨y, y1, y2⟩ := a1 (ks[M - 1], vs[M - 1]) (by
          rw [← List.getElem_zip (h := by simp; omega)]
          exact List.getElem_mem _)
        refine ⟨y, ?_, y2⟩
        simp only [splitL_inner, inner_entries]
        have e : ks.take M = ks.take (M - 1) ++ [ks[M - 1]] := by
          conv => lhs; rw [show M = (M - 1) + 1 by omega]
          rw [List.take_add_one]; simp [show M - 1 < ks.length by omega]
        rw [e, List.flatMap_append, List.getLast?_append]
        simp [y1]
      · simp only [splitR_inner, inner_entries]
        have hM' : M < ks.length := by omega
        rw [List.drop_eq_getElem_cons hM']
        have ho' := hocc ks[M] (List.getElem_mem _)
        have := entries_ne_nil_occ hM ks[M] (hk _ (List.getElem_mem _)) ho'.2 (fun _ h => by have := ho'.1.1; rw [h] at this; simp at this; omega)
        rw [List.flatMap_cons]
        exact fun h0 => this (List.append_eq_nil_iff.1 h0).1
  obtain ⟨⟨hL, hR⟩, ⟨y, y1, y2⟩, hne⟩ := hhalf
  refine ⟨?_, ?_⟩
  · intro x hx
    simp only [List.zip_cons_cons, List.mem_append, List.mem_cons] at hx
    rcases hx with hx | rfl | hx
    · exact t1 x (List.mem_append_left _ hx)
    · exact ⟨y, y1, y2⟩
    · cases vb with
      | nil => simp at hx
      | cons v vb =>
        simp only [List.zip_cons_cons, List.mem_cons] at hx
        rcases hx with rfl | hx
        · obtain ⟨z, z1, z2⟩ := t1 (k, v) (List.mem_append_right _ (by simp))
          refine ⟨z, ?_, z2⟩
          rw [← split_entries M n k, List.getLast?_append_of_ne_nil _ hne] at z1
          exact z1
        · exact t1 x (List.mem_append_right _ (by simp [hx]))
  · intro x hx
    simp only [List.mem_append, List.mem_cons] at hx
    rcases hx with hx | rfl | rfl | hx
    · exact t2 x (by simp [hx])
    · exact hL
    · exact hR
    · exact t2 x (by simp [hx])

/-- Adding an entry not above its separator keeps the separator at the end of the child. -/
theorem tight_replace {cmp : Compare K} (hc : cmp.Lawful) {d p : Nat} {va vb : List (K × V)} {A B : List (BT K V d)} {k k' : BT K V d} {e : K × V}
    (hA : A.length = va.length) (hs : Sorted cmp k'.entries) (ha : Added e k.entries k'.entries) (hf : ∀ v, vb.head? = some v → cmp e.1 v.1 ≤ 0)
    (ht : (inner p (va ++ vb) (A ++ k :: B)).Tight cmp) (hk : k'.Tight cmp) : (inner p (va ++ vb) (A ++ k' :: B)).Tight cmp := by
  rw [tight_inner] at ht ⊢
  obtain ⟨t1, t2⟩ := ht
  rw [zip_mid hA] at t1 ⊢
  refine ⟨?_, ?_⟩
  · intro x hx
    rcases List.mem_append.1 hx with hx | hx
    · exact t1 x (List.mem_append_left _ hx)
    · cases vb with
      | nil => simp at hx
      | cons v vb =>
        simp only [List.zip_cons_cons, List.mem_cons] at hx
        rcases hx with rfl | hx
        · obtain ⟨z, z1, z2⟩ := t1 (k, v) (List.mem_append_right _ (by simp))
          replace z2 : cmp z.1 v.1 = 0 := z2
          obtain ⟨P, S, e1, e2⟩ := ha
          rcases List.eq_nil_or_concat S with rfl | ⟨S', s, rfl⟩
          · refine ⟨e, by simp [e2], ?_⟩
            rw [e1] at z1
            simp only [List.append_nil] at z1
            have h1 : z ∈ P := List.mem_of_mem_getLast? (by simpa using z1)
            rw [e2] at hs
            have h2 := (List.pairwise_append.1 hs).2.2 z h1 e (by simp)
            have h3 := hf v rfl
            have h4 : cmp v.1 z.1 ≤ 0 := by have := hc.flip z.1 v.1; have := hc.flip v.1 z.1; omega
            have h5 := hc.trans _ _ _ h4 h2
            have := hc.flip e.1 v.1
            have := hc.flip v.1 e.1
            simp only
            omega
          · refine ⟨z, ?_, z2⟩
            rw [e1] at z1
            rw [e2, List.getLast?_append_of_ne_nil _ (by simp), List.concat_eq_append, ← List.cons_append,
              List.getLast?_append_of_ne_nil _ (by simp)]
            simpa using z1
        · exact t1 x (List.mem_append_right _ (by simp [hx]))
  · intro x hx
    simp only [List.mem_append, List.mem_cons] at hx
    rcases hx with hx | rfl | hx
    · exact t2 x (by simp [hx])
    · exact hk
    · exact t2 x (by simp [hx])

end Gds.BPlus
