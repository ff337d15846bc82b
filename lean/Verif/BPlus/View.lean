import Verif.BPlus.FSpec
import Verif.BPlus.Ops

/-! What the pure tree of BPlus/FSpec.lean is for a given heap, and what the array operations do to it. -/

namespace Gds.BPlus
open BT Tree
variable {K V : Type} [Inhabited K] [Inhabited V]

/-- The pure tree below address `p`. -/
def view (h : Heap K V) : (d : Nat) → Nat → FT (K × V) d
  | 0, p => (⟨h.values p, h.num p⟩ : FLeaf (K × V))
  | d + 1, p => (((List.range (h.num p)).map (h.values p), (List.range (h.num p + 1)).map (fun i => view h d ((h.children p i).getD 0))) :
      List (K × V) × List (FT (K × V) d))

/-- The pair an inner node is. -/
abbrev FT.node {d : Nat} (vs : List (K × V)) (ks : List (FT (K × V) d)) : FT (K × V) (d + 1) := ((vs, ks) : List (K × V) × List (FT (K × V) d))

omit [Inhabited K] [Inhabited V] in
theorem view_slots {h : Heap K V} {d p : Nat} {vs : List (K × V)} {ps : List Nat} (h1 : h.num p = vs.length) (h2 : Slots (h.values p) vs)
    (h3 : ps.length = vs.length + 1) (h4 : Slots (h.children p) (ps.map some)) : view h (d + 1) p = FT.node vs (ps.map (view h d)) := by
  have e1 : (List.range (h.num p)).map (h.values p) = vs := by rw [h1]; exact h2.map_range
  have e2 : (List.range (h.num p + 1)).map (fun i => view h d ((h.children p i).getD 0)) = ps.map (view h d) := by
    rw [h1, ← h3]
    apply List.ext_getElem
    · simp
    · intro i h5 h6
      simp at h5
      have := h4 i (by simpa using h5)
      simp only [List.getElem_map, List.getElem_range]
      rw [this]
      simp
  show (_, _) = (_, _)
  rw [e1, e2]

omit [Inhabited K] [Inhabited V] in
theorem view_inner {h : Heap K V} {d p : Nat} {vs : List (K × V)} {ks : List (BT K V d)} (hr : Rep h (inner p vs ks)) :
    view h (d + 1) p = FT.node vs (ks.map (fun k => view h d k.ptr)) := by
  obtain ⟨r1, r2, r3, r4, r5, r6⟩ := (rep_inner _ _ _ _).1 hr
  rw [view_slots (ps := ks.map BT.ptr) r2 r3 (by simpa using r4) (by simpa [Function.comp_def] using r5)]
  simp [Function.comp_def]

omit [Inhabited K] [Inhabited V] in
theorem view_congr {h h' : Heap K V} : ∀ {d : Nat} {b : BT K V d}, Rep h b → (∀ q ∈ b.ids, SameAt h h' q) → view h' d b.ptr = view h d b.ptr
  | 0, b, hr, hs => by
    obtain ⟨p, vs, rfl⟩ := exists_leaf b
    have := hs p (by simp)
    show FLeaf.mk _ _ = FLeaf.mk _ _
    rw [leaf_ptr, this.values, this.num]
  | d + 1, b, hr, hs => by
    have hr' := hr.congr hs
    obtain ⟨p, vs, ks, rfl⟩ := exists_inner b
    rw [inner_ptr, view_inner hr, view_inner hr']
    congr 1
    apply List.map_congr_left
    intro k hk
    have r6 := ((rep_inner _ _ _ _).1 hr).2.2.2.2.2
    exact view_congr (r6 k hk) (fun q hq => hs q (by simp only [inner_ids, List.mem_cons, List.mem_flatMap]; exact Or.inr ⟨k, hk, hq⟩))

omit [Inhabited K] [Inhabited V] in
theorem view_num {h : Heap K V} {d : Nat} {b : BT K V d} (hr : Rep h b) : (view h d b.ptr).num = b.vals.length := by
  cases d with
  | zero => exact hr.num_eq
  | succ d =>
    obtain ⟨p, vs, ks, rfl⟩ := exists_inner b
    rw [inner_ptr, view_inner hr]; rfl

omit [Inhabited K] [Inhabited V] in
theorem view_used {h : Heap K V} {p : Nat} {vs : List (K × V)} (hr : Rep h (leaf p vs)) : FT.used (view h 0 p) = vs := by
  obtain ⟨r1, r2, r3, r4⟩ := (rep_leaf _ _ _).1 hr
  show (List.range (h.num p)).map (h.values p) = vs
  rw [r2]; exact r3.map_range

omit [Inhabited K] [Inhabited V] in
theorem view_entries {h : Heap K V} : ∀ {d : Nat} {b : BT K V d}, Rep h b → (view h d b.ptr).entries = b.entries
  | 0, b, hr => by
    obtain ⟨p, vs, rfl⟩ := exists_leaf b
    exact view_used hr
  | d + 1, b, hr => by
    obtain ⟨p, vs, ks, rfl⟩ := exists_inner b
    rw [inner_ptr, view_inner hr]
    show (ks.map (fun k => view h d k.ptr)).flatMap FT.entries = ks.flatMap entries
    rw [List.flatMap_map]
    have r6 := ((rep_inner _ _ _ _).1 hr).2.2.2.2.2
    exact List.flatMap_congr (fun k hk => view_entries (r6 k hk))

/-- One child has changed. -/
theorem view_replace {h h' : Heap K V} {d p : Nat} {vs : List (K × V)} {A B : List (BT K V d)} {k k' : BT K V d}
    (hr : Rep h (inner p vs (A ++ k :: B))) (hnd : (inner p vs (A ++ k :: B)).ids.Nodup) (hk : Rep h' k') (hp : k'.ptr = k.ptr)
    (hs : ∀ q ∈ (inner p vs (A ++ k :: B)).ids, q ∉ k.ids → SameAt h h' q) :
    view h' (d + 1) p = FT.node vs (A.map (fun k => view h d k.ptr) ++ view h' d k.ptr :: B.map (fun k => view h d k.ptr)) := by
  simp only [inner_ids, List.nodup_cons, List.flatMap_append, List.flatMap_cons, List.mem_append, not_or, List.nodup_append, List.mem_cons] at hnd hs
  obtain ⟨⟨n1, n2, n3⟩, n4, ⟨n5, n6, n7⟩, n8⟩ := hnd
  have r6 := ((rep_inner _ _ _ _).1 hr).2.2.2.2.2
  have hoth : ∀ x, (x ∈ A ∨ x ∈ B) → ∀ q ∈ x.ids, SameAt h h' q := by
    intro x hx q hq
    rcases hx with hx | hx
    · have hm := List.mem_flatMap.2 ⟨x, hx, hq⟩
      exact hs q (Or.inr (Or.inl hm)) (fun e => n8 q hm q (Or.inl e) rfl)
    · have hm := List.mem_flatMap.2 ⟨x, hx, hq⟩
      exact hs q (Or.inr (Or.inr (Or.inr hm))) (fun e => n7 q e q hm rfl)
  have hr' := rep_replace hr hk hp (hs p (Or.inl rfl) n2) hoth
  rw [view_inner hr']
  congr 1
  rw [List.map_append, List.map_cons, hp]
  congr 1
  · exact List.map_congr_left (fun x hx => view_congr (r6 x (by simp [hx])) (hoth x (Or.inl hx)))
  · congr 1
    exact List.map_congr_left (fun x hx => view_congr (r6 x (by simp [hx])) (hoth x (Or.inr hx)))

/-! ### Where the loops stop -/

omit [Inhabited K] [Inhabited V] in
theorem behind_eq {cmp : Compare K} {key : K} {f : Nat → K × V} {xs : List (K × V)} {pos : Nat} (hf : Slots f xs) (h1 : pos ≤ xs.length)
    (h2 : ∀ j, pos ≤ j → j < xs.length → cmp key (f j).1 < 0) (h3 : 0 < pos → ¬ cmp key (f (pos - 1)).1 < 0) : FT.behind cmp key xs = pos := by
  obtain ⟨A, B, hA, rfl⟩ : ∃ A B, A.length = pos ∧ xs = A ++ B := ⟨xs.take pos, xs.drop pos, by simp; omega, by simp⟩
  have hB : ∀ x ∈ B.reverse, decide (cmp key x.1 < 0) = true := by
    intro x hx
    rw [List.mem_reverse] at hx
    obtain ⟨i, hi, rfl⟩ := List.getElem_of_mem hx
    have := h2 (i + A.length) (by omega) (by simp; omega)
    have e := hf.right i hi
    simp only at e
    rw [e] at this
    simpa using this
  unfold FT.behind
  rw [List.reverse_append, List.dropWhile_append_of_pos hB]
  rcases List.eq_nil_or_concat A with rfl | ⟨A, a, rfl⟩
  · simpa using hA
  · simp only [List.concat_eq_append, List.length_append, List.length_singleton] at *
    have h4 := h3 (by omega)
    have e : f (pos - 1) = a := by
      rw [show pos - 1 = A.length by omega]
      have : Slots f (A ++ a :: B) := by simpa using hf
      exact this.at
    rw [e] at h4
    simp [List.dropWhile_cons, h4, hA]

omit [Inhabited K] [Inhabited V] in
theorem before_eq {cmp : Compare K} {key : K} {f : Nat → K × V} {xs : List (K × V)} {pos : Nat} (hf : Slots f xs) (h1 : pos ≤ xs.length)
    (h2 : ∀ j, j < pos → cmp (f j).1 key < 0) (h3 : pos < xs.length → ¬ cmp (f pos).1 key < 0) : FT.before cmp key xs = pos := by
  obtain ⟨A, B, hA, rfl⟩ : ∃ A B, A.length = pos ∧ xs = A ++ B := ⟨xs.take pos, xs.drop pos, by simp; omega, by simp⟩
  have hA' : ∀ x ∈ A, decide (cmp x.1 key < 0) = true := by
    intro x hx
    obtain ⟨i, hi, rfl⟩ := List.getElem_of_mem hx
    have := h2 i (by omega)
    rw [hf.left i hi] at this
    simpa using this
  unfold FT.before
  rw [List.takeWhile_append_of_pos hA']
  cases B with
  | nil => simpa using hA
  | cons b B =>
    have h4 := h3 (by simp; omega)
    rw [← hA, hf.at] at h4
    simp [List.takeWhile_cons, h4, hA]

theorem bsearch_bisect (cmp : Compare K) (t : Tree K V) (q : Nat) (key : K) (f : Nat → K × V) (n : Nat) (hn : n ≤ 2 * t.degree - 1)
    (hf : ∀ j, j < n → f j = t.h.values q j) : ∀ (m l hi mid : Nat), hi - l ≤ m → hi ≤ n →
    ∃ mid', bsearch cmp t (some q) key l hi mid = .ok ((FT.bisect cmp key f l hi).1, mid', (FT.bisect cmp key f l hi).2.isSome) ∧
      ∀ i, (FT.bisect cmp key f l hi).2 = some i → mid' = i ∧ i < hi := by
  intro m
  induction m with
  | zero =>
    intro l hi mid hm hh
    have : ¬ l < hi := by omega
    refine ⟨mid, ?_, ?_⟩
    · rw [bsearch, FT.bisect, if_neg this, if_neg this]; rfl
    · intro i
      rw [FT.bisect, if_neg this]; simp
  | succ m ih =>
    intro l hi mid hm hh
    by_cases hlt : l < hi
    · rw [bsearch, FT.bisect, if_pos hlt, if_pos hlt]
      generalize hmd : (l + (hi - 1)) / 2 = md
      have hmd1 : l ≤ md := by omega
      have hmd2 : md < hi := by omega
      have hb : md < 2 * t.degree - 1 := by omega
      simp only [getVal, hb, if_true, Res.bind_ok, hf md (by omega)]
      by_cases hc1 : cmp key (t.h.values q md).1 < 0
      · simp only [hc1, if_true]
        obtain ⟨mid', h1, h2⟩ := ih l md md (by omega) (by omega)
        exact ⟨mid', h1, fun i h => ⟨(h2 i h).1, by have := (h2 i h).2; omega⟩⟩
      · simp only [hc1, if_false]
        by_cases hc2 : 0 < cmp key (t.h.values q md).1
        · simp only [hc2, if_true]
          exact ih (md + 1) hi md (by omega) hh
        · simp only [hc2, if_false]
          exact ⟨md, rfl, fun i h => by simp at h; omega⟩
    · refine ⟨mid, ?_, ?_⟩
      · rw [bsearch, FT.bisect, if_neg hlt, if_neg hlt]; rfl
      · intro i
        rw [FT.bisect, if_neg hlt]; simp

/-! ### List accesses -/

section lists
variable {α β : Type}
theorem getD_mid (A : List α) (x : α) (B : List α) (z : α) : (A ++ x :: B).getD A.length z = x := by simp
theorem take_mid (A B : List α) : (A ++ B).take A.length = A := by simp
theorem drop_mid (A : List α) (x : α) (B : List α) : (A ++ x :: B).drop (A.length + 1) = B := by
  rw [show A.length + 1 = (A ++ [x]).length by simp, show A ++ x :: B = (A ++ [x]) ++ B by simp]; exact List.drop_left
theorem drop_mid2 (A : List α) (x y : α) (B : List α) : (A ++ x :: y :: B).drop (A.length + 2) = B := by
  rw [show A.length + 2 = (A ++ [x, y]).length by simp, show A ++ x :: y :: B = (A ++ [x, y]) ++ B by simp]; exact List.drop_left
theorem getD_mid1 (A : List α) (x y : α) (B : List α) (z : α) : (A ++ x :: y :: B).getD (A.length + 1) z = y := by simp
end lists

/-! ### Splitting -/

theorem view_split {t t' : Tree K V} {d : Nat} {k : BT K V d} {p pos : Nat} (sp : SplitPost t t' p k.ptr pos) (hk : Rep t.h k)
    (hM : 1 ≤ t.degree) (hlen : k.vals.length = 2 * t.degree - 1) (hm : t.degree - 1 < k.vals.length) (hp : p ∉ k.ids) (hpf : p < t.fresh)
    (hnd : k.ids.Nodup) (hlt : ∀ q ∈ k.ids, q < t.fresh) :
    FT.split t.degree (view t.h d k.ptr) = (view t'.h d k.ptr, k.vals[t.degree - 1], view t'.h d t.fresh) := by
  obtain ⟨hL, hR⟩ := split_rep sp hk hM hlen hp hpf hnd hlt
  have hkp : k.ptr ≠ p := fun e => hp (e ▸ ptr_mem_ids k)
  have hkf : k.ptr ≠ t.fresh := fun e => by have := hlt _ (ptr_mem_ids k); omega
  have hpf' : p ≠ t.fresh := by omega
  cases d with
  | zero =>
    obtain ⟨c, vs, rfl⟩ := exists_leaf k
    have hlf := hk.isLeaf_eq
    have hs := hk.slots (t.degree - 1) hm
    simp only [leaf_ptr, leaf_vals] at *
    have e1 : t'.h.values c = t.h.values c := by funext j; rw [sp.values]; simp [hkp, hkf]
    have e2 : t'.h.num c = t.degree := by rw [sp.num]; simp [hkp, hlf]
    have e3 : t'.h.values t.fresh = fun j => if j < t.degree - 1 then t.h.values c (j + t.degree) else default := by
      funext j; rw [sp.values]; simp [Ne.symm hpf']
    have e4 : t'.h.num t.fresh = t.degree - 1 := by rw [sp.num]; simp [Ne.symm hpf', Ne.symm hkf]
    show ((FLeaf.mk _ _, _, FLeaf.mk _ _) : FLeaf (K × V) × (K × V) × FLeaf (K × V)) = (FLeaf.mk _ _, _, FLeaf.mk _ _)
    rw [e1, e2, e3, e4, ← hs]
    rfl
  | succ d =>
    obtain ⟨c, vs, ks, rfl⟩ := exists_inner k
    have hm' : t.degree - 1 < vs.length := hm
    change _ = (_, vs[t.degree - 1]'hm', _)
    clear hm
    have r6 := ((rep_inner _ _ _ _).1 hk).2.2.2.2.2
    simp only [inner_ptr, inner_vals, splitL_inner, splitR_inner] at *
    have hv : ∀ x ∈ ks, view t'.h d x.ptr = view t.h d x.ptr := by
      intro x hx
      refine view_congr (r6 x hx) (fun q hq => ?_)
      have hqk : q ∈ (inner c vs ks).ids := by
        simp only [inner_ids, List.mem_cons, List.mem_flatMap]; exact Or.inr ⟨x, hx, hq⟩
      have h1 : q ≠ p := fun e => hp (e ▸ hqk)
      have h2 : q ≠ c := by
        intro e; subst e
        simp only [inner_ids, List.nodup_cons, List.mem_flatMap] at hnd
        exact hnd.1 ⟨x, hx, hq⟩
      have h3 : q ≠ t.fresh := fun e => by have := hlt q hqk; omega
      constructor
      · rw [sp.isLeaf]; simp [h3]
      · rw [sp.num]; simp [h1, h2, h3]
      · funext j; rw [sp.values]; simp [h1, h3]
      · funext j; rw [sp.children]; simp [h1, h3]
    rw [view_inner hk, view_inner hL, view_inner hR]
    show (((_, _), _, (_, _)) : (List (K × V) × List (FT (K × V) d)) × (K × V) × (List (K × V) × List (FT (K × V) d))) = ((_, _), _, (_, _))
    rw [← List.map_take, ← List.map_drop, List.map_congr_left (fun x hx => hv x (List.mem_of_mem_take hx)), List.map_congr_left (fun x hx => hv x (List.mem_of_mem_drop hx))]
    have : vs.getD (t.degree - 1) default = vs[t.degree - 1]'hm' := by
      rw [List.getD_eq_getElem?_getD, List.getElem?_eq_getElem hm']; rfl
    rw [this]

end Gds.BPlus
