import Verif.BPlus.View
import Verif.BPlus.Root

/-! Insertion on a heap is `FT.insert` on the pure tree. -/

namespace Gds.BPlus
open BT Tree
variable {K V : Type} [Inhabited K] [Inhabited V]

theorem SplitPost.same {t t' : Tree K V} {p c pos q : Nat} (sp : SplitPost t t' p c pos) (h1 : q ≠ p) (h2 : q ≠ c) (h3 : q ≠ t.fresh) :
    SameAt t.h t'.h q := by
  constructor
  · rw [sp.isLeaf]; simp [h3]
  · rw [sp.num]; simp [h1, h2, h3]
  · funext j; rw [sp.values]; simp [h1, h3]
  · funext j; rw [sp.children]; simp [h1, h3]

/-- The children that were not split. -/
theorem SplitPost.others {d : Nat} {t t1 : Tree K V} {p : Nat} {va vb : List (K × V)} {A B : List (BT K V d)} {k : BT K V d} {X Y : List Nat}
    (pre : Pre t (inner p (va ++ vb) (A ++ k :: B)) X Y) {pos : Nat} (sp : SplitPost t t1 p k.ptr pos) :
    (∀ x ∈ A, view t1.h d x.ptr = view t.h d x.ptr) ∧ (∀ x ∈ B, view t1.h d x.ptr = view t.h d x.ptr) := by
  have r6 := ((rep_inner _ _ _ _).1 pre.rep).2.2.2.2.2
  have hnd := pre.nodup
  have hlt := pre.lt
  simp only [inner_ids, List.nodup_cons, List.flatMap_append, List.flatMap_cons, List.mem_append, not_or, List.nodup_append, List.mem_cons] at hnd hlt
  obtain ⟨⟨n1, n2, n3⟩, n4, ⟨n5, n6, n7⟩, n8⟩ := hnd
  constructor <;> intro x hx <;> refine view_congr (r6 x (by simp [hx])) (fun q hq => ?_)
  · have hm := List.mem_flatMap.2 ⟨x, hx, hq⟩
    have := hlt q (Or.inr (Or.inl hm))
    exact sp.same (fun e => n1 (e ▸ hm)) (fun e => n8 q hm q (Or.inl (e ▸ ptr_mem_ids k)) rfl) (by omega)
  · have hm := List.mem_flatMap.2 ⟨x, hx, hq⟩
    have := hlt q (Or.inr (Or.inr (Or.inr hm)))
    exact sp.same (fun e => n3 (e ▸ hm)) (fun e => n7 q (e ▸ ptr_mem_ids k) q hm rfl) (by omega)

theorem InsPost.view_node {d : Nat} {cmp : Compare K} {e : K × V} {t t' : Tree K V} {p : Nat} {vs : List (K × V)} {A B : List (BT K V d)}
    {k k' : BT K V d} {X Y X' Y' : List Nat} (pre : Pre t (inner p vs (A ++ k :: B)) X Y) (post : InsPost cmp e t t' k k' X' Y') :
    view t'.h (d + 1) p = FT.node vs (A.map (fun k => view t.h d k.ptr) ++ view t'.h d k.ptr :: B.map (fun k => view t.h d k.ptr)) :=
  view_replace pre.rep pre.nodup post.rep post.ptr (fun q hq hk => post.same q (pre.lt q hq) hk)

theorem FT.insertBelow_node {d : Nat} (cmp : Compare K) (M : Nat) (e : K × V) (va vb : List (K × V)) (A B : List (FT (K × V) d)) (k : FT (K × V) d)
    (hA : A.length = va.length) (hb : FT.behind cmp e.1 (va ++ vb) = va.length) :
    FT.insertBelow cmp M e (d + 1) (FT.node (va ++ vb) (A ++ k :: B)) =
      if k.num = 2 * M - 1 then
        if cmp (FT.split M k).2.1.1 e.1 < 0 then
          FT.node (va ++ (FT.split M k).2.1 :: vb) (A ++ (FT.split M k).1 :: FT.insertBelow cmp M e d (FT.split M k).2.2 :: B)
        else FT.node (va ++ (FT.split M k).2.1 :: vb) (A ++ FT.insertBelow cmp M e d (FT.split M k).1 :: (FT.split M k).2.2 :: B)
      else FT.node (va ++ vb) (A ++ FT.insertBelow cmp M e d k :: B) := by
  have h1 : (A ++ k :: B).getD va.length (FT.empty d) = k := by rw [← hA]; exact getD_mid _ _ _ _
  have h2 : (A ++ k :: B).take va.length = A := by rw [← hA]; exact take_mid _ _
  have h3 : (A ++ k :: B).drop (va.length + 1) = B := by rw [← hA]; exact drop_mid _ _ _
  have h4 : (va ++ vb).take va.length = va := take_mid _ _
  have h5 : (va ++ vb).drop va.length = vb := List.drop_left
  conv_lhs => unfold FT.insertBelow FT.node
  simp only [hb, h1, h2, h3, h4, h5]

theorem insertNonFull_view (cmp : Compare K) : ∀ (d : Nat) (t t' : Tree K V) (b : BT K V d) (e : K × V) (X Y : List Nat), Pre t b X Y →
    b.vals.length < 2 * t.degree - 1 → insertNonFull cmp t (some b.ptr) e = .ok t' →
    view t'.h d b.ptr = FT.insertBelow cmp t.degree e d (view t.h d b.ptr) := by
  intro d
  induction d with
  | zero =>
    intro t t' b e X Y pre hlen hok
    obtain ⟨p, vs, rfl⟩ := exists_leaf b
    simp only [leaf_vals, leaf_ptr] at hlen hok ⊢
    obtain ⟨r1, r2, r3, r4⟩ := (rep_leaf _ _ _).1 pre.rep
    obtain ⟨pos, h1, h2, h3, h4⟩ := leafShift_post cmp p e.1 vs.length t hlen
    have hposM : pos < 2 * t.degree - 1 := by omega
    rw [insertNonFull] at hok
    simp only [getLeaf, r1, Res.bind_ok, if_true, getNum, r2, h2, setVal, hposM, setNum] at hok
    cases hok
    have hb : FT.behind cmp e.1 (FT.used (view t.h 0 p)) = pos := by
      rw [view_used pre.rep]
      exact behind_eq r3 h1 h3 h4
    show FLeaf.mk _ _ = FT.insertAt _ _ _
    rw [hb]
    unfold FT.insertAt
    congr 1
    · funext j
      show _ = if j = pos then e else if pos < j ∧ j ≤ t.h.num p then t.h.values p (j - 1) else t.h.values p j
      rw [r2]
      simp only [true_and]
    · show _ = t.h.num p + 1
      rw [r2]; simp
  | succ d ih =>
    intro t t' b e X Y pre hlen hok
    obtain ⟨p, vs, ks, rfl⟩ := exists_inner b
    simp only [inner_vals, inner_ptr] at hlen hok ⊢
    obtain ⟨r1, r2, r3, r4, r5, r6⟩ := (rep_inner _ _ _ _).1 pre.rep
    obtain ⟨pos, h1, h2, h3, h4⟩ := descendPos_post cmp t p e.1 vs.length (by omega)
    have hdeg := pre.deg
    have hpk : pos < ks.length := by omega
    have hbe := behind_eq (cmp := cmp) r3 h1 h3 h4
    obtain ⟨va, vb, hva, hvs⟩ : ∃ va vb, va.length = pos ∧ vs = va ++ vb := ⟨vs.take pos, vs.drop pos, by simp; omega, by simp⟩
    obtain ⟨A, k, B, hA, hks⟩ : ∃ A k B, A.length = pos ∧ ks = A ++ k :: B :=
      ⟨ks.take pos, ks[pos], ks.drop (pos + 1), by simp; omega, by rw [← List.drop_eq_getElem_cons hpk]; simp⟩
    subst hvs hks
    have hkc : t.h.children p pos = some k.ptr := by
      have : Slots (t.h.children p) (A.map (fun k => some k.ptr) ++ some k.ptr :: B.map (fun k => some k.ptr)) := by simpa using r5
      have := this.at
      simpa [hA] using this
    have hAva : A.length = va.length := by omega
    have hkpre := pre.kid
    have hocck := ((inner_kidsOcc _ _ _ _).1 pre.occ k (by simp)).1
    have hview : view t.h (d + 1) p = FT.node (va ++ vb) (A.map (fun k => view t.h d k.ptr) ++ view t.h d k.ptr :: B.map (fun k => view t.h d k.ptr)) := by
      rw [view_inner pre.rep]; simp
    rw [hview]
    rw [insertNonFull] at hok
    have hp2 : pos < 2 * t.degree := by simp at h1 hlen; omega
    simp only [getLeaf, r1, Res.bind_ok, Bool.false_eq_true, if_false, getNum, r2, h2, getKid, hp2, if_true, hkc, hkpre.rep.num_eq] at hok
    rw [FT.insertBelow_node cmp t.degree e va vb _ _ _ (by simpa using hAva) (by rw [hbe, hva]), view_num hkpre.rep]
    by_cases hfull : 2 * t.degree - 1 = k.vals.length
    · have hp_lt : p < t.fresh := pre.lt p (by simp)
      have hnd := pre.nodup
      simp only [inner_ids, List.nodup_cons, List.flatMap_append, List.flatMap_cons, List.mem_append] at hnd
      have hpki : p ∉ k.ids := fun h => hnd.1 (Or.inr (Or.inl h))
      have hpk' : p ≠ k.ptr := fun h => hpki (h ▸ ptr_mem_ids k)
      obtain ⟨t1, e1, sp⟩ := splitChild_post t p k.ptr pos hpk' hp_lt (hkpre.lt _ (ptr_mem_ids k)) (by omega) (by omega) (by omega) (by
        intro hl
        have hd : d = 0 := by
          rw [hkpre.rep.isLeaf_eq] at hl; simpa using hl
        subst hd
        have hmem : k.ptr ∈ X ++ List.flatMap leaves A ++ k.leaves ++ (List.flatMap leaves B ++ Y) := by
          obtain ⟨c, ws, rfl⟩ := exists_leaf k
          simp
        obtain ⟨s, hs1, hs2⟩ := hkpre.ring.next_mem hmem
        exact ⟨s, hs1, hkpre.rlt s hs2⟩)
      rw [if_pos hfull] at hok
      rw [if_pos hfull.symm]
      have hm : t.degree - 1 < k.vals.length := by omega
      rw [← hA] at sp
      have pre1 := pre.after_split hAva sp hfull.symm hm
      obtain ⟨o1, o2⟩ := sp.others pre
      have hsplit := view_split sp hkpre.rep (by omega) hfull.symm hm hpki hp_lt hkpre.nodup hkpre.lt
      obtain ⟨s1, s2, s3, s4, s5, s6⟩ := (rep_inner _ _ _ _).1 pre1.rep
      have hmid : t1.h.values p pos = k.vals[t.degree - 1] := by have := s3.at; rw [hva] at this; exact this
      have hb1 : pos < 2 * t.degree - 1 := by simp at hlen; omega
      have hb2 : pos + 1 < 2 * t.degree := by omega
      have hlenL := splitL_length (M := t.degree) (by omega) k hfull.symm
      have hlenR := splitR_length (M := t.degree) (n := t.fresh) k hfull.symm
      have hpL : (k.splitL t.degree).ptr = k.ptr := by
        cases d with
        | zero => obtain ⟨c, ws, rfl⟩ := exists_leaf k; rfl
        | succ d => obtain ⟨c, ws, ks, rfl⟩ := exists_inner k; rfl
      have hpR : (k.splitR t.degree t.fresh).ptr = t.fresh := by
        cases d with
        | zero => obtain ⟨c, ws, rfl⟩ := exists_leaf k; rfl
        | succ d => obtain ⟨c, ws, ks, rfl⟩ := exists_inner k; rfl
      simp only [e1, Res.bind_ok, getVal, sp.degree, hb1, if_true, hmid] at hok
      rw [hsplit]
      have m1 : A.map (fun k => view t1.h d k.ptr) = A.map (fun k => view t.h d k.ptr) := List.map_congr_left o1
      have m2 : B.map (fun k => view t1.h d k.ptr) = B.map (fun k => view t.h d k.ptr) := List.map_congr_left o2
      by_cases hc : cmp (k.vals[t.degree - 1]).1 e.1 < 0
      · have hkid : t1.h.children p (pos + 1) = some (k.splitR t.degree t.fresh).ptr := by
          have : Slots (t1.h.children p) ((A ++ [k.splitL t.degree]).map (fun k => some k.ptr) ++ some (k.splitR t.degree t.fresh).ptr :: B.map (fun k => some k.ptr)) := by
            simpa using s5
          have := this.at
          simpa [hA] using this
        simp only [hc, if_true, hb2, hkid, Res.bind_ok] at hok ⊢
        have pre2 : Pre t1 (inner p ((va ++ [k.vals[t.degree - 1]]) ++ vb) ((A ++ [k.splitL t.degree]) ++ k.splitR t.degree t.fresh :: B)) X Y := by
          simpa using pre1
        have hl2 : (k.splitR t.degree t.fresh).vals.length < 2 * t1.degree - 1 := by rw [sp.degree]; omega
        obtain ⟨t2, k', he, post⟩ := insertNonFull_spec cmp d t1 (k.splitR t.degree t.fresh) e _ _ pre2.kid hl2
        obtain rfl : t2 = t' := by rw [he] at hok; cases hok; rfl
        have hv := ih t1 t2 _ e _ _ pre2.kid hl2 he
        rw [post.view_node pre2, hv, sp.degree, hpR]
        simp only [List.map_append, List.map_cons, List.map_nil, List.append_assoc, List.cons_append, List.nil_append, m1, m2, hpL]
      · have hkid : t1.h.children p pos = some (k.splitL t.degree).ptr := by
          have : Slots (t1.h.children p) (A.map (fun k => some k.ptr) ++ some (k.splitL t.degree).ptr :: some (k.splitR t.degree t.fresh).ptr :: B.map (fun k => some k.ptr)) := by
            simpa using s5
          have := this.at
          simpa [hA] using this
        simp only [hc, if_false, hp2, if_true, hkid, Res.bind_ok] at hok ⊢
        have hl2 : (k.splitL t.degree).vals.length < 2 * t1.degree - 1 := by rw [sp.degree]; split at hlenL <;> omega
        obtain ⟨t2, k', he, post⟩ := insertNonFull_spec cmp d t1 (k.splitL t.degree) e _ _ pre1.kid hl2
        obtain rfl : t2 = t' := by rw [he] at hok; cases hok; rfl
        have hv := ih t1 t2 _ e _ _ pre1.kid hl2 he
        rw [post.view_node pre1, hv, sp.degree, hpL]
        simp only [List.map_append, List.map_cons, List.map_nil, List.append_assoc, List.cons_append, List.nil_append, m1, m2, hpR]
    · rw [if_neg hfull] at hok
      rw [if_neg (fun h => hfull h.symm)]
      have hl2 : k.vals.length < 2 * t.degree - 1 := by omega
      obtain ⟨t2, k', he, post⟩ := insertNonFull_spec cmp d t k e _ _ hkpre hl2
      obtain rfl : t2 = t' := by rw [he] at hok; cases hok; rfl
      rw [post.view_node pre, ih t t2 k e _ _ hkpre hl2 he]

/-- `insert` on a tree that has not been cleared. -/
theorem insert_view (cmp : Compare K) (t : Tree K V) {d : Nat} (b : BT K V d) (e : K × V) (g : Good t b) :
    ∃ t' d' b', insert cmp t e = .ok t' ∧ Good t' (d := d') b' ∧ t'.degree = t.degree ∧
      FT.insert cmp t.degree e ⟨d, view t.h d b.ptr⟩ = ⟨d', view t'.h d' b'.ptr⟩ := by
  obtain ⟨hroot, pre, hhi, hlo, hsize⟩ := g
  have hdeg := pre.deg
  unfold insert
  simp only [hroot, reduceCtorEq, if_false, getNum, Res.bind_ok, pre.rep.num_eq]
  by_cases hfull : t.degree * 2 - 1 = b.vals.length
  · rw [if_pos hfull]
    have hkid : 0 < 2 * (newNode t).degree := by show 0 < 2 * t.degree; omega
    simp only [newNode, setLeaf, setKid, Res.bind_ok] at hkid ⊢
    simp only [hkid, if_true, Res.bind_ok]
    generalize ht0 : Tree.mk _ _ _ _ _ = t0
    have f0 : t0.fresh = t.fresh + 1 := by rw [← ht0]
    have d0 : t0.degree = t.degree := by rw [← ht0]
    have s0 : t0.size = t.size := by rw [← ht0]
    have same0 : ∀ q, q < t.fresh → SameAt t.h t0.h q := by
      intro q hq
      have : q ≠ t.fresh := by omega
      rw [← ht0]
      constructor
      · simp [this]
      · simp [this]
      · funext j; simp [this]
      · funext j; simp [this]
    have link0 : ∀ q, q < t.fresh → t0.h.next q = t.h.next q ∧ t0.h.prev q = t.h.prev q := by
      intro q hq
      have : q ≠ t.fresh := by omega
      rw [← ht0]
      simp [this]
    have rep0 : Rep t0.h (inner t.fresh [] [b]) := by
      refine (rep_inner _ _ _ _).2 ⟨by rw [← ht0]; simp, by rw [← ht0]; simp, by intro i hi; simp at hi, by simp, ?_, ?_⟩
      · intro i hi
        simp at hi
        subst hi
        rw [← ht0]; simp
      · intro k hk
        simp at hk
        subst hk
        exact pre.rep.congr (fun q hq => same0 q (pre.lt q hq))
    have pre0 : Pre t0 (inner t.fresh [] [b]) [] [] := by
      have hlv : [] ++ (inner t.fresh [] [b]).leaves ++ [] = [] ++ b.leaves ++ [] := by simp
      refine ⟨rep0, ?_, ?_, by omega, ?_, ?_, ?_, ?_⟩
      · simp only [inner_ids, List.flatMap_cons, List.flatMap_nil, List.append_nil, List.nodup_cons]
        exact ⟨fun h => by have := pre.lt _ h; omega, pre.nodup⟩
      · intro q hq
        simp only [inner_ids, List.flatMap_cons, List.flatMap_nil, List.append_nil, List.mem_cons] at hq
        rcases hq with h | h
        · omega
        · have := pre.lt q h; omega
      · intro k hk
        replace hk : k ∈ [b] := hk
        simp at hk
        subst hk
        rw [d0]
        exact ⟨by omega, pre.occ⟩
      · rw [hlv]
        exact pre.ring.congr (fun q hq => link0 q (pre.rlt q hq))
      · rw [hlv]; exact pre.rnodup
      · rw [hlv]; intro q hq; have := pre.rlt q hq; omega
    have hbf : b.ptr < t.fresh := pre.lt _ (ptr_mem_ids b)
    have rk0 : Rep t0.h b := ((rep_inner _ _ _ _).1 rep0).2.2.2.2.2 b (by simp)
    obtain ⟨t1, e1, sp⟩ := splitChild_post t0 t.fresh b.ptr 0 (by omega) (by omega) (by omega) (by omega) (by omega)
      (by rw [((rep_inner _ _ _ _).1 rep0).2.1]; simp; omega) (by
        intro hl
        have hd : d = 0 := by
          rw [rk0.isLeaf_eq] at hl; simpa using hl
        subst hd
        have hmem : b.ptr ∈ [] ++ b.leaves ++ [] := by
          obtain ⟨c, ws, rfl⟩ := exists_leaf b
          simp
        obtain ⟨s, hs1, hs2⟩ := pre.ring.next_mem hmem
        exact ⟨s, by rw [(link0 _ hbf).1]; exact hs1, by have := pre.rlt s hs2; omega⟩)
    rw [e1]
    simp only [Res.bind_ok]
    have hlen0 : b.vals.length = 2 * t0.degree - 1 := by omega
    have pre1 := Pre.after_split (A := []) (B := []) (va := []) (vb := []) pre0 rfl sp hlen0 (by omega)
    simp only [List.nil_append] at pre1
    have hl1 : (inner t.fresh [b.vals[t0.degree - 1]] [b.splitL t0.degree, b.splitR t0.degree t0.fresh]).vals.length < 2 * t1.degree - 1 := by
      simp [sp.degree]; omega
    obtain ⟨t2, b2, e2, post⟩ := insertNonFull_spec cmp (d + 1) t1 _ e [] [] pre1 hl1
    have hv := insertNonFull_view cmp (d + 1) t1 t2 _ e [] [] pre1 hl1 e2
    obtain ⟨p2, vs2, ks2, rfl⟩ := exists_inner b2
    have hp2 := post.ptr
    simp only [inner_ptr] at hp2 e2
    subst hp2
    rw [e2]
    have hl := post.len
    simp only [inner_vals, List.length_singleton] at hl
    have hpre2 := post.good pre1
    refine ⟨_, d + 1, _, rfl, ⟨rfl, ⟨hpre2.rep, hpre2.nodup, hpre2.lt, hpre2.deg, hpre2.occ, hpre2.ring.congr (fun q hq => ⟨rfl, rfl⟩), hpre2.rnodup, hpre2.rlt⟩,
      ?_, ?_, ?_⟩, ?_, ?_⟩
    · show (inner _ vs2 ks2).vals.length ≤ 2 * t2.degree - 1
      rw [post.degree, sp.degree, d0]
      simp only [inner_vals]
      omega
    · intro _; simp only [inner_vals]; omega
    · show t2.size = _
      rw [post.size, sp.size, s0, hsize, post.entries.perm.length_eq]
      simp only [inner_entries, List.flatMap_cons, List.flatMap_nil, List.append_nil, List.length_cons]
      rw [split_entries]
      simp
    · show t2.degree = _
      rw [post.degree, sp.degree, d0]
    · have hsplit := view_split sp rk0 (by omega) hlen0 (by omega) (fun h => by have := pre.lt _ h; omega) (by omega) pre.nodup (fun q hq => by have := pre.lt q hq; omega)
      have hv0 : view t0.h d b.ptr = view t.h d b.ptr := view_congr pre.rep (fun q hq => same0 q (pre.lt q hq))
      rw [hv0] at hsplit
      simp only [d0] at hsplit
      have hfu : (view t.h d b.ptr).num = 2 * t.degree - 1 := by rw [view_num pre.rep]; omega
      show _ = Sigma.mk (d + 1) (view t2.h (d + 1) t.fresh)
      rw [show view t2.h (d + 1) t.fresh = _ from hv, inner_ptr, view_inner pre1.rep]
      unfold FT.insert
      simp only [hfu, if_true, hsplit, sp.degree, d0, List.map_cons, List.map_nil]
      have hpL : (b.splitL t.degree).ptr = b.ptr := by
        cases d with
        | zero => obtain ⟨c, ws, rfl⟩ := exists_leaf b; rfl
        | succ d => obtain ⟨c, ws, ks, rfl⟩ := exists_inner b; rfl
      have hpR : (b.splitR t.degree t0.fresh).ptr = t0.fresh := by
        cases d with
        | zero => obtain ⟨c, ws, rfl⟩ := exists_leaf b; rfl
        | succ d => obtain ⟨c, ws, ks, rfl⟩ := exists_inner b; rfl
      rw [hpL, hpR]
  · rw [if_neg hfull]
    have hl0 : b.vals.length < 2 * t.degree - 1 := by omega
    obtain ⟨t', b', he, post⟩ := insertNonFull_spec cmp d t b e [] [] pre hl0
    have hv := insertNonFull_view cmp d t t' b e [] [] pre hl0 he
    have hl := post.len
    refine ⟨t', d, b', he, ⟨by rw [post.root, hroot, post.ptr], post.good pre, by rw [post.degree]; omega, fun h => ?_, ?_⟩, post.degree, ?_⟩
    · have := hlo h; omega
    · rw [post.size, hsize, post.entries.perm.length_eq]; simp
    · have hfu : ¬ (view t.h d b.ptr).num = 2 * t.degree - 1 := by rw [view_num pre.rep]; omega
      unfold FT.insert
      simp only [hfu, if_false]
      rw [post.ptr, hv]

end Gds.BPlus
