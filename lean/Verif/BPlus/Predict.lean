import Verif.BPlus.ViewInsert
import Verif.BPlus.ViewDelete
import Verif.BPlus.Hist

/-! Every history of calls does exactly what the pure tree of BPlus/FSpec.lean does. -/

namespace Gds.BPlus
open BT Tree
variable {K V : Type}

/-- The depth of a subtree is determined by its address. -/
theorem rep_depth {h : Heap K V} : ∀ {d d' : Nat} {b : BT K V d} {b' : BT K V d'}, Rep h b → Rep h b' → b.ptr = b'.ptr → d = d'
  | 0, 0, _, _, _, _, _ => rfl
  | 0, d' + 1, b, b', h1, h2, e => by
    have a := h1.isLeaf_eq; have c := h2.isLeaf_eq
    rw [e, c] at a; simp at a
  | d + 1, 0, b, b', h1, h2, e => by
    have a := h1.isLeaf_eq; have c := h2.isLeaf_eq
    rw [e, c] at a; simp at a
  | d + 1, d' + 1, b, b', h1, h2, e => by
    obtain ⟨p, vs, ks, rfl⟩ := exists_inner b
    obtain ⟨p', vs', ks', rfl⟩ := exists_inner b'
    obtain ⟨-, -, -, r4, r5, r6⟩ := (rep_inner _ _ _ _).1 h1
    obtain ⟨-, -, -, s4, s5, s6⟩ := (rep_inner _ _ _ _).1 h2
    simp only [inner_ptr] at e
    subst e
    cases ks with
    | nil => simp at r4
    | cons k ks =>
      cases ks' with
      | nil => simp at s4
      | cons k' ks' =>
        have a : h.children p 0 = some k.ptr := r5 0 (by simp)
        have c : h.children p 0 = some k'.ptr := s5 0 (by simp)
        rw [a] at c
        rw [rep_depth (r6 k (by simp)) (s6 k' (by simp)) (by simpa using c)]

variable [Inhabited K] [Inhabited V]

/-! ### Searching -/

theorem searchLoop_view (cmp : Compare K) (t : Tree K V) (key : K) (hdeg : 2 ≤ t.degree) : ∀ (d : Nat) (b : BT K V d), Rep t.h b →
    b.KidsOcc t.degree → b.vals.length ≤ 2 * t.degree - 1 →
    ∃ q i, searchLoop cmp t (some b.ptr) key = .ok (some q, i, ((view t.h d b.ptr).find cmp key).isSome) ∧
      ∀ e, (view t.h d b.ptr).find cmp key = some e → i < 2 * t.degree - 1 ∧ t.h.values q i = e := by
  intro d
  induction d with
  | zero =>
    intro b hr _ hlen
    obtain ⟨p, vs, rfl⟩ := exists_leaf b
    obtain ⟨r1, r2, r3, r4⟩ := (rep_leaf _ _ _).1 hr
    simp only [leaf_ptr, leaf_vals] at hlen ⊢
    obtain ⟨mid', h1, h2⟩ := bsearch_bisect cmp t p key (t.h.values p) vs.length hlen (fun _ _ => rfl) _ 0 vs.length 0 (Nat.le_refl _) (Nat.le_refl _)
    have hf : (view t.h 0 p).find cmp key = (FT.bisect cmp key (t.h.values p) 0 vs.length).2.map (t.h.values p) := by
      show (FT.bisect cmp key (t.h.values p) 0 (t.h.num p)).2.map (t.h.values p) = _
      rw [r2]
    rw [hf, searchLoop]
    simp only [getNum, r2, Res.bind_ok, h1, getLeaf, r1, if_true]
    cases hb : (FT.bisect cmp key (t.h.values p) 0 vs.length).2 with
    | none => exact ⟨p, _, rfl, by simp⟩
    | some i =>
      obtain ⟨h3, h4⟩ := h2 i hb
      refine ⟨p, mid', rfl, fun e he => ?_⟩
      simp at he
      exact ⟨by omega, by rw [h3]; exact he⟩
  | succ d ih =>
    intro b hr hocc hlen
    obtain ⟨p, vs, ks, rfl⟩ := exists_inner b
    obtain ⟨r1, r2, r3, r4, r5, r6⟩ := (rep_inner _ _ _ _).1 hr
    simp only [inner_ptr, inner_vals] at hlen ⊢
    have hgd : ∀ j, j < vs.length → vs.getD j default = t.h.values p j := by
      intro j hj
      rw [r3 j hj, List.getD_eq_getElem?_getD, List.getElem?_eq_getElem hj]; rfl
    obtain ⟨mid', h1, -⟩ := bsearch_bisect cmp t p key (fun j => vs.getD j default) vs.length hlen hgd _ 0 vs.length 0 (Nat.le_refl _) (Nat.le_refl _)
    obtain ⟨l', mid2, ex, g1, -, g3, -, -⟩ := bsearch_post cmp t p vs.length key hlen _ 0 vs.length 0 (Nat.le_refl _) (Nat.zero_le _) (Nat.le_refl _)
    have hpos : (FT.bisect cmp key (fun j => vs.getD j default) 0 vs.length).1 ≤ vs.length := by
      rw [h1] at g1
      injection g1 with g1
      simp only [Prod.mk.injEq] at g1
      rw [g1.1]; exact g3
    have hfd : (view t.h (d + 1) p).find cmp key =
        FT.find cmp key ((ks.map (fun k => view t.h d k.ptr)).getD (FT.bisect cmp key (fun j => vs.getD j default) 0 vs.length).1 (FT.empty d)) := by
      rw [view_inner hr]; rfl
    generalize hps : (FT.bisect cmp key (fun j => vs.getD j default) 0 vs.length).1 = pos at *
    have hpk : pos < ks.length := by omega
    have hget : (ks.map (fun k => view t.h d k.ptr)).getD pos (FT.empty d) = view t.h d ks[pos].ptr := by
      rw [List.getD_eq_getElem?_getD, List.getElem?_eq_getElem (by simpa using hpk)]; simp
    have hkc : t.h.children p pos = some ks[pos].ptr := by
      rw [r5 pos (by simpa using hpk)]; simp
    have hocck := (inner_kidsOcc _ _ _ _).1 hocc ks[pos] (by simp)
    have hp2 : pos < 2 * t.degree := by omega
    rw [hfd, hget, searchLoop]
    simp only [getNum, r2, Res.bind_ok, h1, getLeaf, r1, Bool.false_eq_true, if_false, getKid, hp2, if_true, hkc]
    exact ih ks[pos] (r6 _ (by simp)) hocck.2 hocck.1.2

/-- The tree of the heap, as a pure tree. -/
inductive Shows (t : Tree K V) : FMap K V → Prop
  | cleared : Cleared t → Shows t none
  | live {d : Nat} (b : BT K V d) : Good t b → Shows t (some ⟨d, view t.h d b.ptr⟩)

theorem search_view (cmp : Compare K) (t : Tree K V) (m : FMap K V) (s : Shows t m) (key : K) :
    ∃ q i, search cmp t key = .ok (q, i, (FMap.find cmp key m).isSome) ∧
      ∀ e, FMap.find cmp key m = some e → ∃ p, q = some p ∧ i < 2 * t.degree - 1 ∧ t.h.values p i = e := by
  cases s with
  | cleared c => exact ⟨none, 0, c.search cmp key, by simp [FMap.find]⟩
  | @live d b g =>
    unfold search
    by_cases h0 : t.size = 0
    · rw [if_pos h0]
      have hsz := g.size
      rw [h0] at hsz
      have hnil : b.entries = [] := List.length_eq_zero_iff.1 (by omega)
      have hd : d = 0 := by
        by_contra hd
        exact entries_ne_nil g.pre.deg b g.pre.rep g.pre.occ (g.lo hd) hnil
      subst hd
      obtain ⟨p, vs, rfl⟩ := exists_leaf b
      obtain ⟨r1, r2, r3, r4⟩ := (rep_leaf _ _ _).1 g.pre.rep
      have hv : vs = [] := by simpa using hnil
      subst hv
      have hf : FMap.find cmp key (some ⟨0, view t.h 0 p⟩) = none := by
        show (FT.bisect cmp key (t.h.values p) 0 (t.h.num p)).2.map (t.h.values p) = none
        rw [r2, FT.bisect]; simp
      simp only [leaf_ptr]
      rw [hf]
      exact ⟨none, 0, rfl, by simp⟩
    · rw [if_neg h0, g.root]
      obtain ⟨q, i, h1, h2⟩ := searchLoop_view cmp t key g.pre.deg d b g.pre.rep g.pre.occ g.hi
      exact ⟨some q, i, h1, fun e he => ⟨q, rfl, h2 e he⟩⟩

/-- All reads, and the deletion that compares the value. -/
theorem reads_view (cmp : Compare K) (t : Tree K V) (m : FMap K V) (s : Shows t m) (key : K) :
    containsKey cmp t key = .ok (FMap.find cmp key m).isSome ∧ getEntry cmp t key = .ok (FMap.find cmp key m) ∧
      getVerify cmp t key = .ok (((FMap.find cmp key m).map (·.2)).getD default, (FMap.find cmp key m).isSome) ∧
      get cmp t key = .ok (((FMap.find cmp key m).map (·.2)).getD default) ∧
      ∀ compV val, deleteByWholeMapping cmp t key val compV =
        (match FMap.find cmp key m with | some e => if compV e.2 val < 0 then delete cmp t key else .ok (t, false) | none => .ok (t, false)) := by
  obtain ⟨q, i, h1, h2⟩ := search_view cmp t m s key
  cases hf : FMap.find cmp key m with
  | none =>
    rw [hf] at h1
    simp only [Option.isSome_none] at h1
    refine ⟨?_, ?_, ?_, ?_, ?_⟩
    all_goals simp [containsKey, getEntry, getVerify, get, deleteByWholeMapping, h1]
  | some e =>
    obtain ⟨p, rfl, h3, h4⟩ := h2 e hf
    rw [hf] at h1
    simp only [Option.isSome_some] at h1
    refine ⟨?_, ?_, ?_, ?_, ?_⟩
    all_goals simp [containsKey, getEntry, getVerify, get, deleteByWholeMapping, h1, getVal, h3, h4]

/-! ### Deleting -/

/-- A call that deletes does what the pure tree says. -/
def RootDoes (r : Res (Tree K V)) (o : Option (Σ d, FT (K × V) d)) : Prop :=
  (o = none ∧ r = .panic .indexOutOfRange) ∨ ∃ t' d', ∃ b : BT K V d', o = some ⟨d', view t'.h d' b.ptr⟩ ∧ r = .ok t' ∧ Rep t'.h b ∧ t'.root = some b.ptr

theorem deleteRoot_does (cmp : Compare K) (key : K) (t : Tree K V) {d : Nat} (b : BT K V d) (g : Good t b) (hpos : 1 ≤ b.vals.length) :
    RootDoes (deleteRoot cmp t key) (FT.delete cmp t.degree key ⟨d, view t.h d b.ptr⟩) := by
  have pre := g.pre
  have hdeg := pre.deg
  have hgo : b.Roomy t.degree → RootDoes (deleteNonOne cmp t (some b.ptr) key)
      ((FT.deleteBelow cmp t.degree key d (view t.h d b.ptr)).map (fun f => ⟨d, f⟩)) := by
    intro hr
    have hv := deleteNonOne_view cmp key d t b [] [] pre g.hi hpos hr
    rcases hv with ⟨h1, h2⟩ | ⟨t', f, h1, h2, h3⟩
    · exact Or.inl ⟨by rw [h1]; rfl, h2⟩
    · rcases deleteNonOne_spec cmp key d t b [] [] pre g.hi hpos hr with ⟨t2, b', e, post, -, -⟩ | ⟨e, -⟩
      · obtain rfl : t2 = t' := by rw [e] at h2; cases h2; rfl
        exact Or.inr ⟨t2, d, b', by rw [h1, post.ptr, h3]; rfl, h2, post.rep, by rw [post.root, post.ptr, g.root]⟩
      · rw [e] at h2; cases h2
  have hb0 : 0 < 2 * t.degree := by omega
  have hb1 : 1 < 2 * t.degree := by omega
  unfold deleteRoot
  simp only [g.root, getNum, Res.bind_ok, pre.rep.num_eq, getKid, hb0, hb1, if_true]
  cases d with
  | zero =>
    have hsame : (if 1 = b.vals.length then
        if t.h.children b.ptr 0 ≠ none ∧ t.h.children b.ptr 1 ≠ none then
          (t.getNum (t.h.children b.ptr 0)).bind fun yn => (t.getNum (t.h.children b.ptr 1)).bind fun zn =>
            if t.degree - 1 = yn ∧ t.degree - 1 = zn then
              (mergeChild t (some b.ptr) (t.h.children b.ptr 0) (t.h.children b.ptr 1) 0).bind fun t1 =>
                (deleteNonOne cmp t1 (t.h.children b.ptr 0) key).bind fun t2 => Res.ok { t2 with root := t.h.children b.ptr 0 }
            else deleteNonOne cmp t (some b.ptr) key
        else deleteNonOne cmp t (some b.ptr) key
      else deleteNonOne cmp t (some b.ptr) key) = deleteNonOne cmp t (some b.ptr) key := by
      obtain ⟨p, vs, rfl⟩ := exists_leaf b
      obtain ⟨r1, r2, r3, r4⟩ := (rep_leaf _ _ _).1 pre.rep
      simp only [leaf_ptr, r4, ne_eq, not_true_eq_false, false_and, if_false, ite_self]
    refine Eq.mpr (congrArg (fun r => RootDoes r _) (by exact hsame)) ?_
    exact hgo trivial
  | succ d =>
    obtain ⟨p, vs, ks, rfl⟩ := exists_inner b
    obtain ⟨r1, r2, r3, r4, r5, r6⟩ := (rep_inner _ _ _ _).1 pre.rep
    have hocc := (inner_kidsOcc _ _ _ _).1 pre.occ
    have hview := view_inner pre.rep
    by_cases h1 : 1 = (inner p vs ks).vals.length
    · rw [if_pos h1]
      simp only [inner_vals, inner_ptr] at *
      obtain ⟨sv, rfl⟩ := List.length_eq_one_iff.1 h1.symm
      obtain ⟨y, z, rfl⟩ := List.length_eq_two.1 (show ks.length = 2 by simpa using r4)
      have hy0 : t.h.children p 0 = some y.ptr := r5 0 (by simp)
      have hz0 : t.h.children p 1 = some z.ptr := r5 1 (by simp)
      have hyk := r6 y (by simp)
      have hzk := r6 z (by simp)
      simp only [hy0, hz0, ne_eq, reduceCtorEq, not_false_eq_true, and_self, if_true, Res.bind_ok, hyk.num_eq, hzk.num_eq]
      have hdel : FT.delete cmp t.degree key ⟨d + 1, view t.h (d + 1) p⟩ =
          if (view t.h d y.ptr).num = t.degree - 1 ∧ (view t.h d z.ptr).num = t.degree - 1 then
            (FT.deleteBelow cmp t.degree key d (FT.join t.degree (view t.h d y.ptr) sv (view t.h d z.ptr))).map (fun f => ⟨d, f⟩)
          else (FT.deleteBelow cmp t.degree key (d + 1) (view t.h (d + 1) p)).map (fun f => ⟨d + 1, f⟩) := by
        rw [hview]
        unfold FT.delete
        simp only [FT.node, List.length_singleton, true_and, List.map_cons, List.map_nil, List.getD_cons_zero, List.getD_cons_succ]
      rw [hdel, view_num hyk, view_num hzk]
      by_cases hc : t.degree - 1 = y.vals.length ∧ t.degree - 1 = z.vals.length
      · rw [if_pos hc, if_pos ⟨hc.1.symm, hc.2.symm⟩]
        have ad := addr (A := []) (B := []) pre.nodup
        have hpy : p ≠ y.ptr := fun e => ad.py (e ▸ ptr_mem_ids y)
        have hpz : p ≠ z.ptr := fun e => ad.pz (e ▸ ptr_mem_ids z)
        have hyz : y.ptr ≠ z.ptr := fun e => (List.nodup_append.1 ad.yz).2.2 _ (ptr_mem_ids y) _ (ptr_mem_ids z) e
        obtain ⟨t1, e1, mp⟩ := mergeChild_post t p y.ptr z.ptr 0 hpy hpz hyz (by omega) (by rw [r2]; simp) (by rw [r2]; simp; omega)
          (next_of_leaf pre (by simp) hyk hzk)
        rw [e1]
        simp only [Res.bind_ok]
        obtain ⟨st, -⟩ := merge_step cmp (A := []) (B := []) (va := []) (vb := []) pre rfl mp hc.1.symm hc.2.symm
        simp only [List.nil_append] at st
        have hsv : t.h.values p 0 = sv := r3 0 (by simp)
        have hjv := view_join mp hsv hyk hzk hc.1.symm hc.2.symm (by omega) ad.py ad.pz ad.yz
        have hjl := join_length hdeg y z sv hc.1.symm hc.2.symm
        have pre1 := st.pre pre
        have hd1 := st.degree
        have prek : Pre t1 (y.join sv z) [] [] := by simpa using Pre.kid (A := []) (B := []) pre1
        have hroomy := roomy_of_le (by omega) (y.join sv z) (show t1.degree ≤ _ by omega)
        have hv := deleteNonOne_view cmp key d t1 (y.join sv z) [] [] prek (by omega) (by omega) hroomy
        rw [join_ptr, hd1, ← hjv] at hv
        rcases hv with ⟨g1, g2⟩ | ⟨t', f, g1, g2, g3⟩
        · rw [g1, g2]; exact Or.inl ⟨rfl, rfl⟩
        · rw [g1, g2]
          rcases deleteNonOne_spec cmp key d t1 (y.join sv z) [] [] prek (by omega) (by omega) hroomy with ⟨t2, b', e, post, -, -⟩ | ⟨e, -⟩
          · rw [join_ptr] at e
            obtain rfl : t2 = t' := by rw [e] at g2; cases g2; rfl
            have hbp : b'.ptr = y.ptr := by rw [post.ptr, join_ptr]
            refine Or.inr ⟨_, d, b', ?_, rfl, post.rep, ?_⟩
            · rw [hbp]; show some _ = some (Sigma.mk d (view t2.h d y.ptr)); rw [g3]
            · show some y.ptr = _; rw [hbp]
          · rw [join_ptr] at e
            rw [e] at g2; cases g2
      · rw [if_neg hc, if_neg (fun h => hc ⟨h.1.symm, h.2.symm⟩)]
        refine hgo ?_
        rw [inner_roomy]
        intro _
        by_contra hcon
        push Not at hcon
        exact hc ⟨(hcon y (by simp)).symm, (hcon z (by simp)).symm⟩
    · rw [if_neg h1]
      simp only [inner_vals, inner_ptr] at *
      have hdel : FT.delete cmp t.degree key ⟨d + 1, view t.h (d + 1) p⟩ =
          (FT.deleteBelow cmp t.degree key (d + 1) (view t.h (d + 1) p)).map (fun f => ⟨d + 1, f⟩) := by
        rw [hview]
        unfold FT.delete
        exact if_neg (fun h => h1 h.1.symm)
      rw [hdel]
      refine hgo ?_
      rw [inner_roomy]
      intro h
      exact absurd h.symm h1

theorem delete_view (cmp : Compare K) (t : Tree K V) (m : FMap K V) (s : Shows t m) (k : K) :
    (FMap.delete cmp t.degree k m = none ∧ delete cmp t k = .panic .indexOutOfRange) ∨
    ∃ t' m' o, FMap.delete cmp t.degree k m = some (m', o) ∧ delete cmp t k = .ok (t', o) ∧ Shows t' m' ∧ t'.degree = t.degree := by
  have hc := (reads_view cmp t m s k).1
  cases s with
  | cleared c =>
    right
    refine ⟨t, none, false, rfl, ?_, Shows.cleared c, rfl⟩
    rw [delete, hc]; rfl
  | @live d b g =>
    have hf : (FMap.find cmp k (some ⟨d, view t.h d b.ptr⟩)) = (view t.h d b.ptr).find cmp k := rfl
    rw [hf] at hc
    cases hfd : (view t.h d b.ptr).find cmp k with
    | none =>
      rw [hfd] at hc
      right
      refine ⟨t, _, false, ?_, ?_, Shows.live b g, rfl⟩
      · simp [FMap.delete, hfd]
      · rw [delete, hc]; rfl
    | some e =>
      rw [hfd] at hc
      have hspec := delete_good cmp t b g k
      rw [hc] at hspec
      rcases hspec with ⟨-, h⟩ | ⟨-, ⟨e', he', -⟩, hspec⟩
      · simp at h
      have hd := deleteRoot_does cmp k t b g (vals_pos_of_mem g he')
      have hdel : FMap.delete cmp t.degree k (some ⟨d, view t.h d b.ptr⟩) = (FT.delete cmp t.degree k ⟨d, view t.h d b.ptr⟩).map (fun f => (some f, true)) := by
        simp [FMap.delete, hfd]
      rw [hdel]
      have hdr : delete cmp t k = (do let t ← deleteRoot cmp t k; Res.ok (t, true)) := by
        rw [delete, hc]; rfl
      rcases hd with ⟨h1, h2⟩ | ⟨t', d', b', h1, h2, h3, h4⟩
      · left
        rw [h1, hdr, h2]
        exact ⟨rfl, rfl⟩
      · right
        rw [h1]
        refine ⟨t', _, true, rfl, by rw [hdr, h2]; rfl, ?_⟩
        rcases hspec with ⟨t2, d2, b2, h, hr, post⟩ | ⟨h, -⟩
        · obtain rfl : t2 = t' := by rw [hr] at h2; cases h2; rfl
          have hpp : b2.ptr = b'.ptr := by
            have := post.good.root
            rw [h4] at this
            simpa using this.symm
          obtain rfl := rep_depth post.good.pre.rep h3 hpp
          rw [← hpp]
          exact ⟨Shows.live b2 post.good, post.degree⟩
        · rw [hdr, h2] at h; cases h

theorem deleteAll_view (cmp : Compare K) : ∀ (ks : List K) (n : Nat) (t : Tree K V) (m : FMap K V), Shows t m →
    (FMap.deleteAll cmp t.degree m n ks = none ∧ deleteAll cmp t n ks = .panic .indexOutOfRange) ∨
    ∃ t' m' n', FMap.deleteAll cmp t.degree m n ks = some (m', n') ∧ deleteAll cmp t n ks = .ok (t', n') ∧ Shows t' m' ∧ t'.degree = t.degree
  | [], n, t, m, s => Or.inr ⟨t, m, n, rfl, rfl, s, rfl⟩
  | k :: ks, n, t, m, s => by
    rw [FMap.deleteAll, deleteAll]
    rcases delete_view cmp t m s k with ⟨h1, h2⟩ | ⟨t', m', o, h1, h2, h3, h4⟩
    · left; rw [h1, h2]; exact ⟨rfl, rfl⟩
    · rw [h1, h2]
      have := deleteAll_view cmp ks (if o then n + 1 else n) t' m' h3
      rw [h4] at this
      exact this

theorem insert_shows (cmp : Compare K) (t : Tree K V) (m : FMap K V) (s : Shows t m) (e : K × V) :
    ∃ t', insert cmp t e = .ok t' ∧ Shows t' (FMap.insert cmp t.degree e m) ∧ t'.degree = t.degree := by
  cases s with
  | cleared c => exact ⟨t, c.insert cmp e, Shows.cleared c, rfl⟩
  | @live d b g =>
    obtain ⟨t', d', b', h1, h2, h3, h4⟩ := insert_view cmp t b e g
    refine ⟨t', h1, ?_, h3⟩
    show Shows t' (some (FT.insert cmp t.degree e ⟨d, view t.h d b.ptr⟩))
    rw [h4]
    exact Shows.live b' h2

theorem step_view (cmp : Compare K) (op : Op K V) (t : Tree K V) (m : FMap K V) (s : Shows t m) :
    (FMap.step cmp t.degree m op = none ∧ step cmp t op = .panic .indexOutOfRange) ∨
    ∃ t' m' o, FMap.step cmp t.degree m op = some (m', o) ∧ step cmp t op = .ok (t', o) ∧ Shows t' m' ∧ t'.degree = t.degree := by
  cases op with
  | insertEqual k v =>
    obtain ⟨t', h1, h2, h3⟩ := insert_shows cmp t m s (k, v)
    exact Or.inr ⟨t', _, _, rfl, by simp [step, insertEqual, h1], h2, h3⟩
  | insertUnique k v =>
    obtain ⟨hc, -⟩ := reads_view cmp t m s k
    right
    rw [FMap.step]
    cases hf : FMap.find cmp k m with
    | none =>
      obtain ⟨t', h1, h2, h3⟩ := insert_shows cmp t m s (k, v)
      rw [hf] at hc
      exact ⟨t', _, _, rfl, by simp [step, insertUnique, hc, h1], h2, h3⟩
    | some e =>
      rw [hf] at hc
      exact ⟨t, m, _, rfl, by simp [step, insertUnique, hc], s, rfl⟩
  | delete k =>
    rw [FMap.step]
    rcases delete_view cmp t m s k with ⟨h1, h2⟩ | ⟨t', m', o, h1, h2, h3, h4⟩
    · left; rw [h1]; exact ⟨rfl, by simp [step, h2]⟩
    · right; rw [h1]; exact ⟨t', m', _, rfl, by simp [step, h2], h3, h4⟩
  | deleteEntryByKey e =>
    rw [FMap.step]
    rcases delete_view cmp t m s e.1 with ⟨h1, h2⟩ | ⟨t', m', o, h1, h2, h3, h4⟩
    · left; rw [h1]; exact ⟨rfl, by simp [step, deleteEntryByKey, h2]⟩
    · right; rw [h1]; exact ⟨t', m', _, rfl, by simp [step, deleteEntryByKey, h2], h3, h4⟩
  | deleteByWholeMapping k v c =>
    obtain ⟨-, -, -, -, hw⟩ := reads_view cmp t m s k
    have hw := hw c v
    rw [FMap.step]
    cases hf : FMap.find cmp k m with
    | none =>
      rw [hf] at hw
      exact Or.inr ⟨t, m, _, rfl, by simp [step, hw], s, rfl⟩
    | some e =>
      rw [hf] at hw
      simp only at hw ⊢
      by_cases hc : c e.2 v < 0
      · rw [if_pos hc] at hw ⊢
        rcases delete_view cmp t m s k with ⟨h1, h2⟩ | ⟨t', m', o, h1, h2, h3, h4⟩
        · left; rw [h1]; exact ⟨rfl, by simp [step, hw, h2]⟩
        · right; rw [h1]; exact ⟨t', m', _, rfl, by simp [step, hw, h2], h3, h4⟩
      · rw [if_neg hc] at hw ⊢
        exact Or.inr ⟨t, m, _, rfl, by simp [step, hw], s, rfl⟩
  | deleteAll ks =>
    rw [FMap.step]
    rcases deleteAll_view cmp ks 0 t m s with ⟨h1, h2⟩ | ⟨t', m', n, h1, h2, h3, h4⟩
    · left; rw [h1]; exact ⟨rfl, by simp [step, h2]⟩
    · right; rw [h1]; exact ⟨t', m', _, rfl, by simp [step, h2], h3, h4⟩
  | clear => exact Or.inr ⟨_, none, _, rfl, rfl, Shows.cleared ⟨rfl, rfl⟩, rfl⟩

theorem run_view (cmp : Compare K) : ∀ (ops : List (Op K V)) (t : Tree K V) (m : FMap K V), Shows t m →
    (FMap.run cmp t.degree m ops = none ∧ run cmp t ops = .panic .indexOutOfRange) ∨
    ∃ t' m' os, FMap.run cmp t.degree m ops = some (m', os) ∧ run cmp t ops = .ok (t', os) ∧ Shows t' m' ∧ t'.degree = t.degree
  | [], t, m, s => Or.inr ⟨t, m, [], rfl, rfl, s, rfl⟩
  | op :: ops, t, m, s => by
    rw [FMap.run, run]
    rcases step_view cmp op t m s with ⟨h1, h2⟩ | ⟨t', m', o, h1, h2, h3, h4⟩
    · left; rw [h1, h2]; exact ⟨rfl, rfl⟩
    · rw [h1, h2]
      have := run_view cmp ops t' m' h3
      rw [h4] at this
      rcases this with ⟨g1, g2⟩ | ⟨t2, m2, os, g1, g2, g3, g4⟩
      · left; simp [g1, g2]
      · right; exact ⟨t2, m2, o :: os, by simp [g1], by simp [g2], g3, g4⟩

end Gds.BPlus
