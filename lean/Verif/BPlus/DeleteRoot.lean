import Verif.BPlus.Delete
import Verif.BPlus.Root

/-! `delete` on whole trees. -/

namespace Gds.BPlus
open BT Tree
variable {K V : Type} [Inhabited K] [Inhabited V]

theorem DelPost.pre {d : Nat} {cmp : Compare K} {key : K} {t t' : Tree K V} {b b' : BT K V d} {X Y : List Nat} (pre : Pre t b X Y) (s : DelPost cmp key t t' b b' X Y) : Pre t' b' X Y := by
  have hsub : List.Sublist (X ++ b'.leaves ++ Y) (X ++ b.leaves ++ Y) := ((List.Sublist.refl X).append s.leaves).append (List.Sublist.refl Y)
  refine ⟨s.rep, s.nodup, ?_, by rw [s.degree]; exact pre.deg, by rw [s.degree]; exact s.occ, s.ring, hsub.nodup pre.rnodup, ?_⟩
  · intro q hq; rw [s.fresh]; exact pre.lt q (s.ids q hq)
  · intro q hq; rw [s.fresh]; exact pre.rlt q (hsub.subset hq)

/-- The effect of a deletion on a whole tree. -/
structure RootPost {d d' : Nat} (cmp : Compare K) (key : K) (t t' : Tree K V) (b : BT K V d) (b' : BT K V d') : Prop where
  good : Good t' b'
  degree : t'.degree = t.degree
  depth : d' ≤ d
  count : b'.entries.length = b.entries.length ∨ b'.entries.length + 1 = b.entries.length
  damage : Damage cmp key b.entries b'.entries
  sorted : cmp.Lawful → d ≤ 1 → Sorted cmp b.inter → Sorted cmp b'.inter
  least : MinHyp cmp key b → (∃ e, cmp key e.1 = 0 ∧ b.entries = e :: b'.entries) ∧ Sorted cmp b'.inter

theorem good_of_del {d : Nat} {cmp : Compare K} {key : K} {t t' : Tree K V} {b b' : BT K V d} (g : Good t b) (post : DelPost cmp key t t' b b' [] [])
    (hm : MinHyp cmp key b → DelMin cmp key b b') (hl : d ≠ 0 → 1 ≤ b'.vals.length) (hc : b.entries ≠ []) : RootPost cmp key t t' b b' := by
  have hlen := post.len
  have hhi := g.hi
  have hn : 1 ≤ b.entries.length := List.length_pos_iff.2 hc
  refine ⟨⟨by rw [post.root, g.root, post.ptr], post.pre g.pre, by rw [post.degree]; omega, hl, ?_⟩, post.degree, Nat.le_refl _, ?_, post.damage, fun hc hd hs => by simpa using post.sorted hc hd [] [] (by simpa using hs), fun m => ?_⟩
  · have := post.count
    have := g.size
    omega
  · have := post.count
    omega
  · have h := hm m
    refine ⟨h.entries, ?_⟩
    have := h.sorted [] [] (by simpa using m.sorted)
    simpa using this

/-- bplustree.go:322-341 -/
theorem deleteRoot_spec (cmp : Compare K) (key : K) (t : Tree K V) {d : Nat} (b : BT K V d) (g : Good t b) (hpos : 1 ≤ b.vals.length) :
    (∃ t' d', ∃ b' : BT K V d', deleteRoot cmp t key = .ok t' ∧ RootPost cmp key t t' b b') ∨
    (deleteRoot cmp t key = .panic .indexOutOfRange ∧ ¬ MinHyp cmp key b) := by
  have pre := g.pre
  have hdeg := pre.deg
  have hne := entries_ne_nil hdeg b pre.rep pre.occ hpos
  have hgo : b.Roomy t.degree → ((∃ t' d', ∃ b' : BT K V d', deleteNonOne cmp t (some b.ptr) key = .ok t' ∧ RootPost cmp key t t' b b') ∨
    (deleteNonOne cmp t (some b.ptr) key = .panic .indexOutOfRange ∧ ¬ MinHyp cmp key b)) := by
    intro hr
    rcases deleteNonOne_spec cmp key d t b [] [] pre g.hi hpos hr with ⟨t', b', e, post, hm, hl⟩ | h
    · exact Or.inl ⟨t', d, b', e, good_of_del g post hm hl hne⟩
    · exact Or.inr h
  have hb0 : 0 < 2 * t.degree := by omega
  have hb1 : 1 < 2 * t.degree := by omega
  unfold deleteRoot
  simp only [g.root, getNum, Res.bind_ok, pre.rep.num_eq, getKid, hb0, hb1, if_true]
  by_cases h1 : 1 = b.vals.length
  · rw [if_pos h1]
    cases d with
    | zero =>
      obtain ⟨p, vs, rfl⟩ := exists_leaf b
      obtain ⟨r1, r2, r3, r4⟩ := (rep_leaf _ _ _).1 pre.rep
      simp only [leaf_ptr, r4, ne_eq, not_true_eq_false, false_and, if_false]
      exact hgo trivial
    | succ d =>
      obtain ⟨p, vs, ks, rfl⟩ := exists_inner b
      obtain ⟨r1, r2, r3, r4, r5, r6⟩ := (rep_inner _ _ _ _).1 pre.rep
      have hocc := (inner_kidsOcc _ _ _ _).1 pre.occ
      simp only [inner_vals] at h1
      obtain ⟨sv, rfl⟩ := List.length_eq_one_iff.1 h1.symm
      obtain ⟨y, z, rfl⟩ := List.length_eq_two.1 (show ks.length = 2 by simpa using r4)
      have hy0 : t.h.children p 0 = some y.ptr := r5 0 (by simp)
      have hz0 : t.h.children p 1 = some z.ptr := r5 1 (by simp)
      have hyk := r6 y (by simp)
      have hzk := r6 z (by simp)
      simp only [inner_ptr, hy0, hz0, ne_eq, reduceCtorEq, not_false_eq_true, and_self, if_true, Res.bind_ok, hyk.num_eq, hzk.num_eq]
      by_cases hc : t.degree - 1 = y.vals.length ∧ t.degree - 1 = z.vals.length
      · simp only [hc.1.symm, hc.2.symm, and_self, if_true]
        have ad := addr (A := []) (B := []) pre.nodup
        have hpy : p ≠ y.ptr := fun e => ad.py (e ▸ ptr_mem_ids y)
        have hpz : p ≠ z.ptr := fun e => ad.pz (e ▸ ptr_mem_ids z)
        have hyz : y.ptr ≠ z.ptr := fun e => (List.nodup_append.1 ad.yz).2.2 _ (ptr_mem_ids y) _ (ptr_mem_ids z) e
        obtain ⟨t1, e1, mp⟩ := mergeChild_post t p y.ptr z.ptr 0 hpy hpz hyz (by omega) (by rw [r2]; simp) (by rw [r2]; simp; omega)
          (next_of_leaf pre (by simp) hyk hzk)
        rw [e1]
        simp only [Res.bind_ok]
        obtain ⟨st, kp⟩ := merge_step cmp (A := []) (B := []) (va := []) (vb := []) pre rfl mp hc.1.symm hc.2.symm
        simp only [List.nil_append] at st kp
        have hjl := join_length hdeg y z sv hc.1.symm hc.2.symm
        have pre1 := st.pre pre
        have hd1 := st.degree
        have prek : Pre t1 (y.join sv z) [] [] := by simpa using Pre.kid (A := []) (B := []) pre1
        have hent : (y.join sv z).entries = (inner p [sv] [y, z]).entries := by rw [join_entries]; simp
        have hgk : Good { t1 with root := some y.ptr } (y.join sv z) := by
          refine ⟨by rw [join_ptr], ⟨prek.rep, prek.nodup, prek.lt, prek.deg, prek.occ, prek.ring, prek.rnodup, prek.rlt⟩, ?_, ?_, ?_⟩
          · show _ ≤ 2 * t1.degree - 1
            omega
          · intro _; omega
          · show t1.size = _
            rw [st.size, g.size, hent]
        have hroomy := roomy_of_le (by omega) _ hjl.1
        have hmk : MinHyp cmp key (inner p [sv] [y, z]) → MinHyp cmp key (y.join sv z) := fun m => (m.keeps kp).kid hdeg (by have := pre1.rep; exact this) (by have := pre1.occ; rwa [hd1] at this)
        rcases deleteNonOne_spec cmp key d t1 (y.join sv z) [] [] prek (by omega) (by omega) (by rw [hd1]; exact hroomy) with ⟨t', b', e, post, hm, hl⟩ | ⟨e, hm⟩
        · rw [join_ptr] at e
          rw [e]
          left
          refine ⟨_, d, b', rfl, ?_⟩
          have hp := post.pre prek
          have hlen := post.len
          have hcnt := post.count
          have hn : 1 ≤ (inner p [sv] [y, z]).entries.length := List.length_pos_iff.2 hne
          rw [hent] at hcnt
          refine ⟨⟨?_, ⟨hp.rep, hp.nodup, hp.lt, hp.deg, hp.occ, hp.ring, hp.rnodup, hp.rlt⟩, ?_, hl, ?_⟩, ?_, Nat.le_succ _, ?_, by rw [← hent]; exact post.damage, fun hcl hd hs => ?_, fun m => ?_⟩
          · show some y.ptr = _
            rw [post.ptr, join_ptr]
          · show _ ≤ 2 * t'.degree - 1
            rw [post.degree]; omega
          · show t'.size = _
            have := st.size; have := g.size
            omega
          · show t'.degree = _
            rw [post.degree, hd1]
          · omega
          · have h1 := kp.sorted hcl [] [] (by simpa using hs)
            have h2 : (inner p [] [y.join sv z]).inter = (y.join sv z).inter := by simp [inner_inter0]
            simp only [List.nil_append, List.append_nil] at h1
            rw [h2] at h1
            simpa using post.sorted hcl (by omega) [] [] (by simpa using h1)
          · have h := hm (hmk m)
            refine ⟨by rw [← hent]; exact h.entries, ?_⟩
            have := h.sorted [] [] (by simpa using (hmk m).sorted)
            simpa using this
        · rw [join_ptr] at e
          rw [e]
          exact Or.inr ⟨rfl, fun m => hm (hmk m)⟩
      · rw [if_neg hc]
        refine hgo ?_
        rw [inner_roomy]
        intro _
        by_contra hcon
        push Not at hcon
        exact hc ⟨(hcon y (by simp)).symm, (hcon z (by simp)).symm⟩
  · rw [if_neg h1]
    refine hgo ?_
    cases d with
    | zero => trivial
    | succ d =>
      obtain ⟨p, vs, ks, rfl⟩ := exists_inner b
      rw [inner_roomy]
      intro h
      exact absurd h.symm h1

end Gds.BPlus
