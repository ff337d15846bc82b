import Verif.BPlus.Insert

/-! `NewMap` and `insert`: the invariant of whole trees. -/

namespace Gds.BPlus
open BT Tree
variable {K V : Type} [Inhabited K] [Inhabited V]

/-- The tree `t` holds `b`. -/
structure Good (t : Tree K V) {d : Nat} (b : BT K V d) : Prop where
  root : t.root = some b.ptr
  pre : Pre t b [] []
  hi : b.vals.length ≤ 2 * t.degree - 1
  lo : d ≠ 0 → 1 ≤ b.vals.length
  size : t.size = (b.entries.length : Int)

theorem newMap_good {M : Nat} (hM : 2 ≤ M) : ∃ t : Tree K V, newMap M = .ok t ∧ t.degree = M ∧ Good t (leaf 0 []) := by
  have h0 : M ≠ 0 := by omega
  simp only [newMap, h0, if_false, setPrev, setNext, newNode, Res.bind_ok]
  refine ⟨_, rfl, rfl, ?_⟩
  constructor
  · rfl
  · constructor
    · exact (rep_leaf _ _ _).2 ⟨by simp, by simp, by intro i hi; simp at hi, by simp⟩
    · simp
    · simp
    · exact hM
    · simp
    · simp [Ring]
    · simp
    · simp
  · simp
  · simp
  · simp

theorem InsPost.good {cmp : Compare K} {e : K × V} {t t' : Tree K V} {d : Nat} {b b' : BT K V d} (pre : Pre t b [] [])
    (post : InsPost cmp e t t' b b' [] []) : Pre t' b' [] [] := by
  have hf := post.fresh
  have hlt : ∀ q ∈ b'.ids, q < t'.fresh := by
    intro q hq
    rcases post.ids q hq with h | h
    · have := pre.lt q h; omega
    · omega
  constructor
  · exact post.rep
  · exact post.nodup
  · exact hlt
  · rw [post.degree]; exact pre.deg
  · rw [post.degree]; exact post.occ
  · exact post.ring
  · simpa using (leaves_sublist b').nodup post.nodup
  · intro q hq
    simp at hq
    exact hlt q (leaves_subset b' q hq)

omit [Inhabited K] [Inhabited V] in
theorem Added.perm {e : K × V} {xs ys : List (K × V)} (h : Added e xs ys) : ys.Perm (e :: xs) := by
  obtain ⟨P, S, rfl, rfl⟩ := h
  exact List.perm_middle

/-- The effect of `insert` on a tree that has not been cleared. -/
theorem insert_exact (cmp : Compare K) (t : Tree K V) {d : Nat} (b : BT K V d) (e : K × V) (g : Good t b) :
    ∃ t' d' b', insert cmp t e = .ok t' ∧ Good t' (d := d') b' ∧ t'.degree = t.degree ∧ Added e b.entries b'.entries ∧
      (d' ≠ 0 → d ≠ 0 ∨ b.entries.length = 2 * t.degree - 1) ∧
      (cmp.Lawful → Sorted cmp b.inter → Sorted cmp b'.inter) ∧
      (cmp.Lawful → Sorted cmp b.inter → b.Tight cmp → b'.Tight cmp) := by
  obtain ⟨hroot, pre, hhi, hlo, hsize⟩ := g
  have hdeg := pre.deg
  unfold insert
  simp only [hroot, reduceCtorEq, if_false, getNum, Res.bind_ok, pre.rep.num_eq]
  by_cases hfull : t.degree * 2 - 1 = b.vals.length
  · rw [if_pos hfull]
    have hkid : 0 < 2 * (newNode t).degree := by show 0 < 2 * t.degree; omega
    simp only [newNode, setLeaf, setKid, Res.bind_ok] at hkid ⊢
    simp only [hkid, if_true, Res.bind_ok]
    generalize ht0 : Tree.mk _ _ _ _ _ = t0
    have f0 : t0.fresh = t.fresh + 1 := by rw [← ht0]
    have d0 : t0.degree = t.degree := by rw [← ht0]
    have s0 : t0.size = t.size := by rw [← ht0]
    have same0 : ∀ q, q < t.fresh → SameAt t.h t0.h q := by
      intro q hq
      have : q ≠ t.fresh := by omega
      rw [← ht0]
      constructor
      · simp [this]
      · simp [this]
      · funext j; simp [this]
      · funext j; simp [this]
    have link0 : ∀ q, q < t.fresh → t0.h.next q = t.h.next q ∧ t0.h.prev q = t.h.prev q := by
      intro q hq
      have : q ≠ t.fresh := by omega
      rw [← ht0]
      simp [this]
    have rep0 : Rep t0.h (inner t.fresh [] [b]) := by
      refine (rep_inner _ _ _ _).2 ⟨by rw [← ht0]; simp, by rw [← ht0]; simp, by intro i hi; simp at hi, by simp, ?_, ?_⟩
      · intro i hi
        simp at hi
        subst hi
        rw [← ht0]; simp
      · intro k hk
        simp at hk
        subst hk
        exact pre.rep.congr (fun q hq => same0 q (pre.lt q hq))
    have pre0 : Pre t0 (inner t.fresh [] [b]) [] [] := by
      have hlv : [] ++ (inner t.fresh [] [b]).leaves ++ [] = [] ++ b.leaves ++ [] := by simp
      refine ⟨rep0, ?_, ?_, by omega, ?_, ?_, ?_, ?_⟩
      · simp only [inner_ids, List.flatMap_cons, List.flatMap_nil, List.append_nil, List.nodup_cons]
        exact ⟨fun h => by have := pre.lt _ h; omega, pre.nodup⟩
      · intro q hq
        simp only [inner_ids, List.flatMap_cons, List.flatMap_nil, List.append_nil, List.mem_cons] at hq
        rcases hq with h | h
        · omega
        · have := pre.lt q h; omega
      · intro k hk
        replace hk : k ∈ [b] := hk
        simp at hk
        subst hk
        rw [d0]
        exact ⟨by omega, pre.occ⟩
      · rw [hlv]
        exact pre.ring.congr (fun q hq => link0 q (pre.rlt q hq))
      · rw [hlv]; exact pre.rnodup
      · rw [hlv]; intro q hq; have := pre.rlt q hq; omega
    have hbf : b.ptr < t.fresh := pre.lt _ (ptr_mem_ids b)
    have rk0 : Rep t0.h b := ((rep_inner _ _ _ _).1 rep0).2.2.2.2.2 b (by simp)
    obtain ⟨t1, e1, sp⟩ := splitChild_post t0 t.fresh b.ptr 0 (by omega) (by omega) (by omega) (by omega) (by omega)
      (by rw [((rep_inner _ _ _ _).1 rep0).2.1]; simp; omega) (by
        intro hl
        have hd : d = 0 := by
          rw [rk0.isLeaf_eq] at hl; simpa using hl
        subst hd
        have hmem : b.ptr ∈ [] ++ b.leaves ++ [] := by
          obtain ⟨c, ws, rfl⟩ := exists_leaf b
          simp
        obtain ⟨s, hs1, hs2⟩ := pre.ring.next_mem hmem
        exact ⟨s, by rw [(link0 _ hbf).1]; exact hs1, by have := pre.rlt s hs2; omega⟩)
    rw [e1]
    simp only [Res.bind_ok]
    have hlen0 : b.vals.length = 2 * t0.degree - 1 := by omega
    have pre1 := Pre.after_split (A := []) (B := []) (va := []) (vb := []) pre0 rfl sp hlen0 (by omega)
    simp only [List.nil_append] at pre1
    obtain ⟨t2, b2, e2, post⟩ := insertNonFull_spec cmp (d + 1) t1 _ e [] [] pre1 (by simp [sp.degree]; omega)
    obtain ⟨p2, vs2, ks2, rfl⟩ := exists_inner b2
    have hp2 := post.ptr
    simp only [inner_ptr] at hp2 e2
    subst hp2
    rw [e2]
    have hl := post.len
    simp only [inner_vals, List.length_singleton] at hl
    have hpre2 := post.good pre1
    refine ⟨_, d + 1, _, rfl, ⟨rfl, ⟨hpre2.rep, hpre2.nodup, hpre2.lt, hpre2.deg, hpre2.occ, hpre2.ring.congr (fun q hq => ⟨rfl, rfl⟩), hpre2.rnodup, hpre2.rlt⟩,
      ?_, ?_, ?_⟩, ?_, ?_, ?_, ?_, ?_⟩
    · show (inner _ vs2 ks2).vals.length ≤ 2 * t2.degree - 1
      rw [post.degree, sp.degree, d0]
      simp only [inner_vals]
      omega
    · intro _; simp only [inner_vals]; omega
    · show t2.size = _
      rw [post.size, sp.size, s0, hsize, post.entries.perm.length_eq]
      simp only [inner_entries, List.flatMap_cons, List.flatMap_nil, List.append_nil, List.length_cons]
      rw [split_entries]
      simp
    · show t2.degree = _
      rw [post.degree, sp.degree, d0]
    · have := post.entries
      simp only [inner_entries, List.flatMap_cons, List.flatMap_nil, List.append_nil] at this
      rwa [split_entries] at this
    · intro _
      by_cases hd : d = 0
      · subst hd
        obtain ⟨c, ws, rfl⟩ := exists_leaf b
        right
        simp at hfull ⊢; omega
      · exact Or.inl hd
    · intro hc hs
      have h1 := split_inter hc (n := t0.fresh) (by omega) b rk0 hlen0 (by omega) [] [] (by simpa using hs)
      have h2 := post.sorted hc [] [] (by simpa [inter_succ, inner] using h1) (by simp) (by simp)
      simpa using h2
    · intro hc hs ht
      have h1 := split_inter hc (n := t0.fresh) (by omega) b rk0 hlen0 (by omega) [] [] (by simpa using hs)
      refine post.tight hc (by simpa [inter_succ, inner] using h1) ?_
      have ht0 : (inner t.fresh ([] ++ []) ([] ++ b :: [])).Tight cmp := by
        rw [tight_inner]
        simpa using ht
      exact Tight.split (A := []) (B := []) (va := []) (vb := []) hc (by omega) rfl rk0 (by rw [d0]; exact pre.occ) hlen0 (by omega) ht0
  · rw [if_neg hfull]
    obtain ⟨t', b', he, post⟩ := insertNonFull_spec cmp d t b e [] [] pre (by omega)
    have hl := post.len
    refine ⟨t', d, b', he, ⟨by rw [post.root, hroot, post.ptr], post.good pre, by rw [post.degree]; omega, fun h => ?_, ?_⟩, post.degree, post.entries,
      fun h => Or.inl h, fun hc hs => ?_, fun hc hs ht => post.tight hc hs ht⟩
    · have := hlo h; omega
    · rw [post.size, hsize, post.entries.perm.length_eq]; simp
    · have := post.sorted hc [] [] (by simpa using hs) (by simp) (by simp)
      simpa using this

theorem insert_spec (cmp : Compare K) (t : Tree K V) {d : Nat} (b : BT K V d) (e : K × V) (g : Good t b) :
    ∃ t' d' b', insert cmp t e = .ok t' ∧ Good t' (d := d') b' ∧ t'.degree = t.degree ∧ b'.entries.Perm (e :: b.entries) ∧
      (d' ≠ 0 → d ≠ 0 ∨ b.entries.length = 2 * t.degree - 1) ∧
      (cmp.Lawful → Sorted cmp b.inter → Sorted cmp b'.inter) := by
  obtain ⟨t', d', b', h1, h2, h3, h4, h5, h6, -⟩ := insert_exact cmp t b e g
  exact ⟨t', d', b', h1, h2, h3, h4.perm, h5, h6⟩

end Gds.BPlus
