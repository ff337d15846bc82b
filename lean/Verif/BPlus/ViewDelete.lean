import Verif.BPlus.ViewShift
import Verif.BPlus.DeleteRoot

/-! Deletion on a heap is `FT.delete` on the pure tree, panics included. -/

namespace Gds.BPlus
open BT Tree
variable {K V : Type} [Inhabited K] [Inhabited V]

/-- The call `r`, which works below address `p`, does what the pure tree says. -/
def Does (d p : Nat) (r : Res (Tree K V)) (o : Option (FT (K × V) d)) : Prop :=
  (o = none ∧ r = .panic .indexOutOfRange) ∨ ∃ t' f, o = some f ∧ r = .ok t' ∧ view t'.h d p = f

/-! ### The pure tree, written with lists cut at the child -/

theorem FT.deleteBelow_node {d : Nat} {cmp : Compare K} {M : Nat} {key : K} {vs vs1 : List (K × V)} {ks A B : List (FT (K × V) d)} {k : FT (K × V) d}
    (h : FT.prepare M vs ks (FT.before cmp key vs) = (vs1, A ++ k :: B, A.length)) :
    FT.deleteBelow cmp M key (d + 1) (FT.node vs ks) = (FT.deleteBelow cmp M key d k).map (fun k => FT.node vs1 (A ++ k :: B)) := by
  conv_lhs => unfold FT.deleteBelow FT.node
  simp only [h, getD_mid, take_mid, drop_mid]

theorem FT.prepare_direct {d M : Nat} {vs : List (K × V)} {A B : List (FT (K × V) d)} {k : FT (K × V) d} (h : k.num ≠ M - 1) :
    FT.prepare M vs (A ++ k :: B) A.length = (vs, A ++ k :: B, A.length) := by
  unfold FT.prepare
  simp only [getD_mid]
  rw [if_pos h]

theorem FT.prepare_left {d M : Nat} {va vb : List (K × V)} {v : K × V} {A B : List (FT (K × V) d)} {s k : FT (K × V) d} (hA : A.length = va.length)
    (h1 : k.num = M - 1) (h2 : M - 1 < s.num) :
    FT.prepare M (va ++ v :: vb) (A ++ s :: k :: B) (A.length + 1) =
      (va ++ (FT.borrowL s v k).2.1 :: vb, (A ++ [(FT.borrowL s v k).1]) ++ (FT.borrowL s v k).2.2 :: B, A.length + 1) := by
  unfold FT.prepare
  simp only [getD_mid1, Nat.add_sub_cancel, getD_mid, take_mid, drop_mid2]
  rw [if_neg (by simpa using h1), if_pos ⟨by omega, h2⟩]
  simp only [hA, getD_mid, take_mid, drop_mid]
  simp

theorem FT.prepare_right {d M : Nat} {va vb : List (K × V)} {v : K × V} {A B : List (FT (K × V) d)} {z k : FT (K × V) d} (hA : A.length = va.length)
    (h1 : k.num = M - 1) (h3 : 0 < A.length → ¬ M - 1 < ((A ++ k :: z :: B).getD (A.length - 1) (FT.empty d)).num) (h2 : M - 1 < z.num) :
    FT.prepare M (va ++ v :: vb) (A ++ k :: z :: B) A.length =
      (va ++ (FT.borrowR k v z).2.1 :: vb, A ++ (FT.borrowR k v z).1 :: (FT.borrowR k v z).2.2 :: B, A.length) := by
  unfold FT.prepare
  simp only [getD_mid1, getD_mid, take_mid, drop_mid2]
  rw [if_neg (by simpa using h1), if_neg (fun h => h3 h.1 h.2), if_pos ⟨by simp; omega, h2⟩]
  simp only [hA, getD_mid, take_mid, drop_mid]

theorem FT.prepare_mergeL {d M : Nat} {va vb : List (K × V)} {v : K × V} {A B : List (FT (K × V) d)} {s k : FT (K × V) d} (hA : A.length = va.length)
    (h1 : k.num = M - 1) (h2 : ¬ M - 1 < s.num)
    (h3 : A.length + 1 < (va ++ v :: vb).length → ¬ M - 1 < ((A ++ s :: k :: B).getD (A.length + 1 + 1) (FT.empty d)).num) :
    FT.prepare M (va ++ v :: vb) (A ++ s :: k :: B) (A.length + 1) = (va ++ vb, A ++ FT.join M s v k :: B, A.length) := by
  unfold FT.prepare
  simp only [getD_mid1, Nat.add_sub_cancel, getD_mid, take_mid, drop_mid2]
  rw [if_neg (by simpa using h1), if_neg (fun h => h2 h.2), if_neg (fun h => h3 h.1 h.2), if_pos (by omega)]
  simp only [hA, getD_mid, take_mid, drop_mid]

theorem FT.prepare_mergeR {d M : Nat} {vb : List (K × V)} {v : K × V} {B : List (FT (K × V) d)} {z k : FT (K × V) d}
    (h1 : k.num = M - 1) (h2 : ¬ M - 1 < z.num) :
    FT.prepare M (v :: vb) (k :: z :: B) 0 = (vb, FT.join M k v z :: B, 0) := by
  unfold FT.prepare
  simp only [List.getD_cons_zero, List.getD_cons_succ]
  rw [if_neg (by simpa using h1), if_neg (fun h => by omega), if_neg (fun h => h2 (by simpa using h.2)), if_neg (by omega)]
  simp

/-! ### Around the recursive call -/

theorem Does.node {d : Nat} {cmp : Compare K} {key : K} {t : Tree K V} {p : Nat} {vs : List (K × V)} {A B : List (BT K V d)} {k : BT K V d} {X Y : List Nat}
    (pre : Pre t (inner p vs (A ++ k :: B)) X Y) (hhi : k.vals.length ≤ 2 * t.degree - 1) (hlo : 1 ≤ k.vals.length) (hroom : k.Roomy t.degree)
    (h : Does d k.ptr (deleteNonOne cmp t (some k.ptr) key) (FT.deleteBelow cmp t.degree key d (view t.h d k.ptr))) :
    Does (d + 1) p (deleteNonOne cmp t (some k.ptr) key) ((FT.deleteBelow cmp t.degree key d (view t.h d k.ptr)).map
      (fun f => FT.node vs (A.map (fun k => view t.h d k.ptr) ++ f :: B.map (fun k => view t.h d k.ptr)))) := by
  rcases h with ⟨h1, h2⟩ | ⟨t', f, h1, h2, h3⟩
  · exact Or.inl ⟨by rw [h1]; rfl, h2⟩
  · refine Or.inr ⟨t', _, by rw [h1]; rfl, h2, ?_⟩
    rcases deleteNonOne_spec cmp key d t k _ _ pre.kid hhi hlo hroom with ⟨t2, k', e, post, -, -⟩ | ⟨e, -⟩
    · obtain rfl : t2 = t' := by rw [e] at h2; cases h2; rfl
      rw [view_replace pre.rep pre.nodup post.rep post.ptr (fun q hq hk => post.same q hk), h3]
    · rw [e] at h2; cases h2

theorem kids_unchanged {d : Nat} {t t' : Tree K V} {p : Nat} {vs : List (K × V)} {A B : List (BT K V d)} {y z : BT K V d} {X Y : List Nat}
    (pre : Pre t (inner p vs (A ++ y :: z :: B)) X Y) (same : ∀ q, q ≠ p → q ≠ y.ptr → q ≠ z.ptr → SameAt t.h t'.h q) :
    A.map (fun k => view t'.h d k.ptr) = A.map (fun k => view t.h d k.ptr) ∧ B.map (fun k => view t'.h d k.ptr) = B.map (fun k => view t.h d k.ptr) := by
  have ad := addr pre.nodup
  have r6 := ((rep_inner _ _ _ _).1 pre.rep).2.2.2.2.2
  have : ∀ x, (x ∈ A ∨ x ∈ B) → view t'.h d x.ptr = view t.h d x.ptr := by
    intro x hx
    refine view_congr (r6 x (by simp; tauto)) (fun q hq => ?_)
    obtain ⟨a1, a2, a3⟩ := ad.other x hx q hq
    exact same q a1 (fun e => a2 (e ▸ ptr_mem_ids y)) (fun e => a3 (e ▸ ptr_mem_ids z))
  exact ⟨List.map_congr_left (fun x hx => this x (Or.inl hx)), List.map_congr_left (fun x hx => this x (Or.inr hx))⟩

theorem deleteAt_view (cmp : Compare K) (key : K) (t : Tree K V) (p : Nat) (vs : List (K × V)) (hr : Rep t.h (leaf p vs)) (hlen : vs.length ≤ 2 * t.degree - 1) :
    Does 0 p (deleteNonOne cmp t (some p) key) (FT.deleteBelow cmp t.degree key 0 (view t.h 0 p)) := by
  obtain ⟨r1, r2, r3, r4⟩ := (rep_leaf _ _ _).1 hr
  obtain ⟨i, -, hi, h1, h2, h3⟩ := findSlot_post cmp t p key vs.length 0 (by omega)
  rw [Nat.zero_add] at hi h3
  have hb : FT.before cmp key (FT.used (view t.h 0 p)) = i := by
    rw [view_used hr]
    exact before_eq r3 hi (fun j hj => h2 j (Nat.zero_le _) hj) h3
  show Does 0 p _ (FT.deleteAt cmp t.degree key (view t.h 0 p))
  unfold FT.deleteAt
  rw [hb, deleteNonOne]
  simp only [getLeaf, r1, Res.bind_ok, getNum, r2, h1, if_true, getVal]
  by_cases hbd : i < 2 * t.degree - 1
  · simp only [hbd, if_true, Res.bind_ok]
    by_cases hc : cmp key (t.h.values p i).1 = 0
    · simp only [hc, if_true, setNum]
      rw [if_pos (show cmp key ((view t.h 0 p).slot i).1 = 0 from hc), copyValsUp_eq _ _ _ _ _ _ (by omega) (by omega) (by omega)]
      simp only [Res.bind_ok]
      refine Or.inr ⟨_, _, rfl, rfl, ?_⟩
      show FLeaf.mk _ _ = FLeaf.mk _ _
      simp only [FLeaf.mk.injEq]
      refine ⟨?_, ?_⟩
      · funext j
        show _ = if i ≤ j ∧ j + 1 < 2 * t.degree - 1 then t.h.values p (j + 1) else t.h.values p j
        simp only [true_and]
        by_cases hj : i ≤ j ∧ j + 1 < 2 * t.degree - 1
        · rw [if_pos hj, if_pos (by omega)]
          congr 1; omega
        · rw [if_neg hj, if_neg (by omega)]
      · show _ = t.h.num p - 1
        rw [r2]; simp
    · simp only [hc, if_false]
      rw [if_neg (show ¬ cmp key ((view t.h 0 p).slot i).1 = 0 from hc)]
      exact Or.inr ⟨_, _, rfl, rfl, rfl⟩
  · simp only [hbd, if_false, Res.bind_panic]
    exact Or.inl ⟨rfl, rfl⟩

set_option maxHeartbeats 3200000 in
/-- bplustree.go:343-392: deleting below a node. -/
theorem deleteNonOne_view (cmp : Compare K) (key : K) : ∀ (d : Nat) (t : Tree K V) (b : BT K V d) (X Y : List Nat), Pre t b X Y →
    b.vals.length ≤ 2 * t.degree - 1 → 1 ≤ b.vals.length → b.Roomy t.degree →
    Does d b.ptr (deleteNonOne cmp t (some b.ptr) key) (FT.deleteBelow cmp t.degree key d (view t.h d b.ptr)) := by
  intro d
  induction d with
  | zero =>
    intro t b X Y pre hhi hlo _
    obtain ⟨p, vs, rfl⟩ := exists_leaf b
    exact deleteAt_view cmp key t p vs pre.rep hhi
  | succ d ih =>
    intro t b X Y pre hhi hlo hroom
    obtain ⟨p, vs, ks, rfl⟩ := exists_inner b
    simp only [inner_vals, inner_ptr] at hhi hlo ⊢
    obtain ⟨r1, r2, r3, r4, r5, r6⟩ := (rep_inner _ _ _ _).1 pre.rep
    obtain ⟨i, -, hi, h1, h2, h3⟩ := findSlot_post cmp t p key vs.length 0 (by omega)
    rw [Nat.zero_add] at hi h3
    have hdeg := pre.deg
    have hocc := (inner_kidsOcc _ _ _ _).1 pre.occ
    have hkid : ∀ j (hj : j < ks.length), t.h.children p j = some ks[j].ptr := by
      intro j hj
      rw [r5 j (by simpa using hj)]
      simp
    have hpk : i < ks.length := by omega
    obtain ⟨va, vb, hva, hvs⟩ : ∃ va vb, va.length = i ∧ vs = va ++ vb := ⟨vs.take i, vs.drop i, by simp; omega, by simp⟩
    obtain ⟨A, y, B, hA, hks⟩ : ∃ A y B, A.length = i ∧ ks = A ++ y :: B :=
      ⟨ks.take i, ks[i], ks.drop (i + 1), by simp; omega, by rw [← List.drop_eq_getElem_cons hpk]; simp⟩
    have hyp : t.h.children p i = some y.ptr := by
      rw [hkid i hpk]; subst hks; simp [← hA]
    have hbe : FT.before cmp key vs = i := before_eq r3 hi (fun j hj => h2 j (Nat.zero_le _) hj) h3
    have hb1 : i < 2 * t.degree := by omega
    have hyk := r6 y (by simp [hks])
    have hyo := hocc y (by simp [hks])
    have hz : i < vs.length → ∃ z B', B = z :: B' ∧ t.getKid (some p) (i + 1) = .ok (some z.ptr) := by
      intro hin
      have hb2 : i + 1 < 2 * t.degree := by omega
      have hb3 : i + 1 < ks.length := by omega
      cases B with
      | nil => subst hks; simp at r4; omega
      | cons z B =>
        refine ⟨z, B, rfl, ?_⟩
        simp only [getKid, hkid (i + 1) hb3, hb2, if_true]
        subst hks
        have : (A ++ y :: z :: B)[i + 1] = z := by
          rw [List.getElem_append_right (by omega)]
          simp [← hA]
        rw [this]
    have hs : 0 < i → ∃ A' s, A = A' ++ [s] ∧ t.getKid (some p) (i - 1) = .ok (some s.ptr) := by
      intro hin
      have hb2 : i - 1 < 2 * t.degree := by omega
      have hb3 : i - 1 < ks.length := by omega
      rcases List.eq_nil_or_concat A with rfl | ⟨A, s, rfl⟩
      · simp at hA; omega
      · simp only [List.concat_eq_append] at *
        refine ⟨A, s, rfl, ?_⟩
        simp only [getKid, hkid (i - 1) hb3, hb2, if_true]
        subst hks
        have : (A ++ [s] ++ y :: B)[i - 1] = s := by
          simp at hA
          simp only [← hA]
          simp
        rw [this]
    have hkidy : t.getKid (some p) i = .ok (some y.ptr) := by
      simp only [getKid, hyp, hb1, if_true]
    -- the five ways to continue
    have hDirect : t.degree ≤ y.vals.length →
        Does (d + 1) p (deleteNonOne cmp t (some y.ptr) key) (FT.deleteBelow cmp t.degree key (d + 1) (view t.h (d + 1) p)) := by
      intro hyl
      subst hks
      have hv := view_inner pre.rep
      rw [List.map_append, List.map_cons] at hv
      rw [hv, FT.deleteBelow_node (vs1 := vs) (A := A.map (fun k => view t.h d k.ptr)) (k := view t.h d y.ptr) (B := B.map (fun k => view t.h d k.ptr)) ?_]
      · exact Does.node pre hyo.1.2 (by omega) (roomy_of_le hdeg y hyl) (ih t y _ _ pre.kid hyo.1.2 (by omega) (roomy_of_le hdeg y hyl))
      · rw [hbe, show i = (A.map (fun k => view t.h d k.ptr)).length by simp [hA]]
        exact FT.prepare_direct (by rw [view_num hyk]; omega)
    have hRight : ∀ A' s, A = A' ++ [s] → 0 < i → y.vals.length = t.degree - 1 → t.degree - 1 < s.vals.length →
        Does (d + 1) p (do let t ← shiftToRightChild t (some p) (some s.ptr) (some y.ptr) (i - 1); deleteNonOne cmp t (some y.ptr) key) (FT.deleteBelow cmp t.degree key (d + 1) (view t.h (d + 1) p)) := by
      intro A' s hA' hi0 hyl hsl
      obtain ⟨va', sv, hva'⟩ : ∃ va' sv, va = va' ++ [sv] := by
        rcases List.eq_nil_or_concat va with rfl | ⟨va', sv, rfl⟩
        · simp at hva; omega
        · exact ⟨va', sv, by simp⟩
      have hA'l : A'.length = i - 1 := by rw [hA'] at hA; simp at hA; omega
      have hva'l : va'.length = i - 1 := by rw [hva'] at hva; simp at hva; omega
      have evs : vs = va' ++ sv :: vb := by rw [hvs, hva']; simp
      have eks : ks = A' ++ s :: y :: B := by rw [hks, hA']; simp
      clear hvs hks
      subst evs eks
      have ad := addr pre.nodup
      have hso := hocc s (by simp)
      have hsk := r6 s (by simp)
      have hps : p ≠ s.ptr := fun e => ad.py (e ▸ ptr_mem_ids s)
      have hpy : p ≠ y.ptr := fun e => ad.pz (e ▸ ptr_mem_ids y)
      have hsy : s.ptr ≠ y.ptr := fun e => (List.nodup_append.1 ad.yz).2.2 _ (ptr_mem_ids s) _ (ptr_mem_ids y) e
      have hsn := hsk.num_eq
      have hyn := hyk.num_eq
      obtain ⟨t1, e1, rp⟩ := shiftToRightChild_post t p s.ptr y.ptr (i - 1) hps hpy hsy (by omega) (by omega) (by omega) (by omega) (by omega)
      rw [e1]
      simp only [Res.bind_ok]
      rw [← hA'l] at rp
      have hsv0 : t.h.values p A'.length = sv := by have := r3.at; rw [hA'l, ← hva'l]; exact this
      obtain ⟨s', y', sh, hy'l, -, -⟩ := right_shifted rp hsk hyk (by omega) hso.1.2 hyl hdeg hso.2 hyo.2 ad.py ad.pz ad.yz
      have fr := rp.frame hps hpy
      have st := shift_step pre (by omega) fr sh
      have hbl := view_borrowL rp hsv0 hsk hyk (by omega) (by omega) ad.py ad.pz ad.yz
      obtain ⟨o1, o2⟩ := kids_unchanged pre fr.same
      generalize hsv' : (if t.h.isLeaf y.ptr then t.h.values s.ptr (t.h.num s.ptr - 2) else t.h.values s.ptr (t.h.num s.ptr - 1)) = sv' at st hbl
      have pre1 := st.pre pre
      have pre2 : Pre t1 (inner p (va' ++ sv' :: vb) ((A' ++ [s']) ++ y' :: B)) X Y := by simpa using pre1
      have hd1 := st.degree
      have hroom' := roomy_of_le (by omega) y' (show t1.degree ≤ y'.vals.length by omega)
      have hih := ih t1 y' _ _ pre2.kid (by omega) (by omega) hroom'
      have hn := Does.node pre2 (by omega) (by omega) hroom' hih
      rw [sh.ptrZ, hd1] at hn
      rw [view_inner pre.rep, List.map_append, List.map_cons, List.map_cons,
        FT.deleteBelow_node (vs1 := va' ++ sv' :: vb) (A := (A' ++ [s']).map (fun k => view t1.h d k.ptr)) (k := view t1.h d y.ptr) (B := B.map (fun k => view t1.h d k.ptr)) ?_]
      · exact hn
      · have hp := FT.prepare_left (M := t.degree) (va := va') (vb := vb) (v := sv) (A := A'.map (fun k => view t.h d k.ptr)) (B := B.map (fun k => view t.h d k.ptr))
          (s := view t.h d s.ptr) (k := view t.h d y.ptr) (by simp; omega) (by rw [view_num hyk]; exact hyl) (by rw [view_num hsk]; exact hsl)
        rw [hbl] at hp
        rw [hbe, show i = (A'.map (fun k => view t.h d k.ptr)).length + 1 by simp; omega, hp]
        simp only [List.map_append, List.map_cons, List.map_nil, o1, o2, sh.ptrY, List.length_append, List.length_map, List.length_cons, List.length_nil]
    have hLeft : ∀ z B', B = z :: B' → i < vs.length → y.vals.length = t.degree - 1 → t.degree - 1 < z.vals.length → (∀ A' s, A = A' ++ [s] → ¬ t.degree - 1 < s.vals.length) →
        Does (d + 1) p (do let t ← shiftToLeftChild t (some p) (some y.ptr) (some z.ptr) i; deleteNonOne cmp t (some y.ptr) key) (FT.deleteBelow cmp t.degree key (d + 1) (view t.h (d + 1) p)) := by
      intro z B' hB' hin hyl hzl hleft
      obtain ⟨sv, vb', hvb'⟩ : ∃ sv vb', vb = sv :: vb' := by
        cases vb with
        | nil => rw [hvs] at hin; simp at hin; omega
        | cons sv vb' => exact ⟨sv, vb', rfl⟩
      have evs : vs = va ++ sv :: vb' := by rw [hvs, hvb']
      have eks : ks = A ++ y :: z :: B' := by rw [hks, hB']
      clear hvs hks
      subst evs eks
      have ad := addr pre.nodup
      have hzo := hocc z (by simp)
      have hzk := r6 z (by simp)
      have hpy : p ≠ y.ptr := fun e => ad.py (e ▸ ptr_mem_ids y)
      have hpz : p ≠ z.ptr := fun e => ad.pz (e ▸ ptr_mem_ids z)
      have hyz : y.ptr ≠ z.ptr := fun e => (List.nodup_append.1 ad.yz).2.2 _ (ptr_mem_ids y) _ (ptr_mem_ids z) e
      have hzn := hzk.num_eq
      have hyn := hyk.num_eq
      obtain ⟨t1, e1, lp⟩ := shiftToLeftChild_post t p y.ptr z.ptr i hpy hpz hyz (by omega) (by omega) (by omega) (by omega) (by omega)
      rw [e1]
      simp only [Res.bind_ok]
      rw [← hA] at lp
      have hsv : t.h.values p A.length = sv := by have := r3.at; rw [hA, ← hva]; exact this
      have fr := lp.frame hpy hpz
      obtain ⟨y', z', sh, hy'l, -, -, -⟩ := left_shifted lp hsv hyk hzk hyl (by omega) hzo.1.2 hdeg hyo.2 hzo.2 ad.py ad.pz ad.yz
      have st := shift_step pre (by omega) fr sh
      have hbr := view_borrowR lp hsv hyk hzk (by omega) ad.py ad.pz ad.yz
      obtain ⟨o1, o2⟩ := kids_unchanged pre fr.same
      generalize t.h.values z.ptr 0 = sv' at st hbr
      have pre1 := st.pre pre
      have hd1 := st.degree
      have hroom' := roomy_of_le (by omega) y' (show t1.degree ≤ y'.vals.length by omega)
      have hih := ih t1 y' _ _ pre1.kid (by omega) (by omega) hroom'
      have hn := Does.node pre1 (by omega) (by omega) hroom' hih
      rw [sh.ptrY, hd1] at hn
      rw [view_inner pre.rep, List.map_append, List.map_cons, List.map_cons,
        FT.deleteBelow_node (vs1 := va ++ sv' :: vb') (A := A.map (fun k => view t1.h d k.ptr)) (k := view t1.h d y.ptr) (B := (z' :: B').map (fun k => view t1.h d k.ptr)) ?_]
      · exact hn
      · have hp := FT.prepare_right (M := t.degree) (va := va) (vb := vb') (v := sv) (A := A.map (fun k => view t.h d k.ptr)) (B := B'.map (fun k => view t.h d k.ptr))
          (z := view t.h d z.ptr) (k := view t.h d y.ptr) (by simp; omega) (by rw [view_num hyk]; exact hyl) (by
            intro hpos
            rcases List.eq_nil_or_concat A with hAe | ⟨A', s, hAe⟩
            · rw [hAe] at hpos; simp at hpos
            · rw [List.concat_eq_append] at hAe
              have := hleft A' s hAe
              have e : (A.map (fun k => view t.h d k.ptr) ++ view t.h d y.ptr :: view t.h d z.ptr :: B'.map (fun k => view t.h d k.ptr)).getD
                  ((A.map (fun k => view t.h d k.ptr)).length - 1) (FT.empty d) = view t.h d s.ptr := by
                rw [hAe]
                simp
              rw [e, view_num (r6 s (by simp [hAe]))]
              exact this) (by rw [view_num hzk]; exact hzl)
        rw [hbr] at hp
        rw [hbe, show i = (A.map (fun k => view t.h d k.ptr)).length by simp; omega, hp]
        simp only [List.map_cons, o1, o2, sh.ptrZ, List.length_map]
    have hMergeS : ∀ A' s, A = A' ++ [s] → 0 < i → y.vals.length = t.degree - 1 → s.vals.length = t.degree - 1 → 2 ≤ vs.length →
        (∀ z B', B = z :: B' → i < vs.length → ¬ t.degree - 1 < z.vals.length) →
        Does (d + 1) p (do let t ← mergeChild t (some p) (some s.ptr) (some y.ptr) (i - 1); deleteNonOne cmp t (some s.ptr) key) (FT.deleteBelow cmp t.degree key (d + 1) (view t.h (d + 1) p)) := by
      intro A' s hA' hi0 hyl hsl hvl hright
      obtain ⟨va', sv, hva'⟩ : ∃ va' sv, va = va' ++ [sv] := by
        rcases List.eq_nil_or_concat va with rfl | ⟨va', sv, rfl⟩
        · simp at hva; omega
        · exact ⟨va', sv, by simp⟩
      have hA'l : A'.length = i - 1 := by rw [hA'] at hA; simp at hA; omega
      have hva'l : va'.length = i - 1 := by rw [hva'] at hva; simp at hva; omega
      have evs : vs = va' ++ sv :: vb := by rw [hvs, hva']; simp
      have eks : ks = A' ++ s :: y :: B := by rw [hks, hA']; simp
      clear hvs hks
      subst evs eks
      have ad := addr pre.nodup
      have hso := hocc s (by simp)
      have hsk := r6 s (by simp)
      have hps : p ≠ s.ptr := fun e => ad.py (e ▸ ptr_mem_ids s)
      have hpy : p ≠ y.ptr := fun e => ad.pz (e ▸ ptr_mem_ids y)
      have hsy : s.ptr ≠ y.ptr := fun e => (List.nodup_append.1 ad.yz).2.2 _ (ptr_mem_ids s) _ (ptr_mem_ids y) e
      have hsn := hsk.num_eq
      have hyn := hyk.num_eq
      obtain ⟨t1, e1, mp⟩ := mergeChild_post t p s.ptr y.ptr (i - 1) hps hpy hsy (by omega) (by omega) (by omega)
        (next_of_leaf pre (by simp) hsk hyk)
      rw [e1]
      simp only [Res.bind_ok]
      rw [← hA'l] at mp
      have hsv0 : t.h.values p A'.length = sv := by have := r3.at; rw [hA'l, ← hva'l]; exact this
      obtain ⟨st, -⟩ := merge_step cmp pre (by omega) mp hsl hyl
      have hjv := view_join mp hsv0 hsk hyk hsl hyl (by omega) ad.py ad.pz ad.yz
      obtain ⟨o1, o2⟩ := kids_unchanged (t' := t1) pre (fun q h1 h2 _ => by
        constructor
        · rw [mp.isLeaf]
        · rw [mp.num]; simp [h1, h2]
        · funext j; rw [mp.values]; simp [h1, h2]
        · funext j; rw [mp.children]; simp [h1, h2])
      have hjl := join_length hdeg s y sv hsl hyl
      have pre1 := st.pre pre
      have hd1 := st.degree
      have hroom' := roomy_of_le (by omega) (s.join sv y) (show t1.degree ≤ _ by omega)
      have hih := ih t1 (s.join sv y) _ _ pre1.kid (by omega) (by omega) hroom'
      have hn := Does.node pre1 (by omega) (by omega) hroom' hih
      rw [join_ptr, hd1] at hn
      rw [view_inner pre.rep, List.map_append, List.map_cons, List.map_cons,
        FT.deleteBelow_node (vs1 := va' ++ vb) (A := A'.map (fun k => view t1.h d k.ptr)) (k := view t1.h d s.ptr) (B := B.map (fun k => view t1.h d k.ptr)) ?_]
      · exact hn
      · have hp := FT.prepare_mergeL (M := t.degree) (va := va') (vb := vb) (v := sv) (A := A'.map (fun k => view t.h d k.ptr)) (B := B.map (fun k => view t.h d k.ptr))
          (s := view t.h d s.ptr) (k := view t.h d y.ptr) (by simp; omega) (by rw [view_num hyk]; exact hyl) (by rw [view_num hsk]; omega) (by
            intro hlt
            cases B with
            | nil => simp at hlt r4; omega
            | cons z B' =>
              have := hright z B' rfl (by simp at hlt hA'l ⊢; omega)
              have e : (A'.map (fun k => view t.h d k.ptr) ++ view t.h d s.ptr :: view t.h d y.ptr :: (z :: B').map (fun k => view t.h d k.ptr)).getD
                  ((A'.map (fun k => view t.h d k.ptr)).length + 1 + 1) (FT.empty d) = view t.h d z.ptr := by
                rw [List.getD_eq_getElem?_getD, List.getElem?_append_right (by omega), Nat.add_assoc, Nat.add_sub_cancel_left]
                simp
              rw [e, view_num (r6 z (by simp))]
              exact this)
        rw [hjv] at hp
        rw [hbe, show i = (A'.map (fun k => view t.h d k.ptr)).length + 1 by simp; omega, hp]
        simp only [o1, o2, List.length_map]
    have hMergeZ : ∀ z B', B = z :: B' → i < vs.length → y.vals.length = t.degree - 1 → z.vals.length = t.degree - 1 → 2 ≤ vs.length → i = 0 →
        Does (d + 1) p (do let t ← mergeChild t (some p) (some y.ptr) (some z.ptr) i; deleteNonOne cmp t (some y.ptr) key) (FT.deleteBelow cmp t.degree key (d + 1) (view t.h (d + 1) p)) := by
      intro z B' hB' hin hyl hzl hvl hi0
      obtain ⟨sv, vb', hvb'⟩ : ∃ sv vb', vb = sv :: vb' := by
        cases vb with
        | nil => rw [hvs] at hin; simp at hin; omega
        | cons sv vb' => exact ⟨sv, vb', rfl⟩
      have evs : vs = va ++ sv :: vb' := by rw [hvs, hvb']
      have eks : ks = A ++ y :: z :: B' := by rw [hks, hB']
      clear hvs hks
      subst evs eks
      have ad := addr pre.nodup
      have hzo := hocc z (by simp)
      have hzk := r6 z (by simp)
      have hpy : p ≠ y.ptr := fun e => ad.py (e ▸ ptr_mem_ids y)
      have hpz : p ≠ z.ptr := fun e => ad.pz (e ▸ ptr_mem_ids z)
      have hyz : y.ptr ≠ z.ptr := fun e => (List.nodup_append.1 ad.yz).2.2 _ (ptr_mem_ids y) _ (ptr_mem_ids z) e
      have hzn := hzk.num_eq
      have hyn := hyk.num_eq
      obtain ⟨t1, e1, mp⟩ := mergeChild_post t p y.ptr z.ptr i hpy hpz hyz (by omega) (by omega) (by omega)
        (next_of_leaf pre (by simp) hyk hzk)
      rw [e1]
      simp only [Res.bind_ok]
      rw [← hA] at mp
      have hsv0 : t.h.values p A.length = sv := by have := r3.at; rw [hA, ← hva]; exact this
      obtain ⟨st, -⟩ := merge_step cmp pre (by omega) mp hyl hzl
      have hjv := view_join mp hsv0 hyk hzk hyl hzl (by omega) ad.py ad.pz ad.yz
      obtain ⟨o1, o2⟩ := kids_unchanged (t' := t1) pre (fun q h1 h2 _ => by
        constructor
        · rw [mp.isLeaf]
        · rw [mp.num]; simp [h1, h2]
        · funext j; rw [mp.values]; simp [h1, h2]
        · funext j; rw [mp.children]; simp [h1, h2])
      have hjl := join_length hdeg y z sv hyl hzl
      have pre1 := st.pre pre
      have hd1 := st.degree
      have hroom' := roomy_of_le (by omega) (y.join sv z) (show t1.degree ≤ _ by omega)
      have hih := ih t1 (y.join sv z) _ _ pre1.kid (by omega) (by omega) hroom'
      have hn := Does.node pre1 (by omega) (by omega) hroom' hih
      rw [join_ptr, hd1] at hn
      obtain rfl : A = [] := List.length_eq_zero_iff.1 (by omega)
      obtain rfl : va = [] := List.length_eq_zero_iff.1 (by omega)
      rw [view_inner pre.rep, List.map_append, List.map_cons, List.map_cons,
        FT.deleteBelow_node (vs1 := vb') (A := []) (k := view t1.h d y.ptr) (B := B'.map (fun k => view t1.h d k.ptr)) ?_]
      · simpa using hn
      · have hp := FT.prepare_mergeR (M := t.degree) (vb := vb') (v := sv) (B := B'.map (fun k => view t.h d k.ptr))
          (z := view t.h d z.ptr) (k := view t.h d y.ptr) (by rw [view_num hyk]; exact hyl) (by rw [view_num hzk]; omega)
        rw [hjv] at hp
        rw [hbe, hi0]
        simp only [List.map_nil, List.nil_append]
        rw [hp, o2]
        rfl
    rw [deleteNonOne]
    simp only [getLeaf, r1, Res.bind_ok, getNum, r2, h1, Bool.false_eq_true, if_false, hkidy, hyk.num_eq]
    have hle := hyo.1.1
    by_cases hym : y.vals.length = t.degree - 1
    · have hlow : ∀ x ∈ ks, ¬ t.degree - 1 < x.vals.length → x.vals.length = t.degree - 1 := by
        intro x hx h
        have := (hocc x hx).1.1
        omega
      by_cases h0 : 0 < i
      · obtain ⟨A', s, hA', es⟩ := hs h0
        have hsn := (r6 s (by simp [hks, hA'])).num_eq
        by_cases hin : i < vs.length
        · obtain ⟨z, B', hB', ez⟩ := hz hin
          have hzn := (r6 z (by simp [hks, hB'])).num_eq
          simp only [hin, h0, if_true, es, ez, Res.bind_ok, hsn, hzn, hym, true_and]
          by_cases c1 : t.degree - 1 < s.vals.length
          · rw [if_pos c1]; exact hRight A' s hA' h0 hym c1
          · rw [if_neg c1]
            by_cases c2 : t.degree - 1 < z.vals.length
            · rw [if_pos c2]; exact hLeft z B' hB' hin hym c2 (fun A2 s2 h => by rw [hA'] at h; have := (List.append_inj' h rfl).2; simp at this; rw [← this]; exact c1)
            · rw [if_neg c2]
              exact hMergeS A' s hA' h0 hym (hlow s (by simp [hks, hA']) c1) (by omega) (fun z2 B2 h _ => by rw [hB'] at h; simp at h; rw [← h.1]; exact c2)
        · simp only [hin, h0, if_true, if_false, es, Res.bind_ok, hsn, hym, true_and, false_and]
          by_cases c1 : t.degree - 1 < s.vals.length
          · rw [if_pos c1]; exact hRight A' s hA' h0 hym c1
          · rw [if_neg c1]
            refine hMergeS A' s hA' h0 hym (hlow s (by simp [hks, hA']) c1) ?_ (fun z2 B2 _ h => absurd h hin)
            by_contra hc
            have hv1 : vs.length = 1 := by omega
            obtain ⟨k, hk, hkl⟩ := (inner_roomy _ _ _ _).1 hroom hv1
            have hAl : A'.length = 0 := by rw [hA'] at hA; simp at hA; omega
            have hBl : B.length = 0 := by rw [hks] at r4; simp at r4; omega
            rw [hks, hA', List.length_eq_zero_iff.1 hAl, List.length_eq_zero_iff.1 hBl] at hk
            simp at hk
            rcases hk with rfl | rfl
            · exact hkl (hlow _ (by simp [hks, hA']) c1)
            · exact hkl hym
      · have hin : i < vs.length := by omega
        obtain ⟨z, B', hB', ez⟩ := hz hin
        have hzn := (r6 z (by simp [hks, hB'])).num_eq
        simp only [hin, h0, if_true, if_false, ez, Res.bind_ok, hzn, hym, true_and, false_and]
        by_cases c2 : t.degree - 1 < z.vals.length
        · rw [if_pos c2]; exact hLeft z B' hB' hin hym c2 (fun A2 s2 h => by rw [h] at hA; simp at hA; omega)
        · rw [if_neg c2]
          refine hMergeZ z B' hB' hin hym (hlow z (by simp [hks, hB']) c2) ?_ (by omega)
          by_contra hc
          have hv1 : vs.length = 1 := by omega
          obtain ⟨k, hk, hkl⟩ := (inner_roomy _ _ _ _).1 hroom hv1
          have hAl : A.length = 0 := by omega
          have hBl : B'.length = 0 := by rw [hks, hB'] at r4; simp at r4; omega
          rw [hks, hB', List.length_eq_zero_iff.1 hAl, List.length_eq_zero_iff.1 hBl] at hk
          simp at hk
          rcases hk with rfl | rfl
          · exact hkl hym
          · exact hkl (hlow _ (by simp [hks, hB']) c2)
    · have hd := hDirect (by omega)
      by_cases h0 : 0 < i
      · obtain ⟨A', s, hA', es⟩ := hs h0
        by_cases hin : i < vs.length
        · obtain ⟨z, B', hB', ez⟩ := hz hin
          simp only [hin, h0, if_true, es, ez, Res.bind_ok, hym, if_false]
          exact hd
        · simp only [hin, h0, if_true, es, Res.bind_ok, hym, if_false]
          exact hd
      · have hin : i < vs.length := by omega
        obtain ⟨z, B', hB', ez⟩ := hz hin
        simp only [hin, h0, if_true, ez, Res.bind_ok, hym, if_false]
        exact hd

end Gds.BPlus
