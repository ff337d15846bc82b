import Verif.BPlus.Calls
import Verif.BPlus.DeleteRoot

/-! Property C128: deletion with a comparator that has state. -/
namespace Gds.BPlus
open BT Tree
variable {K V E : Type} [Inhabited K] [Inhabited V]

/-- Nothing is known of the comparator: the order this one gives says nothing about which entry `Drop1` removes. -/
abbrev delCmp : Compare K := fun _ _ => -1

omit [Inhabited K] in
theorem delCmp_not [Inhabited K] : ¬ (delCmp : Compare K).Lawful := fun h => absurd (h.self default) (by simp [delCmp])

theorem findSlotE_any (cmp : EComp K E) (t : Tree K V) (q : Nat) (key : K) : ∀ (k i c : Nat) (e : E), i + k ≤ 2 * t.degree - 1 →
    ∃ r c' e', findSlotE (counted cmp) (c, e) t (some q) key i k = .ok (r, (c', e')) ∧ r ≤ i + k ∧ c' ≤ c + k := by
  intro k
  induction k with
  | zero => exact fun i c e _ => ⟨i, c, e, rfl, by omega, by omega⟩
  | succ k ih =>
    intro i c e hn
    have h1 : i < 2 * t.degree - 1 := by omega
    rw [findSlotE]
    simp only [getVal, h1, if_true, Res.bind_ok, counted]
    by_cases hc : (cmp (t.h.values q i).1 key e).1 < 0
    · simp only [hc, if_true]
      obtain ⟨r, c', e', h2, h3, h4⟩ := ih (i + 1) (c + 1) (cmp (t.h.values q i).1 key e).2 (by omega)
      exact ⟨r, c', e', h2, by omega, by omega⟩
    · simp only [hc, if_false]
      exact ⟨i, _, _, rfl, by omega, by omega⟩

/-- A call that deletes something below the inner node `b`, or stops at an index out of range. -/
def DelOkE {d : Nat} (key : K) (t : Tree K V) (b : BT K V (d + 1)) (X Y : List Nat) (c : Nat) (r : Res (Tree K V × Nat × E)) : Prop :=
  (∃ t' b' c' e', r = .ok (t', (c', e')) ∧ DelPost delCmp key t t' b b' X Y ∧ 1 ≤ b'.vals.length ∧ c' ≤ c + (d + 1 + 1) * (2 * t.degree)) ∨
  r = .panic .indexOutOfRange

theorem deleteNonOneE_leaf (cmp : EComp K E) (key : K) (t : Tree K V) (p : Nat) (vs : List (K × V)) (X Y : List Nat) (c : Nat) (e : E)
    (pre : Pre t (leaf p vs) X Y) (hlen : vs.length ≤ 2 * t.degree - 1) (hlo : 1 ≤ vs.length) :
    (∃ t' b' c' e', deleteNonOneE (counted cmp) (c, e) t (some p) key = .ok (t', (c', e')) ∧ DelPost delCmp key t t' (leaf p vs) b' X Y ∧
      c' ≤ c + 2 * t.degree) ∨
    deleteNonOneE (counted cmp) (c, e) t (some p) key = .panic .indexOutOfRange := by
  obtain ⟨r1, r2, r3, r4⟩ := (rep_leaf _ _ _).1 pre.rep
  have hdeg := pre.deg
  obtain ⟨i, c1, e1, h1, hi, hc1⟩ := findSlotE_any cmp t p key vs.length 0 c e (by omega)
  rw [Nat.zero_add] at hi
  obtain ⟨A, B, hA, hvs⟩ : ∃ A B, A.length = i ∧ vs = A ++ B := ⟨vs.take i, vs.drop i, by simp; omega, by simp⟩
  rw [deleteNonOneE]
  simp only [getLeaf, r1, Res.bind_ok, getNum, r2, h1, if_true, getVal]
  by_cases hb : i < 2 * t.degree - 1
  · simp only [hb, if_true, Res.bind_ok, counted]
    by_cases hc : (cmp key (t.h.values p i).1 e1).1 = 0
    · simp only [hc, if_true, setNum]
      rw [copyValsUp_eq _ _ _ _ _ _ (by omega) (by omega) (by omega)]
      simp only [Res.bind_ok]
      have key2 : ∀ (h' : Heap K V) (vs' : List (K × V)) (P : List (K × V)) (x : K × V) (S : List (K × V)), vs = P ++ x :: S → vs' = P ++ S →
          h'.next = t.h.next → h'.prev = t.h.prev → (∀ q, q ≠ p → SameAt t.h h' q) → Rep h' (leaf p vs') →
          DelPost delCmp key t { t with h := h', size := t.size - 1 } (leaf p vs) (leaf p vs') X Y := by
        intro h' vs' P x S hv hv' hn hp hsame hrep
        have hl : vs'.length + 1 = vs.length := by rw [hv, hv']; simp; omega
        refine ⟨hrep, rfl, rfl, rfl, rfl, by simp, fun q hq => hq, List.Sublist.refl _, fun q hq => hsame q (by simpa using hq), trivial, by simp; omega,
          Or.inr ⟨rfl, by simp; omega⟩, pre.ring.congr (fun q _ => by simp [hn, hp]), fun hl => absurd hl delCmp_not,
          ⟨_, fun _ => rfl, Or.inl rfl, Or.inr ⟨P, x, S, by simp [hv], by simp [hv'], Or.inr (by simp [delCmp])⟩⟩⟩
      cases B with
      | nil =>
        rcases List.eq_nil_or_concat vs with rfl | ⟨vs2, x, hx⟩
        · simp at hlo
        left
        refine ⟨_, leaf p vs2, _, _, rfl, key2 _ vs2 vs2 x [] (by simpa using hx) (by simp) rfl rfl (fun q hq => ⟨rfl, by simp [hq], by funext j; simp [hq], rfl⟩) ?_, by omega⟩
        simp only [List.append_nil] at hvs
        have hv2 : vs2.length + 1 = vs.length := by rw [hx]; simp
        refine (rep_leaf _ _ _).2 ⟨r1, by simp; omega, ?_, r4⟩
        have : vs2 = vs.take vs2.length := by rw [hx]; simp
        rw [this]
        refine (r3.take _).of_eq (fun j hj => ?_)
        simp at hj
        have hAl : i = vs.length := by rw [← hA, hvs]
        have : ¬ i ≤ j := by omega
        simp [this]
      | cons b B =>
        left
        refine ⟨_, leaf p (A ++ B), _, _, rfl, key2 _ (A ++ B) A b B hvs rfl rfl rfl (fun q hq => ⟨rfl, by simp [hq], by funext j; simp [hq], rfl⟩) ?_, by omega⟩
        subst hvs
        refine (rep_leaf _ _ _).2 ⟨r1, by simp, ?_, r4⟩
        refine r3.erase (fun j hj => ?_)
        simp only [true_and, hA]
        simp at hlen hi
        by_cases hji : j < i
        · rw [if_neg (by omega), if_pos hji]
        · rw [if_pos (by omega), if_neg hji]
          congr 1; omega
    · simp only [hc, if_false]
      left
      exact ⟨t, leaf p vs, _, _, rfl, ⟨pre.rep, rfl, rfl, rfl, rfl, pre.nodup, fun q hq => hq, List.Sublist.refl _, fun q _ => SameAt.refl _ _, pre.occ, by omega,
        Or.inl ⟨rfl, rfl⟩, pre.ring, fun _ _ _ _ hs => hs, ⟨_, fun _ => rfl, Or.inl rfl, Or.inl rfl⟩⟩, by omega⟩
  · right
    simp only [hb, if_false]
    rfl

set_option maxHeartbeats 3200000 in
/-- bplustree.go:343-392: deleting below a node. -/
theorem deleteNonOneE_any (cmp : EComp K E) (key : K) : ∀ (d : Nat) (t : Tree K V) (b : BT K V d) (X Y : List Nat) (c : Nat) (e : E), Pre t b X Y →
    b.vals.length ≤ 2 * t.degree - 1 → 1 ≤ b.vals.length → b.Roomy t.degree →
    (∃ t' b' c' e', deleteNonOneE (counted cmp) (c, e) t (some b.ptr) key = .ok (t', (c', e')) ∧ DelPost delCmp key t t' b b' X Y ∧ (d ≠ 0 → 1 ≤ b'.vals.length) ∧
      c' ≤ c + (d + 1) * (2 * t.degree)) ∨
    deleteNonOneE (counted cmp) (c, e) t (some b.ptr) key = .panic .indexOutOfRange := by
  intro d
  induction d with
  | zero =>
    intro t b X Y c e pre hhi hlo _
    obtain ⟨p, vs, rfl⟩ := exists_leaf b
    rcases deleteNonOneE_leaf cmp key t p vs X Y c e pre hhi hlo with ⟨t', b', c', e', h1, h2, h3⟩ | h
    · exact Or.inl ⟨t', b', c', e', h1, h2, by simp, by omega⟩
    · exact Or.inr h
  | succ d ih =>
    intro t b X Y c e pre hhi hlo hroom
    obtain ⟨p, vs, ks, rfl⟩ := exists_inner b
    simp only [inner_vals, inner_ptr] at hhi hlo ⊢
    obtain ⟨r1, r2, r3, r4, r5, r6⟩ := (rep_inner _ _ _ _).1 pre.rep
    obtain ⟨i, c1, e1, h1, hi, hc1⟩ := findSlotE_any cmp t p key vs.length 0 c e (by omega)
    rw [Nat.zero_add] at hi
    have hdeg := pre.deg
    have hocc := (inner_kidsOcc _ _ _ _).1 pre.occ
    have hkid : ∀ j (hj : j < ks.length), t.h.children p j = some ks[j].ptr := by
      intro j hj
      rw [r5 j (by simpa using hj)]
      simp
    have hpk : i < ks.length := by omega
    obtain ⟨va, vb, hva, hvs⟩ : ∃ va vb, va.length = i ∧ vs = va ++ vb := ⟨vs.take i, vs.drop i, by simp; omega, by simp⟩
    obtain ⟨A, y, B, hA, hks⟩ : ∃ A y B, A.length = i ∧ ks = A ++ y :: B :=
      ⟨ks.take i, ks[i], ks.drop (i + 1), by simp; omega, by rw [← List.drop_eq_getElem_cons hpk]; simp⟩
    have hyp : t.h.children p i = some y.ptr := by
      rw [hkid i hpk]; subst hks; simp [← hA]
    have hmul : (d + 1 + 1) * (2 * t.degree) = (d + 1) * (2 * t.degree) + 2 * t.degree := by rw [Nat.add_mul (d + 1) 1, Nat.one_mul]
    suffices hsuff : DelOkE key t (inner p vs ks) X Y c (deleteNonOneE (counted cmp) (c, e) t (some p) key) by
      rcases hsuff with ⟨t', b', c', e', f1, f2, f3, f4⟩ | h
      · exact Or.inl ⟨t', b', c', e', f1, f2, fun _ => f3, f4⟩
      · exact Or.inr h
    have hb1 : i < 2 * t.degree := by omega
    have hyk := r6 y (by simp [hks])
    have hyo := hocc y (by simp [hks])
    have hz : i < vs.length → ∃ z B', B = z :: B' ∧ t.getKid (some p) (i + 1) = .ok (some z.ptr) := by
      intro hin
      have hb2 : i + 1 < 2 * t.degree := by omega
      have hb3 : i + 1 < ks.length := by omega
      cases B with
      | nil => subst hks; simp at r4; omega
      | cons z B =>
        refine ⟨z, B, rfl, ?_⟩
        simp only [getKid, hkid (i + 1) hb3, hb2, if_true]
        subst hks
        have : (A ++ y :: z :: B)[i + 1] = z := by
          rw [List.getElem_append_right (by omega)]
          simp [← hA]
        rw [this]
    have hs : 0 < i → ∃ A' s, A = A' ++ [s] ∧ t.getKid (some p) (i - 1) = .ok (some s.ptr) := by
      intro hin
      have hb2 : i - 1 < 2 * t.degree := by omega
      have hb3 : i - 1 < ks.length := by omega
      rcases List.eq_nil_or_concat A with rfl | ⟨A, s, rfl⟩
      · simp at hA; omega
      · simp only [List.concat_eq_append] at *
        refine ⟨A, s, rfl, ?_⟩
        simp only [getKid, hkid (i - 1) hb3, hb2, if_true]
        subst hks
        have : (A ++ [s] ++ y :: B)[i - 1] = s := by
          simp at hA
          simp only [← hA]
          simp
        rw [this]
    have hkidy : t.getKid (some p) i = .ok (some y.ptr) := by
      simp only [getKid, hyp, hb1, if_true]
    -- the five ways to continue
    have hDirect : t.degree ≤ y.vals.length → DelOkE key t (inner p vs ks) X Y c (deleteNonOneE (counted cmp) (c1, e1) t (some y.ptr) key) := by
      intro hyl
      subst hks
      rcases ih t y _ _ c1 e1 pre.kid hyo.1.2 (by omega) (roomy_of_le hdeg y hyl) with ⟨t', y', c', e', e, post, -, hc'⟩ | e
      · exact Or.inl ⟨t', _, c', e', e, post.lift pre hyl, hlo, by omega⟩
      · exact Or.inr e
    have hRight : ∀ A' s, A = A' ++ [s] → 0 < i → y.vals.length = t.degree - 1 → t.degree - 1 < s.vals.length →
        DelOkE key t (inner p vs ks) X Y c (do let t ← shiftToRightChild t (some p) (some s.ptr) (some y.ptr) (i - 1); deleteNonOneE (counted cmp) (c1, e1) t (some y.ptr) key) := by
      intro A' s hA' hi0 hyl hsl
      obtain ⟨va', sv, hva'⟩ : ∃ va' sv, va = va' ++ [sv] := by
        rcases List.eq_nil_or_concat va with rfl | ⟨va', sv, rfl⟩
        · simp at hva; omega
        · exact ⟨va', sv, by simp⟩
      have hA'l : A'.length = i - 1 := by rw [hA'] at hA; simp at hA; omega
      have hva'l : va'.length = i - 1 := by rw [hva'] at hva; simp at hva; omega
      have evs : vs = va' ++ sv :: vb := by rw [hvs, hva']; simp
      have eks : ks = A' ++ s :: y :: B := by rw [hks, hA']; simp
      clear hvs hks
      subst evs eks
      have ad := addr pre.nodup
      have hso := hocc s (by simp)
      have hsk := r6 s (by simp)
      have hps : p ≠ s.ptr := fun e => ad.py (e ▸ ptr_mem_ids s)
      have hpy : p ≠ y.ptr := fun e => ad.pz (e ▸ ptr_mem_ids y)
      have hsy : s.ptr ≠ y.ptr := fun e => (List.nodup_append.1 ad.yz).2.2 _ (ptr_mem_ids s) _ (ptr_mem_ids y) e
      have hsn := hsk.num_eq
      have hyn := hyk.num_eq
      obtain ⟨t1, et1, rp⟩ := shiftToRightChild_post t p s.ptr y.ptr (i - 1) hps hpy hsy (by omega) (by omega) (by omega) (by omega) (by omega)
      rw [et1]
      simp only [Res.bind_ok]
      rw [← hA'l] at rp
      obtain ⟨s', y', sh, hy'l, hl0, hl1⟩ := right_shifted rp hsk hyk (by omega) hso.1.2 hyl hdeg hso.2 hyo.2 ad.py ad.pz ad.yz
      have st := shift_step pre (by omega) (rp.frame hps hpy) sh
      generalize hsv' : (if t.h.isLeaf y.ptr then t.h.values s.ptr (t.h.num s.ptr - 2) else t.h.values s.ptr (t.h.num s.ptr - 1)) = sv' at st
      have pre1 := st.pre pre
      have pre2 : Pre t1 (inner p (va' ++ sv' :: vb) ((A' ++ [s']) ++ y' :: B)) X Y := by simpa using pre1
      have hd1 := st.degree
      rcases ih t1 y' _ _ c1 e1 pre2.kid (by omega) (by omega) (roomy_of_le (by omega) y' (by omega)) with ⟨t', y2, c', e', e, post, -, hc'⟩ | e
      · rw [sh.ptrZ] at e
        refine Or.inl ⟨t', inner p (va' ++ sv' :: vb) ((A' ++ [s']) ++ y2 :: B), c', e', e, ?_, by simp; omega, by rw [hd1] at hc'; omega⟩
        have hl := post.lift pre2 (by omega)
        refine DelPost.after st (by simpa using hl) (by simp) ?_ ?_
        swap
        · exact fun h => absurd h delCmp_not
        obtain ⟨ms, hms, h1, h2⟩ := post.loss
        simp only [inner_entries, List.flatMap_append, List.flatMap_cons, List.flatMap_nil, List.append_nil, List.append_assoc]
        have hd2 := h2.inside (A'.flatMap entries ++ s'.entries) (B.flatMap entries)
        have hs2 := h1.inside (A'.flatMap entries ++ s'.entries) (B.flatMap entries)
        simp only [List.append_assoc] at hd2 hs2
        refine ⟨_, ?_, hd2⟩
        by_cases hd0 : d = 0
        · obtain ⟨P, x, w, S, e1, e2, -⟩ := hl0 hd0
          rw [hms hd0]
          refine Or.inr ⟨A'.flatMap entries ++ P, x, w, S ++ B.flatMap entries, ?_, ?_⟩
          · rw [← List.append_assoc s.entries, e1]; simp
          · rw [← List.append_assoc s'.entries, e2]; simp
        · rw [← List.append_assoc s'.entries y'.entries, hl1 hd0, List.append_assoc] at hs2
          exact hs2
      · rw [sh.ptrZ] at e
        exact Or.inr e
    have hLeft : ∀ z B', B = z :: B' → i < vs.length → y.vals.length = t.degree - 1 → t.degree - 1 < z.vals.length →
        DelOkE key t (inner p vs ks) X Y c (do let t ← shiftToLeftChild t (some p) (some y.ptr) (some z.ptr) i; deleteNonOneE (counted cmp) (c1, e1) t (some y.ptr) key) := by
      intro z B' hB' hin hyl hzl
      obtain ⟨sv, vb', hvb'⟩ : ∃ sv vb', vb = sv :: vb' := by
        cases vb with
        | nil => rw [hvs] at hin; simp at hin; omega
        | cons sv vb' => exact ⟨sv, vb', rfl⟩
      have evs : vs = va ++ sv :: vb' := by rw [hvs, hvb']
      have eks : ks = A ++ y :: z :: B' := by rw [hks, hB']
      clear hvs hks
      subst evs eks
      have ad := addr pre.nodup
      have hzo := hocc z (by simp)
      have hzk := r6 z (by simp)
      have hpy : p ≠ y.ptr := fun e => ad.py (e ▸ ptr_mem_ids y)
      have hpz : p ≠ z.ptr := fun e => ad.pz (e ▸ ptr_mem_ids z)
      have hyz : y.ptr ≠ z.ptr := fun e => (List.nodup_append.1 ad.yz).2.2 _ (ptr_mem_ids y) _ (ptr_mem_ids z) e
      have hzn := hzk.num_eq
      have hyn := hyk.num_eq
      obtain ⟨t1, et1, lp⟩ := shiftToLeftChild_post t p y.ptr z.ptr i hpy hpz hyz (by omega) (by omega) (by omega) (by omega) (by omega)
      rw [et1]
      simp only [Res.bind_ok]
      rw [← hA] at lp
      have hsv : t.h.values p A.length = sv := by have := r3.at; rw [hA, ← hva]; exact this
      obtain ⟨y', z', sh, hy'l, hent, hsub, hsrt⟩ := left_shifted lp hsv hyk hzk hyl (by omega) hzo.1.2 hdeg hyo.2 hzo.2 ad.py ad.pz ad.yz
      have st := shift_step pre (by omega) (lp.frame hpy hpz) sh
      generalize t.h.values z.ptr 0 = sv' at st hsub hsrt
      have kp : Keeps delCmp (inner p (va ++ sv :: vb') (A ++ y :: z :: B')) (inner p (va ++ sv' :: vb') (A ++ y' :: z' :: B')) := by
        have hAv : A.length = va.length := by omega
        refine ⟨?_, ?_, ?_⟩
        · simp only [inner_entries, List.flatMap_append, List.flatMap_cons]
          rw [← List.append_assoc y'.entries, hent, List.append_assoc]
        · intro x hx
          rw [inner_inter _ _ _ _ _ _ hAv, List.zip_cons_cons, List.flatMap_cons] at hx ⊢
          have := hsub x
          simp only [List.mem_append, List.mem_cons] at hx this ⊢
          tauto
        · intro hc P S hs
          rw [inner_inter _ _ _ _ _ _ hAv, List.zip_cons_cons, List.flatMap_cons] at hs ⊢
          have := hsrt delCmp hc (P ++ (A.zip va).flatMap (fun x => inter x.1 ++ [x.2])) ((vb'.zip B').flatMap (fun x => x.1 :: inter x.2) ++ S) (by simpa using hs)
          simpa using this
      have pre1 := st.pre pre
      have hd1 := st.degree
      rcases ih t1 y' _ _ c1 e1 pre1.kid (by omega) (by omega) (roomy_of_le (by omega) y' (by omega)) with ⟨t', y2, c', e', e, post, -, hc'⟩ | e
      · rw [sh.ptrY] at e
        refine Or.inl ⟨t', inner p (va ++ sv' :: vb') (A ++ y2 :: z' :: B'), c', e', e, ?_, by simp; omega, by rw [hd1] at hc'; omega⟩
        · have hp := post.lift pre1 (by omega)
          exact DelPost.after st hp (by simp) (by have := hp.damage; rwa [kp.entries] at this) (fun hc _ => kp.sorted hc)
      · rw [sh.ptrY] at e
        exact Or.inr e
    have hMergeS : ∀ A' s, A = A' ++ [s] → 0 < i → y.vals.length = t.degree - 1 → s.vals.length = t.degree - 1 → 2 ≤ vs.length →
        DelOkE key t (inner p vs ks) X Y c (do let t ← mergeChild t (some p) (some s.ptr) (some y.ptr) (i - 1); deleteNonOneE (counted cmp) (c1, e1) t (some s.ptr) key) := by
      intro A' s hA' hi0 hyl hsl hvl
      obtain ⟨va', sv, hva'⟩ : ∃ va' sv, va = va' ++ [sv] := by
        rcases List.eq_nil_or_concat va with rfl | ⟨va', sv, rfl⟩
        · simp at hva; omega
        · exact ⟨va', sv, by simp⟩
      have hA'l : A'.length = i - 1 := by rw [hA'] at hA; simp at hA; omega
      have hva'l : va'.length = i - 1 := by rw [hva'] at hva; simp at hva; omega
      have evs : vs = va' ++ sv :: vb := by rw [hvs, hva']; simp
      have eks : ks = A' ++ s :: y :: B := by rw [hks, hA']; simp
      clear hvs hks
      subst evs eks
      have ad := addr pre.nodup
      have hso := hocc s (by simp)
      have hsk := r6 s (by simp)
      have hps : p ≠ s.ptr := fun e => ad.py (e ▸ ptr_mem_ids s)
      have hpy : p ≠ y.ptr := fun e => ad.pz (e ▸ ptr_mem_ids y)
      have hsy : s.ptr ≠ y.ptr := fun e => (List.nodup_append.1 ad.yz).2.2 _ (ptr_mem_ids s) _ (ptr_mem_ids y) e
      have hsn := hsk.num_eq
      have hyn := hyk.num_eq
      obtain ⟨t1, et1, mp⟩ := mergeChild_post t p s.ptr y.ptr (i - 1) hps hpy hsy (by omega) (by omega) (by omega)
        (next_of_leaf pre (by simp) hsk hyk)
      rw [et1]
      simp only [Res.bind_ok]
      rw [← hA'l] at mp
      obtain ⟨st, kp⟩ := merge_step delCmp pre (by omega) mp hsl hyl
      have hjl := join_length hdeg s y sv hsl hyl
      have pre1 := st.pre pre
      have hd1 := st.degree
      rcases ih t1 (s.join sv y) _ _ c1 e1 pre1.kid (by omega) (by omega) (roomy_of_le (by omega) _ (by omega)) with ⟨t', y2, c', e', e, post, -, hc'⟩ | e
      · rw [join_ptr] at e
        refine Or.inl ⟨t', inner p (va' ++ vb) (A' ++ y2 :: B), c', e', e, ?_, by simp at hvl ⊢; omega, by rw [hd1] at hc'; omega⟩
        have hp := post.lift pre1 (by omega)
        exact DelPost.after st hp (by simp; omega) (by have := hp.damage; rwa [kp.entries] at this) (fun hc _ => kp.sorted hc)
      · rw [join_ptr] at e
        exact Or.inr e
    have hMergeZ : ∀ z B', B = z :: B' → i < vs.length → y.vals.length = t.degree - 1 → z.vals.length = t.degree - 1 → 2 ≤ vs.length →
        DelOkE key t (inner p vs ks) X Y c (do let t ← mergeChild t (some p) (some y.ptr) (some z.ptr) i; deleteNonOneE (counted cmp) (c1, e1) t (some y.ptr) key) := by
      intro z B' hB' hin hyl hzl hvl
      obtain ⟨sv, vb', hvb'⟩ : ∃ sv vb', vb = sv :: vb' := by
        cases vb with
        | nil => rw [hvs] at hin; simp at hin; omega
        | cons sv vb' => exact ⟨sv, vb', rfl⟩
      have evs : vs = va ++ sv :: vb' := by rw [hvs, hvb']
      have eks : ks = A ++ y :: z :: B' := by rw [hks, hB']
      clear hvs hks
      subst evs eks
      have ad := addr pre.nodup
      have hzo := hocc z (by simp)
      have hzk := r6 z (by simp)
      have hpy : p ≠ y.ptr := fun e => ad.py (e ▸ ptr_mem_ids y)
      have hpz : p ≠ z.ptr := fun e => ad.pz (e ▸ ptr_mem_ids z)
      have hyz : y.ptr ≠ z.ptr := fun e => (List.nodup_append.1 ad.yz).2.2 _ (ptr_mem_ids y) _ (ptr_mem_ids z) e
      have hzn := hzk.num_eq
      have hyn := hyk.num_eq
      obtain ⟨t1, et1, mp⟩ := mergeChild_post t p y.ptr z.ptr i hpy hpz hyz (by omega) (by omega) (by omega)
        (next_of_leaf pre (by simp) hyk hzk)
      rw [et1]
      simp only [Res.bind_ok]
      rw [← hA] at mp
      obtain ⟨st, kp⟩ := merge_step delCmp pre (by omega) mp hyl hzl
      have hjl := join_length hdeg y z sv hyl hzl
      have pre1 := st.pre pre
      have hd1 := st.degree
      rcases ih t1 (y.join sv z) _ _ c1 e1 pre1.kid (by omega) (by omega) (roomy_of_le (by omega) _ (by omega)) with ⟨t', y2, c', e', e, post, -, hc'⟩ | e
      · rw [join_ptr] at e
        refine Or.inl ⟨t', inner p (va ++ vb') (A ++ y2 :: B'), c', e', e, ?_, by simp at hvl ⊢; omega, by rw [hd1] at hc'; omega⟩
        · have hp := post.lift pre1 (by omega)
          exact DelPost.after st hp (by simp; omega) (by have := hp.damage; rwa [kp.entries] at this) (fun hc _ => kp.sorted hc)
      · rw [join_ptr] at e
        exact Or.inr e
    rw [deleteNonOneE]
    simp only [getLeaf, r1, Res.bind_ok, getNum, r2, h1, Bool.false_eq_true, if_false, hkidy, hyk.num_eq]
    have hle := hyo.1.1
    by_cases hym : y.vals.length = t.degree - 1
    · have hlow : ∀ x ∈ ks, ¬ t.degree - 1 < x.vals.length → x.vals.length = t.degree - 1 := by
        intro x hx h
        have := (hocc x hx).1.1
        omega
      by_cases h0 : 0 < i
      · obtain ⟨A', s, hA', es⟩ := hs h0
        have hsn := (r6 s (by simp [hks, hA'])).num_eq
        by_cases hin : i < vs.length
        · obtain ⟨z, B', hB', ez⟩ := hz hin
          have hzn := (r6 z (by simp [hks, hB'])).num_eq
          simp only [hin, h0, if_true, es, ez, Res.bind_ok, hsn, hzn, hym, true_and]
          by_cases c1 : t.degree - 1 < s.vals.length
          · rw [if_pos c1]; exact hRight A' s hA' h0 hym c1
          · rw [if_neg c1]
            by_cases c2 : t.degree - 1 < z.vals.length
            · rw [if_pos c2]; exact hLeft z B' hB' hin hym c2
            · rw [if_neg c2]
              exact hMergeS A' s hA' h0 hym (hlow s (by simp [hks, hA']) c1) (by omega)
        · simp only [hin, h0, if_true, if_false, es, Res.bind_ok, hsn, hym, true_and, false_and]
          by_cases c1 : t.degree - 1 < s.vals.length
          · rw [if_pos c1]; exact hRight A' s hA' h0 hym c1
          · rw [if_neg c1]
            refine hMergeS A' s hA' h0 hym (hlow s (by simp [hks, hA']) c1) ?_
            by_contra hc
            have hv1 : vs.length = 1 := by omega
            obtain ⟨k, hk, hkl⟩ := (inner_roomy _ _ _ _).1 hroom hv1
            have hAl : A'.length = 0 := by rw [hA'] at hA; simp at hA; omega
            have hBl : B.length = 0 := by rw [hks] at r4; simp at r4; omega
            rw [hks, hA', List.length_eq_zero_iff.1 hAl, List.length_eq_zero_iff.1 hBl] at hk
            simp at hk
            rcases hk with rfl | rfl
            · exact hkl (hlow _ (by simp [hks, hA']) c1)
            · exact hkl hym
      · have hin : i < vs.length := by omega
        obtain ⟨z, B', hB', ez⟩ := hz hin
        have hzn := (r6 z (by simp [hks, hB'])).num_eq
        simp only [hin, h0, if_true, if_false, ez, Res.bind_ok, hzn, hym, true_and, false_and]
        by_cases c2 : t.degree - 1 < z.vals.length
        · rw [if_pos c2]; exact hLeft z B' hB' hin hym c2
        · rw [if_neg c2]
          refine hMergeZ z B' hB' hin hym (hlow z (by simp [hks, hB']) c2) ?_
          by_contra hc
          have hv1 : vs.length = 1 := by omega
          obtain ⟨k, hk, hkl⟩ := (inner_roomy _ _ _ _).1 hroom hv1
          have hAl : A.length = 0 := by omega
          have hBl : B'.length = 0 := by rw [hks, hB'] at r4; simp at r4; omega
          rw [hks, hB', List.length_eq_zero_iff.1 hAl, List.length_eq_zero_iff.1 hBl] at hk
          simp at hk
          rcases hk with rfl | rfl
          · exact hkl hym
          · exact hkl (hlow _ (by simp [hks, hB']) c2)
    · have hd := hDirect (by omega)
      by_cases h0 : 0 < i
      · obtain ⟨A', s, hA', es⟩ := hs h0
        by_cases hin : i < vs.length
        · obtain ⟨z, B', hB', ez⟩ := hz hin
          simp only [hin, h0, if_true, es, ez, Res.bind_ok, hym, if_false]
          exact hd
        · simp only [hin, h0, if_true, es, Res.bind_ok, hym, if_false]
          exact hd
      · have hin : i < vs.length := by omega
        obtain ⟨z, B', hB', ez⟩ := hz hin
        simp only [hin, h0, if_true, ez, Res.bind_ok, hym, if_false]
        exact hd

/-- The effect of a deletion on a whole tree, when nothing is known of the comparator. -/
structure RootAny {d d' : Nat} (key : K) (t t' : Tree K V) (b : BT K V d) (b' : BT K V d') : Prop where
  good : Good t' b'
  degree : t'.degree = t.degree
  damage : Damage delCmp key b.entries b'.entries

theorem rootAny_of_del {d : Nat} {key : K} {t t' : Tree K V} {b b' : BT K V d} (g : Good t b) (post : DelPost delCmp key t t' b b' [] [])
    (hl : d ≠ 0 → 1 ≤ b'.vals.length) (hc : b.entries ≠ []) : RootAny key t t' b b' := by
  have hlen := post.len
  have hhi := g.hi
  have hn : 1 ≤ b.entries.length := List.length_pos_iff.2 hc
  refine ⟨⟨by rw [post.root, g.root, post.ptr], post.pre g.pre, by rw [post.degree]; omega, hl, ?_⟩, post.degree, post.damage⟩
  have := post.count
  have := g.size
  omega

/-- bplustree.go:322-341 -/
theorem deleteRootE_any (cmp : EComp K E) (key : K) (t : Tree K V) {d : Nat} (b : BT K V d) (g : Good t b) (hpos : 1 ≤ b.vals.length) (c : Nat) (e : E) :
    (∃ t' d' c' e', ∃ b' : BT K V d', deleteRootE (counted cmp) (c, e) t key = .ok (t', (c', e')) ∧ RootAny key t t' b b' ∧
      c' ≤ c + (d + 1) * (2 * t.degree)) ∨
    deleteRootE (counted cmp) (c, e) t key = .panic .indexOutOfRange := by
  have pre := g.pre
  have hdeg := pre.deg
  have hne := entries_ne_nil hdeg b pre.rep pre.occ hpos
  have hgo : b.Roomy t.degree → ((∃ t' d' c' e', ∃ b' : BT K V d', deleteNonOneE (counted cmp) (c, e) t (some b.ptr) key = .ok (t', (c', e')) ∧ RootAny key t t' b b' ∧
      c' ≤ c + (d + 1) * (2 * t.degree)) ∨
    deleteNonOneE (counted cmp) (c, e) t (some b.ptr) key = .panic .indexOutOfRange) := by
    intro hr
    rcases deleteNonOneE_any cmp key d t b [] [] c e pre g.hi hpos hr with ⟨t', b', c', e', f, post, hl, hc'⟩ | h
    · exact Or.inl ⟨t', d, c', e', b', f, rootAny_of_del g post hl hne, hc'⟩
    · exact Or.inr h
  have hb0 : 0 < 2 * t.degree := by omega
  have hb1 : 1 < 2 * t.degree := by omega
  unfold deleteRootE
  simp only [g.root, getNum, Res.bind_ok, pre.rep.num_eq, getKid, hb0, hb1, if_true]
  by_cases h1 : 1 = b.vals.length
  · rw [if_pos h1]
    cases d with
    | zero =>
      obtain ⟨p, vs, rfl⟩ := exists_leaf b
      obtain ⟨r1, r2, r3, r4⟩ := (rep_leaf _ _ _).1 pre.rep
      simp only [leaf_ptr, r4, ne_eq, not_true_eq_false, false_and, if_false]
      exact hgo trivial
    | succ d =>
      obtain ⟨p, vs, ks, rfl⟩ := exists_inner b
      obtain ⟨r1, r2, r3, r4, r5, r6⟩ := (rep_inner _ _ _ _).1 pre.rep
      have hocc := (inner_kidsOcc _ _ _ _).1 pre.occ
      simp only [inner_vals] at h1
      obtain ⟨sv, rfl⟩ := List.length_eq_one_iff.1 h1.symm
      obtain ⟨y, z, rfl⟩ := List.length_eq_two.1 (show ks.length = 2 by simpa using r4)
      have hy0 : t.h.children p 0 = some y.ptr := r5 0 (by simp)
      have hz0 : t.h.children p 1 = some z.ptr := r5 1 (by simp)
      have hyk := r6 y (by simp)
      have hzk := r6 z (by simp)
      simp only [inner_ptr, hy0, hz0, ne_eq, reduceCtorEq, not_false_eq_true, and_self, if_true, Res.bind_ok, hyk.num_eq, hzk.num_eq]
      by_cases hc : t.degree - 1 = y.vals.length ∧ t.degree - 1 = z.vals.length
      · simp only [hc.1.symm, hc.2.symm, and_self, if_true]
        have ad := addr (A := []) (B := []) pre.nodup
        have hpy : p ≠ y.ptr := fun e => ad.py (e ▸ ptr_mem_ids y)
        have hpz : p ≠ z.ptr := fun e => ad.pz (e ▸ ptr_mem_ids z)
        have hyz : y.ptr ≠ z.ptr := fun e => (List.nodup_append.1 ad.yz).2.2 _ (ptr_mem_ids y) _ (ptr_mem_ids z) e
        obtain ⟨t1, e1, mp⟩ := mergeChild_post t p y.ptr z.ptr 0 hpy hpz hyz (by omega) (by rw [r2]; simp) (by rw [r2]; simp; omega)
          (next_of_leaf pre (by simp) hyk hzk)
        rw [e1]
        simp only [Res.bind_ok]
        obtain ⟨st, kp⟩ := merge_step delCmp (A := []) (B := []) (va := []) (vb := []) pre rfl mp hc.1.symm hc.2.symm
        simp only [List.nil_append] at st kp
        have hjl := join_length hdeg y z sv hc.1.symm hc.2.symm
        have pre1 := st.pre pre
        have hd1 := st.degree
        have prek : Pre t1 (y.join sv z) [] [] := by simpa using Pre.kid (A := []) (B := []) pre1
        have hent : (y.join sv z).entries = (inner p [sv] [y, z]).entries := by rw [join_entries]; simp
        have hroomy := roomy_of_le (by omega) _ hjl.1
        rcases deleteNonOneE_any cmp key d t1 (y.join sv z) [] [] c e prek (by omega) (by omega) (by rw [hd1]; exact hroomy) with ⟨t', b', c', e', f, post, hl, hc'⟩ | f
        · rw [join_ptr] at f
          rw [f]
          left
          refine ⟨_, d, c', e', b', rfl, ?_, ?_⟩
          · have hp := post.pre prek
            have hlen := post.len
            have hcnt := post.count
            have hn : 1 ≤ (inner p [sv] [y, z]).entries.length := List.length_pos_iff.2 hne
            rw [hent] at hcnt
            refine ⟨⟨?_, ⟨hp.rep, hp.nodup, hp.lt, hp.deg, hp.occ, hp.ring, hp.rnodup, hp.rlt⟩, ?_, hl, ?_⟩, ?_, by rw [← hent]; exact post.damage⟩
            · show some y.ptr = _
              rw [post.ptr, join_ptr]
            · show _ ≤ 2 * t'.degree - 1
              rw [post.degree]; omega
            · show t'.size = _
              have := st.size; have := g.size
              omega
            · show t'.degree = _
              rw [post.degree, hd1]
          · rw [hd1] at hc'
            have : (d + 1 + 1) * (2 * t.degree) = (d + 1) * (2 * t.degree) + 2 * t.degree := by rw [Nat.add_mul (d + 1) 1, Nat.one_mul]
            omega
        · rw [join_ptr] at f
          rw [f]
          exact Or.inr rfl
      · rw [if_neg hc]
        refine hgo ?_
        rw [inner_roomy]
        intro _
        by_contra hcon
        push Not at hcon
        exact hc ⟨(hcon y (by simp)).symm, (hcon z (by simp)).symm⟩
  · rw [if_neg h1]
    refine hgo ?_
    cases d with
    | zero => trivial
    | succ d =>
      obtain ⟨p, vs, ks, rfl⟩ := exists_inner b
      rw [inner_roomy]
      intro h
      exact absurd h.symm h1

/-- bplustree.go:100-109 -/
theorem deleteE_any (cmp : EComp K E) (key : K) (t : Tree K V) {d : Nat} (b : BT K V d) (g : Good t b) (c : Nat) (e : E) :
    (∃ t' r d' c' e', ∃ b' : BT K V d', deleteE (counted cmp) (c, e) t key = .ok (t', r, (c', e')) ∧ Good t' b' ∧ t'.degree = t.degree ∧
      AnyStep b.entries (.delete key) (.deleted r) b'.entries ∧
      c' ≤ c + ((Nat.log t.degree b.entries.length + 1) * (Nat.log 2 (2 * t.degree - 1) + 1) + (Nat.log t.degree b.entries.length + 1) * (2 * t.degree))) ∨
    deleteE (counted cmp) (c, e) t key = .panic .indexOutOfRange := by
  obtain ⟨q, i, ex, c1, e1, h1, h2, h3, h4⟩ := searchE_any cmp t b g key c e
  cases ex with
  | false =>
    exact Or.inl ⟨t, false, d, c1, e1, b, by simp [deleteE, containsKeyE, h1], g, rfl, .kept _ _, by omega⟩
  | true =>
    have hne : b.entries ≠ [] := fun h => by have := h3 h; simp at this
    have hpos : 1 ≤ b.vals.length := by
      cases d with
      | zero =>
        obtain ⟨p, vs, rfl⟩ := exists_leaf b
        simp at hne ⊢
        exact List.length_pos_iff.2 hne
      | succ d => exact g.lo (by omega)
    have hdep := g.depth
    rcases deleteRootE_any cmp key t b g hpos c1 e1 with ⟨t', d', c', e', b', f, ra, hc'⟩ | f
    · refine Or.inl ⟨t', true, d', c', e', b', by simp [deleteE, containsKeyE, h1, f], ra.good, ra.degree, ?_, ?_⟩
      · obtain ⟨ms, hs, hd⟩ := ra.damage
        refine .deleted _ _ ms _ hne hs ?_
        rcases hd with h | ⟨P, x, S, h5, h6, -⟩
        · exact Or.inl h
        · exact Or.inr ⟨P, x, S, h5, h6⟩
      · have := Nat.mul_le_mul_right (2 * t.degree) (Nat.succ_le_succ hdep)
        simp only [Nat.succ_eq_add_one] at this
        omega
    · exact Or.inr (by simp [deleteE, containsKeyE, h1, f])

end Gds.BPlus
