import Verif.SkipList.AnySteps

/-! Property C131, the calls: every call under any comparator, from any state of the invariant. -/
namespace Gds.SkipList
variable {K V E : Type}

/-- At most `m` entries of `L` are gone, the others are in the same order. -/
def Lost (m : Nat) (L L' : List (K × V)) : Prop := L'.Sublist L ∧ L.length ≤ L'.length + m

theorem Shrunk.lost {L L' : List (K × V)} (h : Shrunk L L') : Lost 1 L L' := by
  rcases h with rfl | ⟨A, p, B, rfl, rfl⟩
  · exact ⟨List.Sublist.refl _, by omega⟩
  · refine ⟨?_, by simp; omega⟩
    exact (List.Sublist.refl A).append (List.sublist_cons_self p B)

theorem Lost.trans {a b : Nat} {L M N : List (K × V)} (h : Lost a L M) (h' : Lost b M N) : Lost (a + b) L N :=
  ⟨h'.1.trans h.1, by have := h.2; have := h'.2; omega⟩

theorem Lost.refl (m : Nat) (L : List (K × V)) : Lost m L L := ⟨List.Sublist.refl _, by omega⟩

section
variable {zk : K} {zv : V} {s : St K V} {n : Nat} {I : List (K × V)}

theorem dupE_calls (cmp : EComp K E) (s : St K V) (key : K) (uniq : Bool) (f : Option Nat) (c : Nat) (e : E) :
    ∃ b c' e', dupE (counted cmp) s key uniq f (c, e) = (b, (c', e')) ∧ c' ≤ c + 1 ∧ (b = true → uniq = true) := by
  unfold dupE counted
  cases uniq with
  | false => exact ⟨_, _, _, rfl, by omega, fun h => by simp at h⟩
  | true =>
    cases f with
    | none => exact ⟨_, _, _, rfl, by omega, fun _ => rfl⟩
    | some y => exact ⟨_, _, _, rfl, by omega, fun _ => rfl⟩

theorem Sound.insertE (S : Sound zk zv s n I) (cmp : EComp K E) (k : K) (v : V) (uniq : Bool) (d : UInt64) (c : Nat) (e : E) {L : List (K × V)} (hL : Listed s L) :
    ∃ s' b c' e', SkipList.insertE (counted cmp) s k v uniq d (c, e) = .ok ((s', b), (c', e')) ∧ c' ≤ c + s.level * n + 1 ∧
      (b = false → s' = s ∧ uniq = true) ∧
      (b = true → Sound zk zv s' (n + 1) ((k, v) :: I) ∧ s'.size = s.size + 1 ∧ ∃ L', Listed s' L' ∧ Grown (k, v) L L') := by
  have hl1 := S.l1
  obtain ⟨x, u, c1, e1, f1, f2, f3, f4, U, f5, f6⟩ := S.descend (· = 0) cmp k s.level S.l32 s.header S.hdr (by rw [S.hh]; exact S.l32) 0 .empty c e
  obtain ⟨m1, m2, m3⟩ := f5 0 hl1
  obtain ⟨b, c2, e2, g1, g2, g3⟩ := dupE_calls cmp s k uniq (s.fwd (U 0) 0) c1 e1
  unfold SkipList.insertE
  rw [f1]
  simp only [Res.bind_ok, m1, deref, St.getFwd, if_pos m3, g1]
  cases b with
  | true =>
    exact ⟨s, false, c2, e2, rfl, by omega, fun _ => ⟨rfl, g3 rfl⟩, fun h => by cases h⟩
  | false =>
    obtain ⟨H, h1, h2, h3⟩ := randomLevel_ok d
    obtain ⟨s', i1, i2, i3, i4⟩ := S.insertAt f5 k v H h2 h3
    simp only [h1, Res.bind_ok, i1]
    exact ⟨s', true, c2, e2, rfl, by omega, fun h => (by cases h), fun _ => ⟨i2, i3, i4 L hL⟩⟩

theorem Sound.deleteE (S : Sound zk zv s n I) (cmp : EComp K E) (k : K) (c : Nat) (e : E) {L : List (K × V)} (hL : Listed s L) :
    ∃ s' b c' e', SkipList.deleteE (counted cmp) s k (c, e) = .ok ((s', b), (c', e')) ∧ c' ≤ c + s.level * n + 1 ∧ s'.level ≤ s.level ∧
      Sound zk zv s' n I ∧ (b = false → s' = s) ∧ (b = true → s'.size = s.size - 1 ∧ ∃ L', Listed s' L' ∧ Lost 1 L L') := by
  have hl1 := S.l1
  obtain ⟨x, u, c1, e1, f1, f2, f3, f4, U, f5, f6⟩ := S.descend (· = 0) cmp k s.level S.l32 s.header S.hdr (by rw [S.hh]; exact S.l32) 0 .empty c e
  have hx := f6 hl1
  subst hx
  obtain ⟨m1, m2, m3⟩ := f5 0 hl1
  unfold SkipList.deleteE
  rw [f1]
  simp only [Res.bind_ok, St.getFwd, if_pos m3]
  cases hf : s.fwd (U 0) 0 with
  | none => exact ⟨s, false, c1, e1, rfl, by omega, Nat.le_refl _, S, fun _ => rfl, fun h => by cases h⟩
  | some y =>
    simp only [counted]
    by_cases h : (cmp k (s.key y) e1).1 = 0
    · simp only [h, if_true]
      have hy := S.link _ _ _ m2 m3 hf
      obtain ⟨s', i1, i2, i3, i4, i5, i6, i7, i8⟩ := S.deleteNode (Nat.le_refl _) f5 y ⟨hy.1, hy.2.1⟩
      simp only [i1, Res.bind_ok]
      obtain ⟨L', j1, j2⟩ := i8 L hL
      exact ⟨s', true, c1 + 1, _, rfl, by omega, i4, i2, fun h => (by cases h), fun _ => ⟨i3, L', j1, j2.lost⟩⟩
    · simp only [h, if_false]
      exact ⟨s, false, c1 + 1, _, rfl, by omega, Nat.le_refl _, S, fun _ => rfl, fun h => by cases h⟩

theorem Sound.deleteByWholeMappingE (S : Sound zk zv s n I) (cmp : EComp K E) (k : K) (v : V) (vc : Compare V) (c : Nat) (e : E) {L : List (K × V)} (hL : Listed s L) :
    ∃ s' b c' e', SkipList.deleteByWholeMappingE (counted cmp) s k v vc (c, e) = .ok ((s', b), (c', e')) ∧ c' ≤ c + s.level * (n + 1) + (s.level * n + 1) ∧
      Sound zk zv s' n I ∧ (b = false → s' = s) ∧
      (s' = s ∨ (s'.size = s.size - 1 ∧ ∃ L', Listed s' L' ∧ Lost 1 L L')) := by
  obtain ⟨o, c1, e1, f1, f2, f3⟩ := S.search cmp k s.level s.header S.hdr (by rw [S.hh]; exact S.l32) 0 c e
  unfold SkipList.deleteByWholeMappingE
  rw [f1]
  simp only [Res.bind_ok]
  cases ho : o.1 with
  | none => exact ⟨s, false, c1, e1, rfl, by omega, S, fun _ => rfl, .inl rfl⟩
  | some y =>
    by_cases h : vc v (s.val y) = 0
    · simp only [h, if_true]
      obtain ⟨s', b, c2, e2, g1, g2, g3, g4, g5, g6⟩ := S.deleteE cmp k c1 e1 hL
      simp only [g1, Res.bind_ok]
      refine ⟨s', true, c2, e2, rfl, by omega, g4, fun h => (by cases h), ?_⟩
      cases b with
      | false => exact .inl (g5 rfl)
      | true => exact .inr (g6 rfl)
    · simp only [h, if_false]
      exact ⟨s, false, c1, e1, rfl, by omega, S, fun _ => rfl, .inl rfl⟩

theorem Sound.deleteKeysE (cmp : EComp K E) (ks : List K) : ∀ {s : St K V} (_ : Sound zk zv s n I) (r : Int) (c : Nat) (e : E) {L : List (K × V)} (_ : Listed s L),
    ∃ (s' : St K V) (m c' : Nat) (e' : E), SkipList.deleteKeysE (counted cmp) s ks r (c, e) = .ok ((s', r + m), (c', e')) ∧ m ≤ ks.length ∧
      c' ≤ c + ks.length * (s.level * n + 1) ∧ Sound zk zv s' n I ∧ s'.size = s.size - m ∧ ∃ L', Listed s' L' ∧ Lost m L L' := by
  induction ks with
  | nil => intro s S r c e L hL; exact ⟨s, 0, c, e, by simp [SkipList.deleteKeysE], by simp, by simp, S, by simp, L, hL, Lost.refl _ _⟩
  | cons k ks ih =>
    intro s S r c e L hL
    obtain ⟨s1, b, c1, e1, g1, g2, g3, g4, g5, g6⟩ := S.deleteE cmp k c e hL
    rw [SkipList.deleteKeysE, g1]
    simp only [Res.bind_ok]
    have hmul : s1.level * n ≤ s.level * n := Nat.mul_le_mul_right _ g3
    have hmul2 : ks.length * (s1.level * n + 1) ≤ ks.length * (s.level * n + 1) := Nat.mul_le_mul_left _ (by omega)
    cases b with
    | false =>
      obtain rfl := g5 rfl
      obtain ⟨s', m, c', e', a1, a2, a3, a4, a5, L', a6, a7⟩ := ih S r c1 e1 hL
      exact ⟨s', m, c', e', by simpa using a1, by simp; omega, by simp [Nat.succ_mul]; omega, a4, a5, L', a6, a7⟩
    | true =>
      obtain ⟨h1, L1, h2, h3⟩ := g6 rfl
      obtain ⟨s', m, c', e', a1, a2, a3, a4, a5, L', a6, a7⟩ := ih g4 (r + 1) c1 e1 h2
      refine ⟨s', m + 1, c', e', ?_, by simp; omega, by simp [Nat.succ_mul]; omega, a4, by rw [a5, h1]; push_cast; omega, L', a6, ?_⟩
      · simp only [if_true]; rw [a1]; congr 3; push_cast; omega
      · rw [Nat.add_comm]; exact h3.trans a7

theorem Sound.rangeLoopE (cmp : EComp K E) (max : K) {u : Upd} {U : Nat → Nat} {l : Nat} (N : List Nat) :
    ∀ {s : St K V} (_ : Sound zk zv s n I) (_ : s.level ≤ l) (_ : Marks s u l U) (o : Option Nat) (_ : Chain (fun y => s.fwd y 0) o N) (_ : ∀ z, z ∈ N → s.header < z ∧ z < s.alloc)
      (r : Nat) (c : Nat) (e : E) {L : List (K × V)} (_ : Listed s L),
    ∃ (s' : St K V) (m c' : Nat) (e' : E), SkipList.rangeLoopE (counted cmp) max u s o r (c, e) = .ok ((s', r + m), (c', e')) ∧ m ≤ N.length ∧ c' ≤ c + N.length ∧
      Sound zk zv s' n I ∧ s'.size = s.size - m ∧ ∃ L', Listed s' L' ∧ Lost m L L' := by
  induction hN : N.length using Nat.strong_induction_on generalizing N with
  | _ q ih =>
  intro s S hl M o hc hm r c e L hL
  cases hc with
  | nil =>
    rw [SkipList.rangeLoopE]
    exact ⟨s, 0, c, e, rfl, by omega, by omega, S, by simp, L, hL, Lost.refl _ _⟩
  | @cons y N hc =>
    have hy := hm y (by simp)
    have hyo : Own s y := ⟨by omega, hy.2⟩
    rw [SkipList.rangeLoopE]
    simp only [counted]
    by_cases h : (cmp (s.key y) max e).1 = -1
    · simp only [h, if_true, St.getFwd, if_pos (show 0 < s.height y from S.ht y hyo), Res.bind_ok]
      obtain ⟨s1, i1, i2, i3, i4, i5, i6, i7, i8⟩ := S.deleteNode hl M y hy
      obtain ⟨L1, j1, j2⟩ := i8 L hL
      simp only [i1, Res.bind_ok]
      have hnext : ∃ N1, Chain (fun y => s1.fwd y 0) (s.fwd y 0) N1 ∧ N1.length ≤ N.length ∧ ∀ z ∈ N1, s1.header < z ∧ z < s1.alloc := by
        have hmem : ∀ z ∈ N, s1.header < z ∧ z < s1.alloc := fun z hz => by rw [i6.1, i6.2.1]; exact hm z (by simp [hz])
        generalize s.fwd y 0 = o at hc
        cases hc with
        | nil => exact ⟨[], .nil, Nat.le_refl _, fun z hz => by cases hz⟩
        | @cons w N2 hc =>
          rcases i7 w 0 N2 hc with h3 | ⟨A, B, rfl, h3⟩
          · exact ⟨_, .cons h3, Nat.le_refl _, hmem⟩
          · refine ⟨_, .cons h3, by simp, fun z hz => hmem z ?_⟩
            simp at hz ⊢
            grind
      obtain ⟨N1, n1, n2, n3⟩ := hnext
      obtain ⟨s', m, c', e', a1, a2, a3, a4, a5, L', a6, a7⟩ := ih N1.length (by simp at hN; omega) N1 rfl i2 (by omega) i5 _ n1 n3 (r + 1) (c + 1)
        (cmp (s.key y) max e).2 j1
      simp at hN
      refine ⟨s', m + 1, c', e', ?_, by omega, by omega, a4, by rw [a5, i3]; push_cast; omega, L', a6, ?_⟩
      · rw [show r + (m + 1) = r + 1 + m by omega]; exact a1
      · rw [Nat.add_comm]; exact j2.lost.trans a7
    · simp only [h, if_false]
      simp at hN
      exact ⟨s, 0, c + 1, _, rfl, by omega, by omega, S, by simp, L, hL, Lost.refl _ _⟩

theorem Sound.deleteRangeByKeyE (S : Sound zk zv s n I) (cmp : EComp K E) (mn mx : K) (c : Nat) (e : E) {L : List (K × V)} (hL : Listed s L) :
    ∃ (s' : St K V) (m c' : Nat) (e' : E), SkipList.deleteRangeByKeyE (counted cmp) s mn mx (c, e) = .ok ((s', m), (c', e')) ∧ m ≤ n ∧ c' ≤ c + s.level * n + n ∧
      Sound zk zv s' n I ∧ s'.size = s.size - m ∧ ∃ L', Listed s' L' ∧ Lost m L L' := by
  have hl1 := S.l1
  obtain ⟨x, u, c1, e1, f1, f2, f3, f4, U, f5, f6⟩ := S.descend (· = -1) cmp mn s.level S.l32 s.header S.hdr (by rw [S.hh]; exact S.l32) 0 .empty c e
  have hx := f6 hl1
  subst hx
  obtain ⟨m1, m2, m3⟩ := f5 0 hl1
  obtain ⟨N, hN, hNn⟩ := S.fin _ _ m2 m3
  unfold SkipList.deleteRangeByKeyE
  rw [f1]
  simp only [Res.bind_ok, St.getFwd, if_pos m3]
  obtain ⟨s', m, c', e', a1, a2, a3, a4, a5, a6⟩ := Sound.rangeLoopE cmp mx N S (Nat.le_refl _) f5 _ hN (S.own_chain 0 N _ m2 m3 hN) 0 c1 e1 hL
  exact ⟨s', m, c', e', by simpa using a1, by omega, by omega, a4, a5, a6⟩

/-! ### First, Next and SetValue -/

theorem advance_chain {N : List Nat} {o : Option Nat} (S : Sound zk zv s n I) (hc : Chain (fun y => s.fwd y 0) o N) (hm : ∀ z ∈ N, s.header < z ∧ z < s.alloc) (i : Nat) :
    advance s i o = .ok N[i]? := by
  induction i generalizing o N with
  | zero => cases hc <;> simp [advance]
  | succ i ih =>
    cases hc with
    | nil => simp [advance]
    | @cons y N hc =>
      have hy := hm y (by simp)
      rw [advance]
      simp only [next, St.getFwd, if_pos (show 0 < s.height y from S.ht y ⟨by omega, hy.2⟩), Res.bind_ok]
      rw [ih hc (fun z hz => hm z (by simp [hz]))]
      simp

theorem Listed.unique {L L' : List (K × V)} (h : Listed s L) (h' : Listed s L') : L = L' := by
  obtain ⟨N, h1, rfl⟩ := h
  obtain ⟨N', h2, rfl⟩ := h'
  rw [h1.unique h2]

theorem Chain.nodup {f : Nat → Option Nat} {o : Option Nat} {N : List Nat} (h : Chain f o N) : N.Nodup := by
  induction h with
  | nil => exact List.nodup_nil
  | cons h ih => exact List.nodup_cons.2 ⟨h.notin, ih⟩

theorem Sound.setAt (S : Sound zk zv s n I) (i : Nat) (v : V) {L : List (K × V)} (hL : Listed s L) :
    ∃ o, nodeAt s i = .ok o ∧ match o with
      | none => L.length ≤ i
      | some x => ∃ k v', L[i]? = some (k, v') ∧ Sound zk zv (setValue s x v) n ((k, v) :: I) ∧ Listed (setValue s x v) (L.set i (k, v)) := by
  obtain ⟨N, hN, rfl⟩ := hL
  have h0 : 0 < s.height s.header := by rw [S.hh]; omega
  have hm := S.own_chain 0 N s.header S.hdr h0 hN
  refine ⟨N[i]?, ?_, ?_⟩
  · unfold nodeAt first
    simp only [St.getFwd, if_pos h0, Res.bind_ok]
    exact advance_chain S hN hm i
  · cases hx : N[i]? with
    | none => simpa using hx
    | some x =>
      obtain ⟨hi, hxi⟩ := List.getElem?_eq_some_iff.1 hx
      have hxm := hm x (hxi ▸ List.getElem_mem hi)
      refine ⟨s.key x, s.val x, by simp [hx], ?_, N, hN, ?_⟩
      · exact ⟨S.num, S.hh, S.l1, S.l32, S.ht, S.link, S.tail, S.back, S.fin, fun y h1 h2 => by
            by_cases h : y = x
            · subst h; simp [setValue]
            · simp only [setValue, h, if_false]; exact List.mem_cons_of_mem _ (S.ent y h1 h2),
          by have : s.header ≠ x := by omega
             simp [setValue, this, S.zero],
          S.ord⟩
      · apply List.ext_getElem?
        intro j
        by_cases hj : j = i
        · subst hj
          rw [List.getElem?_set_self (by simpa using hi)]
          simp [hx, setValue]
        · rw [List.getElem?_set_ne (Ne.symm hj)]
          simp only [List.getElem?_map]
          cases hy : N[j]? with
          | none => rfl
          | some y =>
            have hyx : y ≠ x := by
              rintro rfl
              obtain ⟨hj', hyj⟩ := List.getElem?_eq_some_iff.1 hy
              exact hj ((List.getElem_inj hN.nodup).1 (hyj.trans hxi.symm))
            simp [setValue, hyx]

end
end Gds.SkipList
