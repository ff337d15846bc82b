import Verif.SkipList.AnyLemmas

/-! Property C131, the steps: linking and unlinking a node keep the invariant whatever `update` holds. -/
namespace Gds.SkipList
variable {K V E : Type}
section
variable {zk : K} {zv : V} {s : St K V} {n : Nat} {I : List (K × V)}

/-- What an insertion may do to the sequence on the lowest level. -/
def Grown (p : K × V) (L L' : List (K × V)) : Prop := L' = L ∨ ∃ A B, L = A ++ B ∧ L' = A ++ p :: B

/-- What a removal may do to the sequence on the lowest level. -/
def Shrunk (L L' : List (K × V)) : Prop := L' = L ∨ ∃ A p B, L = A ++ p :: B ∧ L' = A ++ B

theorem Sound.insertAt (S : Sound zk zv s n I) {u : Upd} {U : Nat → Nat} (M : Marks s u s.level U) (k : K) (v : V) (H : Nat) (h1 : 1 ≤ H) (h32 : H ≤ 32) :
    ∃ s', SkipList.insertAt s u k v H = .ok s' ∧ Sound zk zv s' (n + 1) ((k, v) :: I) ∧ s'.size = s.size + 1 ∧
      ∀ L, Listed s L → ∃ L', Listed s' L' ∧ Grown (k, v) L L' := by
  have hnum := S.num
  have key : ∀ (s1 : St K V) (u1 : Upd) (U1 : Nat → Nat), s1.key = s.key → s1.val = s.val → s1.back = s.back → s1.height = s.height → s1.fwd = s.fwd →
      s1.alloc = s.alloc → s1.header = s.header → s1.tail = s.tail → s1.size = s.size → H ≤ s1.level → s1.level ≤ 32 → Marks s u1 s1.level U1 →
      ∃ s', (do
        let r := newNode s1 H k v
        let s ← linkLoop r.1 u1 r.2 H 0
        let s ← spanLoop s u1 (s.level - H) H
        insertEnd s u1 r.2 : Res (St K V)) = .ok s' ∧ Sound zk zv s' (n + 1) ((k, v) :: I) ∧ s'.size = s.size + 1 ∧
      ∀ L, Listed s L → ∃ L', Listed s' L' ∧ Grown (k, v) L L' := by
    intro s1 u1 U1 ek ev eb eh ef ea ehd et es hH hl M1
    have hne : ∀ j, j < s1.level → U1 j ≠ s.alloc := fun j hj => by have := (M1 j hj).2.1.2; omega
    have hln := linkLoop_ok (newNode s1 H k v).1 u1 s.alloc U1 H 0 (by
      intro j _ hj
      obtain ⟨m1, m2, m3⟩ := M1 j (by omega)
      have m4 := hne j (by omega)
      refine ⟨m1, m4, ?_, ?_⟩
      · simp only [newNode, ea, if_neg m4, eh]; exact m3
      · simp only [newNode, ea, if_true]; omega)
    simp only [newNode, ea] at hln ⊢
    rw [hln]
    simp only [Res.bind_ok]
    rw [spanLoop_ok _ u1 U1 (s1.level - H) H (by
      intro j hj1 hj2
      obtain ⟨m1, m2, m3⟩ := M1 j (by omega)
      have m4 := hne j (by omega)
      refine ⟨m1, ?_⟩
      simp only [if_neg m4, eh]; exact m3)]
    simp only [Res.bind_ok, insertEnd, St.getFwd, St.setBack, if_true, if_pos (show 0 < H by omega), Nat.zero_le, true_and, Nat.zero_add]
    have hU0 := (M1 0 (by omega)).1
    have main := fun (s' : St K V) (a1 : s'.level = s1.level) => S.insert (s' := s') (k := k) (v := v) (H := H) (U := U1) h1 (by rw [a1]; omega) (by rw [a1]; exact hl)
      (fun j hj => (M1 j (by omega)).2)
    cases hf : s1.fwd (U1 0) 0 with
    | none =>
      simp only [hne 0 (by omega), hf, if_false]
      refine ⟨_, rfl, ?_⟩
      simp only [← and_assoc]
      rw [and_right_comm]
      refine ⟨main _ rfl ?_ ?_ ?_ ?_ ?_ ?_ ?_ ?_, ?_⟩
      · exact ehd
      · rfl
      · intro y; simp [ek]
      · intro y; simp [ev]
      · intro y; simp [eh]
      · intro y j
        simp only [ef]
        by_cases hj : j < H
        · simp only [hj, if_true, if_neg (hne j (by omega))]
          grind
        · simp only [hj, if_false]
      · exact .inl rfl
      · intro y z e
        simp only [ehd, eb] at e
        by_cases hy : y = s.alloc
        · simp only [hy, if_true] at e
          rw [hU0] at e
          by_cases h0 : U1 0 = s.header
          · simp [h0] at e
          · simp [h0] at e
            exact .inr (.inl ⟨hy, e.symm, e ▸ h0⟩)
        · simp only [hy, if_false] at e
          exact .inr (.inr ⟨hy, e⟩)
      · simp [es]
    | some w =>
      simp only [hne 0 (by omega), hf, if_false]
      refine ⟨_, rfl, ?_⟩
      simp only [← and_assoc]
      rw [and_right_comm]
      refine ⟨main _ rfl ?_ ?_ ?_ ?_ ?_ ?_ ?_ ?_, ?_⟩
      · exact ehd
      · rfl
      · intro y; simp [ek]
      · intro y; simp [ev]
      · intro y; simp [eh]
      · intro y j
        simp only [ef]
        by_cases hj : j < H
        · simp only [hj, if_true, if_neg (hne j (by omega))]
          grind
        · simp only [hj, if_false]
      · exact .inr et
      · intro y z e
        simp only [ehd, eb] at e
        by_cases hyw : y = w
        · simp only [hyw, if_true] at e
          cases e
          exact .inl ⟨by rw [hyw, ← ef]; exact hf, rfl⟩
        · simp only [hyw, if_false] at e
          by_cases hy : y = s.alloc
          · simp only [hy, if_true] at e
            rw [hU0] at e
            by_cases h0 : U1 0 = s.header
            · simp [h0] at e
            · simp [h0] at e
              exact .inr (.inl ⟨hy, e.symm, e ▸ h0⟩)
          · simp only [hy, if_false] at e
            exact .inr (.inr ⟨hy, e⟩)
      · simp [es]
  unfold SkipList.insertAt
  by_cases hc : H > s.level
  · rw [if_pos hc, raiseLoop_ok s u S.hh (H - s.level) s.level (by omega)]
    simp only [Res.bind_ok, Res.pure_eq]
    refine key _ _ (fun j => if j < s.level then U j else s.header) rfl rfl rfl rfl rfl rfl rfl rfl rfl (by simp) (by simp; omega) ?_
    intro j hj
    simp only at hj ⊢
    by_cases h : j < s.level
    · simp only [h, if_true, if_neg (show ¬ (s.level ≤ j ∧ j < s.level + (H - s.level)) by omega)]
      exact M j h
    · simp only [h, if_false, if_pos (show (s.level ≤ j ∧ j < s.level + (H - s.level)) by omega)]
      exact ⟨trivial, S.hdr, by rw [S.hh]; omega⟩
  · rw [if_neg hc]
    simp only [Res.bind_ok, Res.pure_eq]
    exact key s u U rfl rfl rfl rfl rfl rfl rfl rfl rfl (by omega) S.l32 M

/-! ### Unlinking -/

theorem unlinkLoop_any (s : St K V) (u : Upd) (x : Nat) (U : Nat → Nat) (m i : Nat)
    (hu : ∀ j, i ≤ j → j < i + m → u.upd j = some (U j) ∧ j < s.height (U j) ∧ (s.fwd (U j) j = some x → j < s.height x)) :
    ∃ sp, unlinkLoop s u x m i = .ok
      { s with
        fwd := fun y j => if i ≤ j ∧ j < i + m ∧ y = U j ∧ s.fwd y j = some x then s.fwd x j else s.fwd y j
        span := sp } := by
  induction m generalizing s i with
  | zero =>
    refine ⟨s.span, ?_⟩
    rw [unlinkLoop, Res.pure_eq]
    have h1 : ∀ j y, ¬ (i ≤ j ∧ j < i + 0 ∧ y = U j ∧ s.fwd y j = some x) := by
      intro j y ⟨a, b, _⟩; omega
    simp only [h1, if_false]
  | succ m ih =>
    obtain ⟨h1, h3, h4⟩ := hu i (by omega) (by omega)
    rw [unlinkLoop]
    simp only [h1, deref, Res.bind_ok, St.getFwd, if_pos h3]
    by_cases hx : s.fwd (U i) i = some x
    · have h4' := h4 hx
      simp only [hx, if_true, St.getSpan, St.setSpan, St.setFwd, St.getFwd, if_pos h3, if_pos h4', Res.bind_ok]
      obtain ⟨sp, e⟩ := ih { s with
          fwd := fun y j => if y = U i ∧ j = i then s.fwd x i else s.fwd y j
          span := fun y j => if y = U i ∧ j = i then s.span (U i) i + (s.span x i - 1) else s.span y j } (i + 1) (by
        intro j a b
        obtain ⟨g1, g3, g4⟩ := hu j (by omega) (by omega)
        refine ⟨g1, g3, fun h => g4 ?_⟩
        simp only at h
        rwa [if_neg (by omega)] at h)
      refine ⟨sp, e.trans ?_⟩
      congr 2
      funext y j; grind
    · simp only [hx, if_false, St.getSpan, St.setSpan, if_pos h3, Res.bind_ok]
      obtain ⟨sp, e⟩ := ih { s with span := fun y j => if y = U i ∧ j = i then s.span (U i) i - 1 else s.span y j } (i + 1) (by
        intro j a b
        exact hu j (by omega) (by omega))
      refine ⟨sp, e.trans ?_⟩
      congr 2
      funext y j; grind

theorem lowerLoop_any (s : St K V) (hh : s.height s.header = 32) (l : Nat) (h1 : 1 ≤ l) (h32 : l ≤ 32) : ∃ l', lowerLoop s l = .ok l' ∧ 1 ≤ l' ∧ l' ≤ l := by
  induction l with
  | zero => omega
  | succ l ih =>
    rw [lowerLoop]
    by_cases h : l + 1 > 1
    · simp only [h, if_true, St.getFwd, if_pos (show l < s.height s.header by omega), Res.bind_ok]
      by_cases hf : s.fwd s.header l = none
      · simp only [hf, if_true]
        obtain ⟨l', e, a, b⟩ := ih (by omega) (by omega)
        exact ⟨l', e, a, by omega⟩
      · simp only [hf, if_false]
        exact ⟨l + 1, rfl, by omega, by omega⟩
    · rw [if_neg h]
      exact ⟨l + 1, rfl, by omega, by omega⟩

theorem Sound.deleteNode (S : Sound zk zv s n I) {u : Upd} {U : Nat → Nat} {l : Nat} (hl : s.level ≤ l) (M : Marks s u l U) (x : Nat) (hx : s.header < x ∧ x < s.alloc) :
    ∃ s', SkipList.deleteNode s x u = .ok s' ∧ Sound zk zv s' n I ∧ s'.size = s.size - 1 ∧ s'.level ≤ s.level ∧ Marks s' u l U ∧
      (s'.header = s.header ∧ s'.alloc = s.alloc ∧ s'.height = s.height ∧ s'.key = s.key ∧ s'.val = s.val) ∧
      (∀ y j L, Chain (fun y => s.fwd y j) (s.fwd y j) L →
        Chain (fun y => s'.fwd y j) (s'.fwd y j) L ∨ ∃ A B, L = A ++ x :: B ∧ Chain (fun y => s'.fwd y j) (s'.fwd y j) (A ++ B)) ∧
      ∀ L, Listed s L → ∃ L', Listed s' L' ∧ Shrunk L L' := by
  have hxo : Own s x := ⟨by omega, hx.2⟩
  obtain ⟨sp, e⟩ := unlinkLoop_any s u x U s.level 0 (by
    intro j _ hj
    obtain ⟨m1, m2, m3⟩ := M j (by omega)
    exact ⟨m1, m3, fun h => (S.link _ _ _ m2 m3 h).2.2⟩)
  unfold SkipList.deleteNode
  rw [e]
  simp only [Res.bind_ok, St.getFwd, if_pos (show 0 < s.height x from S.ht x hxo), Nat.zero_le, true_and, Nat.zero_add]
  have fin : ∀ s1 : St K V, s1.height = s.height → s1.header = s.header → s1.level = s.level → s1.alloc = s.alloc → s1.key = s.key → s1.val = s.val → s1.size = s.size →
      (∀ y j, s1.fwd y j = if j < s.level ∧ y = U j ∧ s.fwd y j = some x then s.fwd x j else s.fwd y j) →
      (s1.tail = s.back x ∨ s1.tail = s.tail) → (∀ y, (s.fwd x 0 = some y ∧ s1.back y = s.back x) ∨ s1.back y = s.back y) →
      ∃ s', (do let l ← lowerLoop s1 s1.level; pure { s1 with level := l, size := s1.size - 1 } : Res (St K V)) = .ok s' ∧ Sound zk zv s' n I ∧ s'.size = s.size - 1 ∧
      s'.level ≤ s.level ∧ Marks s' u l U ∧
      (s'.header = s.header ∧ s'.alloc = s.alloc ∧ s'.height = s.height ∧ s'.key = s.key ∧ s'.val = s.val) ∧
      (∀ y j L, Chain (fun y => s.fwd y j) (s.fwd y j) L →
        Chain (fun y => s'.fwd y j) (s'.fwd y j) L ∨ ∃ A B, L = A ++ x :: B ∧ Chain (fun y => s'.fwd y j) (s'.fwd y j) (A ++ B)) ∧
      ∀ L, Listed s L → ∃ L', Listed s' L' ∧ Shrunk L L' := by
    intro s1 a1 a2 a3 a4 a5 a6 a7 a8 a9 a10
    obtain ⟨l', b1, b2, b3⟩ := lowerLoop_any s1 (by rw [a1, a2]; exact S.hh) s1.level (by rw [a3]; exact S.l1) (by rw [a3]; exact S.l32)
    rw [b1]
    have hlv := S.l32
    obtain ⟨c1, c2, c3⟩ := S.remove (s' := { s1 with level := l', size := s1.size - 1 }) (x := x) (l := s.level) (U := U) b2 (by simp; omega) hx a2 a4 a5 a6 a1
      (fun j hj => (M j (by omega)).2) a8 a9 a10
    refine ⟨_, rfl, c1, by simp [a7], by simp; omega, ?_, ⟨a2, a4, a1, a5, a6⟩, c2, c3⟩
    intro j hj
    obtain ⟨m1, m2, m3⟩ := M j hj
    refine ⟨m1, ?_, ?_⟩
    · unfold Own at m2 ⊢
      simp only [a2, a4]; exact m2
    · simp only [a1]; exact m3
  simp only [ite_self]
  generalize ho : s.fwd x 0 = o
  cases o with
  | none =>
    refine fin { s with
      fwd := fun y j => if j < s.level ∧ y = U j ∧ s.fwd y j = some x then s.fwd x j else s.fwd y j
      span := sp
      tail := s.back x } rfl rfl rfl rfl rfl rfl rfl (fun y j => rfl) (.inl rfl) (fun y => .inr rfl)
  | some w =>
    refine fin { s with
      fwd := fun y j => if j < s.level ∧ y = U j ∧ s.fwd y j = some x then s.fwd x j else s.fwd y j
      span := sp
      back := fun y => if y = w then s.back x else s.back y } rfl rfl rfl rfl rfl rfl rfl (fun y j => rfl) (.inr rfl) (fun y => ?_)
    by_cases h : y = w
    · exact .inl ⟨h ▸ ho, by simp [h]⟩
    · exact .inr (by simp [h])

end
end Gds.SkipList
