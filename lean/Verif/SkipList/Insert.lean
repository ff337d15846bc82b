import Verif.SkipList.Lemmas

namespace Gds.SkipList

variable {K V : Type}

/-- `raiseLoop`, in closed form. -/
theorem raiseLoop_ok (s : St K V) (u : Upd) (hh : s.height s.header = 32) (m i : Nat) (hi : i + m ≤ 32) :
    raiseLoop s u m i = .ok
      ({ s with span := fun y j => if y = s.header ∧ i ≤ j ∧ j < i + m then s.size else s.span y j },
       ⟨fun j => if i ≤ j ∧ j < i + m then some s.header else u.upd j, fun j => if i ≤ j ∧ j < i + m then 0 else u.rank j⟩) := by
  induction m generalizing s u i with
  | zero =>
    rw [raiseLoop, Res.pure_eq]
    have h0 : ∀ j, ¬ (i ≤ j ∧ j < i + 0) := by omega
    simp only [h0, and_false, if_false]
  | succ m ih =>
    rw [raiseLoop]
    simp only [Upd.set, if_pos (show i < maxLevel by unfold maxLevel; omega), Res.bind_ok, St.setSpan, if_pos (show i < s.height s.header by omega)]
    rw [ih _ _ (by simpa using hh) (i + 1) (by omega)]
    simp only [Res.ok.injEq, Prod.mk.injEq]
    refine ⟨?_, ?_⟩
    · congr 1; funext y j; grind
    · congr 1 <;> · funext j; grind

/-- `linkLoop`, in closed form. -/
theorem linkLoop_ok (s : St K V) (u : Upd) (x : Nat) (U : Nat → Nat) (m i : Nat)
    (hu : ∀ j, i ≤ j → j < i + m → u.upd j = some (U j) ∧ U j ≠ x ∧ j < s.height (U j) ∧ j < s.height x) :
    linkLoop s u x m i = .ok
      { s with
        fwd := fun y j => if i ≤ j ∧ j < i + m then (if y = x then s.fwd (U j) j else if y = U j then some x else s.fwd y j) else s.fwd y j
        span := fun y j => if i ≤ j ∧ j < i + m then
            (if y = x then s.span (U j) j - (u.rank 0 - u.rank j) else if y = U j then (u.rank 0 - u.rank j) + 1 else s.span y j)
          else s.span y j } := by
  induction m generalizing s i with
  | zero =>
    rw [linkLoop, Res.pure_eq]
    have h0 : ∀ j, ¬ (i ≤ j ∧ j < i + 0) := by omega
    simp only [h0, if_false]
  | succ m ih =>
    obtain ⟨h1, h2, h3, h4⟩ := hu i (by omega) (by omega)
    rw [linkLoop]
    simp only [h1, deref, Res.bind_ok, St.getFwd, St.setFwd, St.getSpan, St.setSpan, if_pos h3, if_pos h4]
    rw [ih _ (i + 1) (by
      intro j a b
      obtain ⟨g1, g2, g3, g4⟩ := hu j (by omega) (by omega)
      exact ⟨g1, g2, g3, g4⟩)]
    congr 2
    · funext y j; grind
    · funext y j; grind

/-- `spanLoop`, in closed form. -/
theorem spanLoop_ok (s : St K V) (u : Upd) (U : Nat → Nat) (m i : Nat)
    (hu : ∀ j, i ≤ j → j < i + m → u.upd j = some (U j) ∧ j < s.height (U j)) :
    spanLoop s u m i = .ok
      { s with span := fun y j => if i ≤ j ∧ j < i + m ∧ y = U j then s.span y j + 1 else s.span y j } := by
  induction m generalizing s i with
  | zero =>
    rw [spanLoop, Res.pure_eq]
    have h0 : ∀ j y, ¬ (i ≤ j ∧ j < i + 0 ∧ y = U j) := by omega
    simp only [h0, if_false]
  | succ m ih =>
    obtain ⟨h1, h3⟩ := hu i (by omega) (by omega)
    rw [spanLoop]
    simp only [h1, deref, Res.bind_ok, St.getSpan, St.setSpan, if_pos h3]
    rw [ih _ (i + 1) (by
      intro j a b
      exact hu j (by omega) (by omega))]
    congr 2
    funext y j; grind

/-- Positions after inserting address `A` behind position `k`. -/
def insPos (P : Nat → Nat) (k A : Nat) : Nat → Nat := fun r => if r ≤ k then P r else if r = k + 1 then A else P (r - 1)

/-- Raising the level keeps the representation and the finger. -/
theorem raise_ok {s : St K V} {n : Nat} {P : Nat → Nat} (R : Rep s n P) {k : Nat} {u : Upd} {f : Nat → Nat}
    (F : Finger s n P s.level k u f) (H : Nat) (hH : H ≤ 32) (hgt : H > s.level) :
    ∃ s' u' f', raiseLoop s u (H - s.level) s.level = .ok (s', u') ∧
      Rep { s' with level := H } n P ∧ Finger { s' with level := H } n P H k u' f' ∧
      s'.key = s.key ∧ s'.val = s.val ∧ s'.alloc = s.alloc ∧ s'.header = s.header := by
  have hl := R.l32
  refine ⟨_, _, fun i => if i < s.level then f i else 0, raiseLoop_ok s u R.hh _ _ (by omega), ?_, ?_, rfl, rfl, rfl, rfl⟩
  · refine ⟨R.head, R.inj, R.old, R.hh, by simp; omega, hH, ?_, R.size, ?_, R.back, R.tail⟩
    · intro p h1 h2; have := R.ht p h1 h2; simp; omega
    · intro i p q hp hi hq
      simp only at hi hq ⊢
      obtain ⟨l1, l2⟩ := R.link i p q hp hi hq
      refine ⟨l1, fun hiH => ?_⟩
      by_cases hlt : i < s.level
      · rw [if_neg (by omega)]; exact l2 hlt
      · have hp0 : p = 0 := by
          rcases Nat.eq_zero_or_pos p with h | h
          · exact h
          · have := (R.ht p h hp).2; omega
        subst hp0
        rw [if_pos ⟨R.head, by omega, by omega⟩, R.size]
        have : ¬ q ≤ n := by
          intro hqn
          have h1 := hq.hit hqn
          have h2 := (R.ht q hq.lt hqn).2
          omega
        have := hq.le
        simp; omega
  · refine ⟨F.k_le, ?_, ?_, ?_, ?_, ?_⟩
    · have := R.l1; rw [if_pos (by omega)]; exact F.f0
    · intro i hi
      by_cases hlt : i < s.level
      · simp only [if_pos hlt, if_neg (show ¬ (s.level ≤ i ∧ i < s.level + (H - s.level)) by omega)]; exact F.upd i hlt
      · simp only [if_neg hlt, if_pos (show (s.level ≤ i ∧ i < s.level + (H - s.level)) by omega), R.head]; simp
    · intro i hi
      by_cases hlt : i < s.level
      · simp only [if_pos hlt]; exact F.le i hlt
      · simp only [if_neg hlt]; omega
    · intro i hi
      by_cases hlt : i < s.level
      · simp only [if_pos hlt]; exact F.high i hlt
      · simp only [if_neg hlt, R.head, R.hh]; omega
    · intro i hi r h1 h2
      by_cases hlt : i < s.level
      · simp only [if_pos hlt] at h1; exact F.gap i hlt r h1 h2
      · simp only [if_neg hlt] at h1
        have := (R.ht r h1 (by have := F.k_le; omega)).2
        show s.height (P r) ≤ i
        omega

/-- `NextAt` after an insertion. -/
theorem nextAt_ins {h : Nat → Nat} {n i k H : Nat} (hk : k ≤ n) {p' q' : Nat} (hp' : p' ≤ n + 1)
    (hq' : NextAt (fun r => if r ≤ k then h r else if r = k + 1 then H else h (r - 1)) (n + 1) i p' q')
    {p q : Nat} (hq : NextAt h n i p q) :
    (p' ≤ k → p = p' → q ≤ k → q' = q) ∧ (p' ≤ k → p = p' → k < q → i < H → q' = k + 1) ∧
    (p' ≤ k → p = p' → k < q → H ≤ i → q' = q + 1) ∧ (p' = k + 1 → p ≤ k → k < q → q' = q + 1) ∧
    (k + 1 < p' → p' = p + 1 → q' = q + 1) := by
  have h1 := hq.lt
  have h2 := hq.le
  refine ⟨fun a b c => ?_, fun a b c d => ?_, fun a b c d => ?_, fun a b c => ?_, fun a b => ?_⟩
  · refine hq'.unique ⟨by omega, by omega, fun r r1 r2 => ?_, fun r1 => ?_⟩
    · rw [if_pos (by omega)]; exact hq.gap r (by omega) r2
    · rw [if_pos (by omega)]; exact hq.hit (by omega)
  · refine hq'.unique ⟨by omega, by omega, fun r r1 r2 => ?_, fun r1 => ?_⟩
    · rw [if_pos (by omega)]; exact hq.gap r (by omega) (by omega)
    · rw [if_neg (by omega), if_pos (by omega)]; exact d
  · refine hq'.unique ⟨by omega, by omega, fun r r1 r2 => ?_, fun r1 => ?_⟩
    · split
      · exact hq.gap r (by omega) (by omega)
      · split
        · exact d
        · exact hq.gap (r - 1) (by omega) (by omega)
    · rw [if_neg (by omega), if_neg (by omega)]; exact hq.hit (by omega)
  · refine hq'.unique ⟨by omega, by omega, fun r r1 r2 => ?_, fun r1 => ?_⟩
    · rw [if_neg (by omega), if_neg (by omega)]; exact hq.gap (r - 1) (by omega) (by omega)
    · rw [if_neg (by omega), if_neg (by omega)]; exact hq.hit (by omega)
  · refine hq'.unique ⟨by omega, by omega, fun r r1 r2 => ?_, fun r1 => ?_⟩
    · rw [if_neg (by omega), if_neg (by omega)]; exact hq.gap (r - 1) (by omega) (by omega)
    · rw [if_neg (by omega), if_neg (by omega)]; exact hq.hit (by omega)

/-- A finger position is the only one whose next position on level `i` lies behind `k`. -/
theorem Finger.uniq {s : St K V} {n : Nat} {P : Nat → Nat} {lv k : Nat} {u : Upd} {f : Nat → Nat}
    (F : Finger s n P lv k u f) {i p q : Nat} (hi : i < lv) (hp : p ≤ k) (hh : i < s.height (P p))
    (hq : NextAt (fun r => s.height (P r)) n i p q) : (k < q ↔ p = f i) := by
  have h1 := F.le i hi
  have h2 := F.high i hi
  have h3 := F.gap i hi
  have hk := F.k_le
  constructor
  · intro hkq
    rcases Nat.lt_trichotomy p (f i) with hl | rfl | hl
    · have := hq.gap (f i) hl (by omega); omega
    · rfl
    · have := h3 p hl hp; omega
  · rintro rfl
    by_contra hc
    have := hq.hit (by omega)
    have := h3 q hq.lt (by omega)
    omega

/-- The pointer updates of an insertion behind position `k` give a well-linked list. -/
theorem insert_rep {s s' : St K V} {n : Nat} {P : Nat → Nat} (R : Rep s n P) {k : Nat} {u : Upd} {f : Nat → Nat}
    (F : Finger s n P s.level k u f) (H : Nat) (h1 : 1 ≤ H) (hH : H ≤ s.level)
    (eheight : ∀ y, s'.height y = if y = s.alloc then H else s.height y)
    (efwd : ∀ y j, s'.fwd y j = if j < H then (if y = s.alloc then s.fwd (P (f j)) j else if y = P (f j) then some s.alloc
        else s.fwd y j) else if y = s.alloc then none else s.fwd y j)
    (espan : ∀ y j, j < s.level → y ≠ s.alloc ∨ j < H → s'.span y j = if j < H then (if y = s.alloc then s.span (P (f j)) j - ((k : Int) - f j) else if y = P (f j) then ((k : Int) - f j) + 1
        else s.span y j) else (if y = P (f j) then s.span y j + 1 else s.span y j))
    (eback : ∀ y, s'.back y = if k + 1 ≤ n ∧ y = P (k + 1) then some s.alloc else if y = s.alloc then (if k = 0 then none else some (P k))
        else s.back y)
    (etail : s'.tail = if k + 1 ≤ n then s.tail else some s.alloc)
    (esize : s'.size = s.size + 1) (elevel : s'.level = s.level) (ealloc : s'.alloc = s.alloc + 1)
    (eheader : s'.header = s.header) : Rep s' (n + 1) (insPos P k s.alloc) := by
  have hA : ∀ p, p ≤ n → P p ≠ s.alloc := fun p hp => by have := R.old p hp; omega
  have hk := F.k_le
  have hP1 : ∀ r, r ≤ k → insPos P k s.alloc r = P r := fun r h => by simp [insPos, h]
  have hP2 : insPos P k s.alloc (k + 1) = s.alloc := by unfold insPos; rw [if_neg (by omega), if_pos rfl]
  have hP3 : ∀ r, k < r → insPos P k s.alloc (r + 1) = P r := fun r h => by
    unfold insPos; rw [if_neg (by omega), if_neg (by omega)]; simp
  have hheights : ∀ r, r ≤ n + 1 → s'.height (insPos P k s.alloc r) =
      if r ≤ k then s.height (P r) else if r = k + 1 then H else s.height (P (r - 1)) := by
    intro r hr
    rw [eheight]
    unfold insPos
    split
    · rw [if_neg (hA r (by omega))]
    · split
      · simp
      · rw [if_neg (hA _ (by omega))]
  have hnext : ∀ i p q, NextAt (fun r => s'.height (insPos P k s.alloc r)) (n + 1) i p q →
      NextAt (fun r => if r ≤ k then s.height (P r) else if r = k + 1 then H else s.height (P (r - 1))) (n + 1) i p q := by
    intro i p q h
    refine ⟨h.lt, h.le, fun r a b => ?_, fun a => ?_⟩
    · have := h.gap r a b; rw [hheights r (by have := h.le; omega)] at this; exact this
    · have := h.hit a; rw [hheights q a] at this; exact this
  refine ⟨?_, ?_, ?_, ?_, by rw [elevel]; exact R.l1, by rw [elevel]; exact R.l32, ?_, ?_, ?_, ?_, ?_⟩
  · rw [hP1 0 (by omega), R.head, eheader]
  · intro p q hp hq e
    unfold insPos at e
    have i1 := R.inj p q
    have i2 := R.inj p (q - 1)
    have i3 := R.inj (p - 1) q
    have i4 := R.inj (p - 1) (q - 1)
    have a1 := hA p
    have a2 := hA q
    have a3 := hA (p - 1)
    have a4 := hA (q - 1)
    grind
  · intro p hp
    rw [ealloc]
    unfold insPos
    split
    · have := R.old p (by omega); omega
    · split
      · omega
      · have := R.old (p - 1) (by omega); omega
  · rw [eheader, eheight, if_neg (by rw [← R.head]; exact hA 0 (by omega))]; exact R.hh
  · intro p hp1 hp2
    rw [hheights p hp2, elevel]
    split
    · exact R.ht p hp1 (by omega)
    · split
      · omega
      · exact R.ht (p - 1) (by omega) (by omega)
  · rw [esize, R.size]; push_cast; rfl
  · intro i p q hp hi hq
    have hq1 := hnext i p q hq
    rw [hheights p hp] at hi
    rw [elevel]
    have hil : i < s.level → f i ≤ k := fun h => F.le i h
    rcases Nat.lt_trichotomy p (k + 1) with hlt | rfl | hgt
    · -- at or before k
      rw [if_pos (by omega)] at hi
      rw [hP1 p (by omega)]
      obtain ⟨q0, hq0⟩ := NextAt.exists (fun r => s.height (P r)) n i p (by omega)
      obtain ⟨c1, c2, c3, -, -⟩ := nextAt_ins hk hp hq1 hq0
      obtain ⟨l1, l2⟩ := R.link i p q0 (by omega) hi hq0
      have hle := hq0.le
      have hlt' := hq0.lt
      rw [efwd]
      by_cases hkq : k < q0
      · by_cases hiH : i < H
        · have hpf := (F.uniq (by omega) (by omega) hi hq0).1 hkq
          have hqe := c2 (by omega) rfl hkq hiH
          subst hqe
          rw [if_pos hiH, if_neg (hA p (by omega)), if_pos (by rw [hpf]), if_pos (by omega), hP2]
          refine ⟨rfl, fun hil => ?_⟩
          rw [espan _ _ hil (.inr hiH), if_pos hiH, if_neg (hA p (by omega)), if_pos (by rw [hpf]), ← hpf]
          omega
        · have hqe := c3 (by omega) rfl hkq (by omega)
          subst hqe
          rw [if_neg hiH, if_neg (hA p (by omega)), l1]
          refine ⟨?_, fun hil => ?_⟩
          · by_cases hqn : q0 ≤ n
            · rw [if_pos hqn, if_pos (by omega), hP3 q0 hkq]
            · rw [if_neg hqn, if_neg (by omega)]
          · have hpf := (F.uniq hil (by omega) hi hq0).1 hkq
            rw [espan _ _ hil (.inl (hA p (by omega))), if_neg hiH, if_pos (by rw [hpf]), l2 hil]
            omega
      · have hqe := c1 (by omega) rfl (by omega)
        subst hqe
        have hne : i < s.level → P p ≠ P (f i) := by
          intro hil he
          have := R.inj p (f i) (by omega) (by have := F.le i hil; omega) he
          have := (F.uniq hil (by omega) hi hq0).2 this
          omega
        have hfwd : s.fwd (P p) i = some (P q) := by rw [l1, if_pos (by omega)]
        have hnotH : i < H → P p ≠ P (f i) := fun h => hne (by omega)
        refine ⟨?_, fun hil => ?_⟩
        · rw [if_pos (show q ≤ n + 1 by omega), hP1 q (by omega)]
          by_cases hiH : i < H
          · rw [if_pos hiH, if_neg (hA p (by omega)), if_neg (hnotH hiH), hfwd]
          · rw [if_neg hiH, if_neg (hA p (by omega)), hfwd]
        · have e1 : s'.span (P p) i = s.span (P p) i := by
            rw [espan _ _ hil (.inl (hA p (by omega)))]; simp only [hA p (by omega), hne hil, if_false, ite_self]
          rw [e1, l2 hil]
          omega
    · -- the new node
      rw [if_neg (by omega), if_pos rfl] at hi
      have hil : i < s.level := by omega
      obtain ⟨q0, hq0⟩ := NextAt.exists (fun r => s.height (P r)) n i (f i) (by have := F.le i hil; omega)
      have hkq := (F.uniq hil (F.le i hil) (F.high i hil) hq0).2 rfl
      obtain ⟨-, -, -, c4, -⟩ := nextAt_ins hk hp hq1 hq0
      have hqe := c4 rfl (F.le i hil) hkq
      subst hqe
      obtain ⟨l1, l2⟩ := R.link i (f i) q0 (by have := F.le i hil; omega) (F.high i hil) hq0
      have hle := hq0.le
      rw [hP2, efwd, if_pos hi, if_pos rfl, l1]
      refine ⟨?_, fun _ => ?_⟩
      · by_cases hqn : q0 ≤ n
        · rw [if_pos hqn, if_pos (by omega), hP3 q0 hkq]
        · rw [if_neg hqn, if_neg (by omega)]
      · rw [espan _ _ hil (.inr hi), if_pos hi, if_pos rfl, l2 hil]
        have := F.le i hil
        omega
    · -- behind
      rw [if_neg (by omega), if_neg (by omega)] at hi
      obtain ⟨p0, rfl⟩ : ∃ p0, p = p0 + 1 := ⟨p - 1, by omega⟩
      simp only [Nat.add_sub_cancel] at hi
      rw [hP3 p0 (by omega)]
      obtain ⟨q0, hq0⟩ := NextAt.exists (fun r => s.height (P r)) n i p0 (by omega)
      obtain ⟨-, -, -, -, c5⟩ := nextAt_ins hk hp hq1 hq0
      have hqe := c5 (by omega) rfl
      subst hqe
      obtain ⟨l1, l2⟩ := R.link i p0 q0 (by omega) hi hq0
      have hle := hq0.le
      have hlt' := hq0.lt
      have hne : i < s.level → P p0 ≠ P (f i) := by
        intro hil he
        have := R.inj p0 (f i) (by omega) (by have := F.le i hil; omega) he
        have := F.le i hil
        omega
      refine ⟨?_, fun hil => ?_⟩
      · have e1 : s'.fwd (P p0) i = s.fwd (P p0) i := by
          rw [efwd]
          by_cases hiH : i < H
          · rw [if_pos hiH, if_neg (hA p0 (by omega)), if_neg (hne (by omega))]
          · rw [if_neg hiH, if_neg (hA p0 (by omega))]
        rw [e1, l1]
        by_cases hqn : q0 ≤ n
        · rw [if_pos hqn, if_pos (by omega), hP3 q0 (by omega)]
        · rw [if_neg hqn, if_neg (by omega)]
      · have e1 : s'.span (P p0) i = s.span (P p0) i := by
          rw [espan _ _ hil (.inl (hA p0 (by omega)))]; simp only [hA p0 (by omega), hne hil, if_false, ite_self]
        rw [e1, l2 hil]
        omega
  · intro p hp1 hp2
    rw [eback]
    rcases Nat.lt_trichotomy p (k + 1) with hlt | rfl | hgt
    · rw [hP1 p (by omega), if_neg, if_neg (hA p (by omega)), R.back p hp1 (by omega)]
      · rw [hP1 (p - 1) (by omega)]
      · rintro ⟨a, b⟩
        have := R.inj p (k + 1) (by omega) a b; omega
    · rw [hP2, if_neg, if_pos rfl]
      · simp only [Nat.add_sub_cancel, hP1 k (Nat.le_refl _)]
        by_cases h0 : k = 0
        · simp [h0]
        · rw [if_neg h0, if_neg (by omega)]
      · rintro ⟨a, b⟩
        exact hA (k + 1) a b.symm
    · obtain ⟨p0, rfl⟩ : ∃ p0, p = p0 + 1 := ⟨p - 1, by omega⟩
      rw [hP3 p0 (by omega), if_neg (show ¬ p0 + 1 = 1 by omega), Nat.add_sub_cancel]
      by_cases hpk : p0 = k + 1
      · subst hpk
        rw [if_pos ⟨by omega, rfl⟩, hP2]
      · rw [if_neg, if_neg (hA p0 (by omega)), R.back p0 (by omega) (by omega), if_neg (by omega)]
        · obtain ⟨p1, rfl⟩ : ∃ p1, p0 = p1 + 1 := ⟨p0 - 1, by omega⟩
          rw [hP3 p1 (by omega), Nat.add_sub_cancel]
        · rintro ⟨a, b⟩
          have := R.inj p0 (k + 1) (by omega) a b; omega
  · rw [etail, if_neg (show ¬ n + 1 = 0 by omega)]
    by_cases hkn : k + 1 ≤ n
    · rw [if_pos hkn, R.tail, if_neg (by omega), hP3 n (by omega)]
    · rw [if_neg hkn]
      have : k = n := by omega
      subst this
      rw [hP2]

/-- The second half of `insert` on a level within the current one. -/
theorem link_ok {s : St K V} {n : Nat} {P : Nat → Nat} (R : Rep s n P) {k : Nat} {u : Upd} {f : Nat → Nat}
    (F : Finger s n P s.level k u f) (key : K) (val : V) (H : Nat) (h1 : 1 ≤ H) (hH : H ≤ s.level) :
    ∃ s', insertAt s u key val H = .ok s' ∧ Rep s' (n + 1) (insPos P k s.alloc) ∧ s'.alloc = s.alloc + 1 ∧
      s'.header = s.header ∧ s'.key = (fun y => if y = s.alloc then key else s.key y) ∧
      s'.val = (fun y => if y = s.alloc then val else s.val y) := by
  have hA : ∀ p, p ≤ n → P p ≠ s.alloc := fun p hp => by have := R.old p hp; omega
  have hk := F.k_le
  have hfn : ∀ i, i < s.level → f i ≤ n := fun i hi => by have := F.le i hi; omega
  unfold insertAt
  simp only [show ¬ H > s.level by omega, if_false, Res.pure_eq, Res.bind_ok]
  rw [linkLoop_ok _ u _ (fun j => P (f j)) H 0 (by
    intro j a b
    have hj : j < s.level := by omega
    refine ⟨(F.upd j hj).1, hA _ (hfn j hj), ?_, ?_⟩
    · simp only [newNode, if_neg (hA _ (hfn j hj))]; exact F.high j hj
    · simp only [newNode, if_true]; omega)]
  rw [Res.bind_ok]
  rw [spanLoop_ok _ u (fun j => P (f j)) _ H (by
    intro j a b
    simp only [newNode] at b
    have hj : j < s.level := by omega
    refine ⟨(F.upd j hj).1, ?_⟩
    simp only [newNode, if_neg (hA _ (hfn j hj))]; exact F.high j hj)]
  rw [Res.bind_ok]
  have hu0 : u.upd 0 = some (P k) := by rw [(F.upd 0 (by have := R.l1; omega)).1, F.f0]
  have hr0 : u.rank 0 = k := by rw [(F.upd 0 (by have := R.l1; omega)).2, F.f0]
  have hri : ∀ j, j < s.level → u.rank j = f j := fun j hj => (F.upd j hj).2
  have hheq : (P k = s.header) ↔ k = 0 := by
    constructor
    · intro h; rw [← R.head] at h; exact R.inj k 0 hk (by omega) h
    · rintro rfl; exact R.head
  have hfwdA : (s.fwd (P k) 0) = if k + 1 ≤ n then some (P (k + 1)) else none :=
    (R.link 0 k (k + 1) hk (R.hpos k hk) (R.next0 k hk)).1
  have hf0 := F.f0
  have hl1 := R.l1
  have hfin : ∀ s2 : St K V, s2.header = s.header → s2.height s.alloc = H → s2.fwd s.alloc 0 = s.fwd (P k) 0 →
      insertEnd s2 u s.alloc = .ok { s2 with
        back := fun y => if k + 1 ≤ n ∧ y = P (k + 1) then some s.alloc else if y = s.alloc then (if k = 0 then none else some (P k)) else s2.back y
        tail := if k + 1 ≤ n then s2.tail else some s.alloc
        size := s2.size + 1 } := by
    intro s2 e1 e2 e3
    have hb : (if (some (P k) : Option Nat) = some s.header then (none : Option Nat) else some (P k)) = if k = 0 then none else some (P k) := by
      simp only [Option.some.injEq, hheq]
    unfold insertEnd
    have h0H : 0 < H := h1
    simp only [hu0, e1, hb, St.setBack, St.getFwd, e2, if_pos h0H, e3, hfwdA, Res.bind_ok]
    by_cases hkn : k + 1 ≤ n
    · simp only [hkn, if_true, true_and, Res.pure_eq]
    · simp only [hkn, if_false, false_and, Res.pure_eq]
  refine ⟨_, hfin _ rfl (by simp [newNode]) (by
    have h0H : 0 < H := h1
    simp [newNode, h0H, hf0, hA k hk]), ?_, rfl, rfl, rfl, rfl⟩
  refine insert_rep R F H h1 hH (fun y => rfl) (fun y j => ?_) (fun y j hj hy => ?_) (fun y => ?_) rfl rfl rfl rfl rfl
  · have := hfn j
    have := hA (f j)
    simp only [newNode]
    grind
  · have := hfn j
    have := hA (f j)
    have := hri j hj
    simp only [newNode, hr0]
    grind
  · simp only [newNode]
    grind

/-- The second half of `insert`, any level. -/
theorem insertAt_ok {s : St K V} {n : Nat} {P : Nat → Nat} (R : Rep s n P) {k : Nat} {u : Upd} {f : Nat → Nat}
    (F : Finger s n P s.level k u f) (key : K) (val : V) (H : Nat) (h1 : 1 ≤ H) (hH : H ≤ 32) :
    ∃ s', insertAt s u key val H = .ok s' ∧ Rep s' (n + 1) (insPos P k s.alloc) ∧ s'.alloc = s.alloc + 1 ∧
      s'.header = s.header ∧ s'.key = (fun y => if y = s.alloc then key else s.key y) ∧
      s'.val = (fun y => if y = s.alloc then val else s.val y) := by
  by_cases hgt : H > s.level
  · obtain ⟨s1, u1, f1, e, R1, F1, k1, k2, k3, k4⟩ := raise_ok R F H hH hgt
    obtain ⟨s', e', R', b1, b2, b3, b4⟩ := link_ok R1 F1 key val H h1 (Nat.le_refl _)
    simp only [k1, k2, k3, k4] at R' b1 b2 b3 b4
    refine ⟨s', ?_, R', b1, b2, b3, b4⟩
    rw [← e']
    unfold insertAt
    simp only [if_pos hgt, e, Res.bind_ok, Res.pure_eq]
    simp
  · exact link_ok R F key val H h1 (by omega)

end Gds.SkipList
