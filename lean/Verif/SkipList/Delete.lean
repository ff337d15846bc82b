import Verif.SkipList.Insert

namespace Gds.SkipList

variable {K V : Type}

/-- `unlinkLoop`, in closed form. -/
theorem unlinkLoop_ok (s : St K V) (u : Upd) (x : Nat) (U : Nat → Nat) (m i : Nat)
    (hu : ∀ j, i ≤ j → j < i + m → u.upd j = some (U j) ∧ U j ≠ x ∧ j < s.height (U j) ∧
      (s.fwd (U j) j = some x → j < s.height x)) :
    unlinkLoop s u x m i = .ok
      { s with
        fwd := fun y j => if i ≤ j ∧ j < i + m ∧ y = U j ∧ s.fwd y j = some x then s.fwd x j else s.fwd y j
        span := fun y j => if i ≤ j ∧ j < i + m ∧ y = U j then
            (if s.fwd y j = some x then s.span y j + (s.span x j - 1) else s.span y j - 1) else s.span y j } := by
  induction m generalizing s i with
  | zero =>
    rw [unlinkLoop, Res.pure_eq]
    have h0 : ∀ j y, ¬ (i ≤ j ∧ j < i + 0 ∧ y = U j) := by omega
    have h1 : ∀ j y, ¬ (i ≤ j ∧ j < i + 0 ∧ y = U j ∧ s.fwd y j = some x) := by
      intro j y ⟨a, b, _⟩; omega
    simp only [h0, h1, if_false]
  | succ m ih =>
    obtain ⟨h1, h2, h3, h4⟩ := hu i (by omega) (by omega)
    rw [unlinkLoop]
    simp only [h1, deref, Res.bind_ok, St.getFwd, if_pos h3]
    by_cases hx : s.fwd (U i) i = some x
    · have h4' := h4 hx
      simp only [hx, if_true, St.getSpan, St.setSpan, St.setFwd, St.getFwd, if_pos h3, if_pos h4', Res.bind_ok]
      rw [ih _ (i + 1) (by
        intro j a b
        obtain ⟨g1, g2, g3, g4⟩ := hu j (by omega) (by omega)
        refine ⟨g1, g2, g3, fun h => g4 ?_⟩
        simp only at h
        rwa [if_neg (by omega)] at h)]
      congr 2
      · funext y j; grind
      · funext y j; grind
    · simp only [hx, if_false, St.getSpan, St.setSpan, if_pos h3, Res.bind_ok]
      rw [ih _ (i + 1) (by
        intro j a b
        exact hu j (by omega) (by omega))]
      congr 2
      · funext y j; grind
      · funext y j; grind

/-- Positions after removing position `k + 1`. -/
def delPos (P : Nat → Nat) (k : Nat) : Nat → Nat := fun r => if r ≤ k then P r else P (r + 1)

/-- `NextAt` after a removal. -/
theorem nextAt_del {h : Nat → Nat} {n i k : Nat} (hk : k ≤ n) {p' q' : Nat} (hp' : p' ≤ n)
    (hq' : NextAt (fun r => if r ≤ k then h r else h (r + 1)) n i p' q')
    {p q q2 : Nat} (hq : NextAt h (n + 1) i p q) (hq2 : NextAt h (n + 1) i (k + 1) q2) :
    (p' ≤ k → p = p' → q ≤ k → q' = q) ∧ (p' ≤ k → p = p' → q = k + 1 → q' + 1 = q2) ∧
    (p' ≤ k → p = p' → k + 1 < q → q' + 1 = q) ∧ (k < p' → p = p' + 1 → q' + 1 = q) := by
  have h1 := hq.lt
  have h2 := hq.le
  have h3 := hq2.lt
  have h4 := hq2.le
  have un : ∀ q'', NextAt (fun r => if r ≤ k then h r else h (r + 1)) n i p' q'' → q' = q'' := fun _ => hq'.unique
  refine ⟨fun a b c => ?_, fun a b c => ?_, fun a b c => ?_, fun a b => ?_⟩
  · refine un q ⟨by omega, by omega, fun r r1 r2 => ?_, fun r1 => ?_⟩
    · rw [if_pos (by omega)]; exact hq.gap r (by omega) r2
    · rw [if_pos (by omega)]; exact hq.hit (by omega)
  · have := un (q2 - 1) ⟨by omega, by omega, fun r r1 r2 => ?_, fun r1 => ?_⟩
    · omega
    · split
      · exact hq.gap r (by omega) (by omega)
      · exact hq2.gap (r + 1) (by omega) (by omega)
    · rw [if_neg (by omega), Nat.sub_add_cancel (by omega)]; exact hq2.hit (by omega)
  · have := un (q - 1) ⟨by omega, by omega, fun r r1 r2 => ?_, fun r1 => ?_⟩
    · omega
    · split
      · exact hq.gap r (by omega) (by omega)
      · exact hq.gap (r + 1) (by omega) (by omega)
    · rw [if_neg (by omega), Nat.sub_add_cancel (by omega)]; exact hq.hit (by omega)
  · have := un (q - 1) ⟨by omega, by omega, fun r r1 r2 => ?_, fun r1 => ?_⟩
    · omega
    · rw [if_neg (by omega)]; exact hq.gap (r + 1) (by omega) (by omega)
    · rw [if_neg (by omega), Nat.sub_add_cancel (by omega)]; exact hq.hit (by omega)

/-- The pointer updates of a removal of position `k + 1` give a well-linked list. -/
theorem delete_rep {s s' : St K V} {n : Nat} {P : Nat → Nat} (R : Rep s (n + 1) P) {k : Nat} {u : Upd} {f : Nat → Nat}
    (F : Finger s (n + 1) P s.level k u f) (hkn : k ≤ n)
    (eheight : ∀ y, s'.height y = s.height y)
    (efwd : ∀ y j, j < s.level → s'.fwd y j = if y = P (f j) ∧ s.fwd y j = some (P (k + 1)) then s.fwd (P (k + 1)) j else s.fwd y j)
    (efwd' : ∀ y j, s.level ≤ j → s'.fwd y j = s.fwd y j)
    (espan : ∀ y j, j < s.level → s'.span y j = if y = P (f j) then
        (if s.fwd y j = some (P (k + 1)) then s.span y j + (s.span (P (k + 1)) j - 1) else s.span y j - 1) else s.span y j)
    (eback : ∀ y, s'.back y = if k + 2 ≤ n + 1 ∧ y = P (k + 2) then s.back (P (k + 1)) else s.back y)
    (etail : s'.tail = if k + 2 ≤ n + 1 then s.tail else s.back (P (k + 1)))
    (esize : s'.size = s.size - 1) (elevel : s'.level = s.level) (ealloc : s'.alloc = s.alloc)
    (eheader : s'.header = s.header) : Rep s' n (delPos P k) ∧ Finger s' n (delPos P k) s.level k u f := by
  have hP1 : ∀ r, r ≤ k → delPos P k r = P r := fun r h => by simp [delPos, h]
  have hP2 : ∀ r, k < r → delPos P k r = P (r + 1) := fun r h => by unfold delPos; rw [if_neg (by omega)]
  have hheights : ∀ r, s'.height (delPos P k r) = if r ≤ k then s.height (P r) else s.height (P (r + 1)) := by
    intro r; rw [eheight]; unfold delPos; split <;> rfl
  have hfk : ∀ i, i < s.level → f i ≤ k := fun i hi => F.le i hi
  obtain ⟨hx1, hx2⟩ := R.ht (k + 1) (by omega) (by omega)
  have hnext : ∀ i p q, NextAt (fun r => s'.height (delPos P k r)) n i p q →
      NextAt (fun r => if r ≤ k then s.height (P r) else s.height (P (r + 1))) n i p q := by
    intro i p q h
    simp only [hheights] at h
    exact h
  constructor
  · refine ⟨?_, ?_, ?_, ?_, by rw [elevel]; exact R.l1, by rw [elevel]; exact R.l32, ?_, ?_, ?_, ?_, ?_⟩
    · rw [hP1 0 (by omega), R.head, eheader]
    · intro p q hp hq e
      unfold delPos at e
      have i1 := R.inj p q
      have i2 := R.inj p (q + 1)
      have i3 := R.inj (p + 1) q
      have i4 := R.inj (p + 1) (q + 1)
      grind
    · intro p hp
      rw [ealloc]
      unfold delPos
      split
      · exact R.old p (by omega)
      · exact R.old (p + 1) (by omega)
    · rw [eheader, eheight]; exact R.hh
    · intro p hp1 hp2
      rw [hheights p, elevel]
      split
      · exact R.ht p hp1 (by omega)
      · exact R.ht (p + 1) (by omega) (by omega)
    · rw [esize, R.size]; push_cast; omega
    · intro i p q hp hi hq
      have hq1 := hnext i p q hq
      rw [hheights p] at hi
      rw [elevel]
      obtain ⟨q2, hq2⟩ := NextAt.exists (fun r => s.height (P r)) (n + 1) i (k + 1) (by omega)
      have hq2le := hq2.le
      have hq2lt := hq2.lt
      by_cases hpk : p ≤ k
      · rw [if_pos hpk] at hi
        rw [hP1 p hpk]
        obtain ⟨q0, hq0⟩ := NextAt.exists (fun r => s.height (P r)) (n + 1) i p (by omega)
        obtain ⟨c1, c2, c3, -⟩ := nextAt_del hkn hp hq1 hq0 hq2
        obtain ⟨l1, l2⟩ := R.link i p q0 (by omega) hi hq0
        have hle := hq0.le
        have hlt' := hq0.lt
        rcases Nat.lt_trichotomy q0 (k + 1) with hlt | heq | hgt
        · -- not affected
          have hqe := c1 hpk rfl (by omega)
          subst hqe
          have hne : i < s.level → P p ≠ P (f i) := by
            intro hil he
            have := R.inj p (f i) (by omega) (by have := hfk i hil; omega) he
            have := (F.uniq hil hpk hi hq0).2 this
            omega
          rw [if_pos (by omega)] at l1
          refine ⟨?_, fun hil => ?_⟩
          · rw [if_pos (show q ≤ n by omega), hP1 q (by omega), ← l1]
            by_cases hil : i < s.level
            · rw [efwd _ _ hil, if_neg (fun h => hne hil h.1)]
            · rw [efwd' _ _ (by omega)]
          · rw [espan _ _ hil, if_neg (hne hil), l2 hil]; omega
        · -- the removed node is linked on this level
          have hqe := c2 hpk rfl heq
          have hxi : i < s.height (P (k + 1)) := by
            have := hq0.hit (by omega); rw [heq] at this; exact this
          have hil : i < s.level := by omega
          have hpf := (F.uniq hil hpk hi hq0).1 (by omega)
          rw [if_pos (by omega), heq] at l1
          obtain ⟨m1, m2⟩ := R.link i (k + 1) q2 (by omega) hxi hq2
          refine ⟨?_, fun _ => ?_⟩
          · rw [efwd _ _ hil, if_pos ⟨by rw [hpf], l1⟩, m1]
            by_cases hqn : q ≤ n
            · rw [if_pos hqn, if_pos (by omega), hP2 q (by omega), hqe]
            · rw [if_neg hqn, if_neg (by omega)]
          · rw [espan _ _ hil, if_pos (by rw [hpf]), if_pos l1, l2 hil, m2 hil]
            omega
        · -- the removed node is lower
          have hqe := c3 hpk rfl hgt
          have hnotx : s.fwd (P p) i ≠ some (P (k + 1)) := by
            rw [l1]
            split
            · intro he
              have := R.inj q0 (k + 1) (by omega) (by omega) (by simpa using he)
              omega
            · simp
          refine ⟨?_, fun hil => ?_⟩
          · have e1 : s'.fwd (P p) i = s.fwd (P p) i := by
              by_cases hil : i < s.level
              · rw [efwd _ _ hil, if_neg (fun h => hnotx h.2)]
              · rw [efwd' _ _ (by omega)]
            rw [e1, l1]
            by_cases hqn : q ≤ n
            · rw [if_pos hqn, if_pos (by omega), hP2 q (by omega), hqe]
            · rw [if_neg hqn, if_neg (by omega)]
          · have hpf := (F.uniq hil hpk hi hq0).1 (by omega)
            rw [espan _ _ hil, if_pos (by rw [hpf]), if_neg hnotx, l2 hil]
            omega
      · rw [if_neg hpk] at hi
        rw [hP2 p (by omega)]
        obtain ⟨q0, hq0⟩ := NextAt.exists (fun r => s.height (P r)) (n + 1) i (p + 1) (by omega)
        obtain ⟨-, -, -, c4⟩ := nextAt_del hkn hp hq1 hq0 hq2
        obtain ⟨l1, l2⟩ := R.link i (p + 1) q0 (by omega) hi hq0
        have hle := hq0.le
        have hlt' := hq0.lt
        have hqe := c4 (by omega) rfl
        have hil : i < s.level := by have := (R.ht (p + 1) (by omega) (by omega)).2; omega
        have hne : P (p + 1) ≠ P (f i) := by
          intro he
          have := R.inj (p + 1) (f i) (by omega) (by have := hfk i hil; omega) he
          have := hfk i hil
          omega
        refine ⟨?_, fun _ => ?_⟩
        · rw [efwd _ _ hil, if_neg (fun h => hne h.1), l1]
          by_cases hqn : q ≤ n
          · rw [if_pos hqn, if_pos (by omega), hP2 q (by omega), hqe]
          · rw [if_neg hqn, if_neg (by omega)]
        · rw [espan _ _ hil, if_neg hne, l2 hil]
          omega
    · intro p hp1 hp2
      rw [eback]
      by_cases hpk : p ≤ k
      · rw [hP1 p hpk, if_neg, R.back p hp1 (by omega), hP1 (p - 1) (by omega)]
        rintro ⟨a, b⟩
        have := R.inj p (k + 2) (by omega) (by omega) b; omega
      · rw [hP2 p (by omega)]
        by_cases hpk1 : p = k + 1
        · subst hpk1
          rw [if_pos ⟨by omega, rfl⟩, R.back (k + 1) (by omega) (by omega), Nat.add_sub_cancel, hP1 k (Nat.le_refl _)]
        · rw [if_neg, R.back (p + 1) (by omega) (by omega), if_neg (by omega), if_neg (by omega), hP2 (p - 1) (by omega)]
          · rw [Nat.sub_add_cancel (by omega)]; rfl
          · rintro ⟨a, b⟩
            have := R.inj (p + 1) (k + 2) (by omega) (by omega) b; omega
    · rw [etail]
      by_cases hlast : k + 2 ≤ n + 1
      · rw [if_pos hlast, R.tail, if_neg (by omega), if_neg (by omega), hP2 n (by omega)]
      · rw [if_neg hlast, R.back (k + 1) (by omega) (by omega)]
        have : k = n := by omega
        subst this
        rw [Nat.add_sub_cancel, hP1 k (Nat.le_refl _)]
        by_cases h0 : k = 0
        · simp [h0]
        · rw [if_neg (by omega), if_neg h0]
  · refine ⟨hkn, F.f0, ?_, F.le, ?_, ?_⟩
    · intro i hi; rw [hP1 (f i) (hfk i hi)]; exact F.upd i hi
    · intro i hi; rw [eheight, hP1 (f i) (hfk i hi)]; exact F.high i hi
    · intro i hi r h1 h2; rw [eheight, hP1 r h2]; exact F.gap i hi r h1 h2

/-- The loop lowering `sl.level`. -/
theorem lower_ok {s : St K V} {n : Nat} {P : Nat → Nat} (l : Nat) (h1 : 1 ≤ l) (R : Rep { s with level := l } n P) :
    ∃ l', lowerLoop s l = .ok l' ∧ l' ≤ l ∧ Rep { s with level := l' } n P := by
  induction l with
  | zero => omega
  | succ l ih =>
    rw [lowerLoop]
    by_cases hl : l + 1 > 1
    · rw [if_pos hl]
      have hl32 := R.l32
      have hh := R.hh
      simp only at hl32 hh
      simp only [St.getFwd, hh, if_pos (show l < 32 by omega), Res.bind_ok]
      by_cases hf : s.fwd s.header l = none
      · rw [if_pos hf]
        have R' : Rep { s with level := l } n P := by
          refine ⟨R.head, R.inj, R.old, R.hh, by simp; omega, by simp; omega, ?_, R.size, ?_, R.back, R.tail⟩
          · intro p hp1 hp2
            refine ⟨(R.ht p hp1 hp2).1, ?_⟩
            obtain ⟨q, hq⟩ := NextAt.exists (fun r => s.height (P r)) n l 0 (by omega)
            have := (R.link l 0 q (by omega) (by rw [R.head]; simp [hh]; omega) hq).1
            rw [R.head] at this
            simp only [hf] at this
            have hqn : ¬ q ≤ n := by intro h; rw [if_pos h] at this; simp at this
            have := hq.gap p hp1 (by omega)
            exact this
          · intro i p q hp hi hq
            obtain ⟨a, b⟩ := R.link i p q hp hi hq
            exact ⟨a, fun h => b (by simp only at h ⊢; omega)⟩
        obtain ⟨l', e, h2, h3⟩ := ih (by omega) R'
        exact ⟨l', e, by omega, h3⟩
      · rw [if_neg hf]
        exact ⟨l + 1, rfl, Nat.le_refl _, R⟩
    · rw [if_neg hl]
      exact ⟨l + 1, rfl, Nat.le_refl _, R⟩

theorem lowerLoop_congr (s s' : St K V) (h1 : s.height = s'.height) (h2 : s.fwd = s'.fwd) (h3 : s.header = s'.header)
    (l : Nat) : lowerLoop s l = lowerLoop s' l := by
  induction l with
  | zero => rfl
  | succ l ih => rw [lowerLoop, lowerLoop, ih]; unfold St.getFwd; rw [h1, h2, h3]

/-- `deleteNode` of the node behind the finger. -/
theorem deleteNode_ok {s : St K V} {n : Nat} {P : Nat → Nat} (R : Rep s (n + 1) P) {k : Nat} {u : Upd} {f : Nat → Nat} {lv : Nat}
    (F : Finger s (n + 1) P lv k u f) (hlv : s.level ≤ lv) (hkn : k ≤ n) :
    ∃ s', deleteNode s (P (k + 1)) u = .ok s' ∧ Rep s' n (delPos P k) ∧ Finger s' n (delPos P k) lv k u f ∧
      s'.level ≤ s.level ∧ s'.key = s.key ∧ s'.val = s.val ∧ s'.alloc = s.alloc ∧ s'.header = s.header ∧ s'.height = s.height ∧
      (∀ y, y ≠ P k → s'.fwd y 0 = s.fwd y 0) := by
  have F' : Finger s (n + 1) P s.level k u f := ⟨F.k_le, F.f0, fun i h => F.upd i (by omega), fun i h => F.le i (by omega),
    fun i h => F.high i (by omega), fun i h => F.gap i (by omega)⟩
  obtain ⟨hx1, hx2⟩ := R.ht (k + 1) (by omega) (by omega)
  have hfk : ∀ i, i < s.level → f i ≤ k := fun i hi => F'.le i hi
  have hUx : ∀ j, j < s.level → P (f j) ≠ P (k + 1) := by
    intro j hj he
    have := R.inj (f j) (k + 1) (by have := hfk j hj; omega) (by omega) he
    have := hfk j hj; omega
  unfold deleteNode
  rw [unlinkLoop_ok s u (P (k + 1)) (fun j => P (f j)) s.level 0 (by
    intro j _ hj
    have hj : j < s.level := by omega
    refine ⟨(F'.upd j hj).1, hUx j hj, F'.high j hj, ?_⟩
    intro he
    obtain ⟨q, hq⟩ := NextAt.exists (fun r => s.height (P r)) (n + 1) j (f j) (by have := hfk j hj; omega)
    have hl := (R.link j (f j) q (by have := hfk j hj; omega) (F'.high j hj) hq).1
    rw [he] at hl
    by_cases hqn : q ≤ n + 1
    · rw [if_pos hqn] at hl
      have := R.inj (k + 1) q (by omega) hqn (by simpa using hl)
      rw [this]; exact hq.hit hqn
    · rw [if_neg hqn] at hl; simp at hl)]
  rw [Res.bind_ok]
  have hfx : s.fwd (P (k + 1)) 0 = if k + 2 ≤ n + 1 then some (P (k + 2)) else none :=
    (R.link 0 (k + 1) (k + 2) (by omega) (R.hpos (k + 1) (by omega)) (R.next0 (k + 1) (by omega))).1
  have hl1 := R.l1
  generalize hs1 : ({ s with fwd := _, span := _ } : St K V) = s1
  have e_height : s1.height = s.height := by rw [← hs1]
  have e_key : s1.key = s.key := by rw [← hs1]
  have e_val : s1.val = s.val := by rw [← hs1]
  have e_back : s1.back = s.back := by rw [← hs1]
  have e_tail : s1.tail = s.tail := by rw [← hs1]
  have e_alloc : s1.alloc = s.alloc := by rw [← hs1]
  have e_header : s1.header = s.header := by rw [← hs1]
  have e_level : s1.level = s.level := by rw [← hs1]
  have e_size : s1.size = s.size := by rw [← hs1]
  have e_fwd : ∀ y j, s1.fwd y j = if 0 ≤ j ∧ j < 0 + s.level ∧ y = P (f j) ∧ s.fwd y j = some (P (k + 1)) then s.fwd (P (k + 1)) j else s.fwd y j := by
    intro y j; rw [← hs1]
  have e_span : ∀ y j, s1.span y j = if 0 ≤ j ∧ j < 0 + s.level ∧ y = P (f j) then
            (if s.fwd y j = some (P (k + 1)) then s.span y j + (s.span (P (k + 1)) j - 1) else s.span y j - 1) else s.span y j := by
    intro y j; rw [← hs1]
  have hf1 : s1.getFwd (P (k + 1)) 0 = .ok (if k + 2 ≤ n + 1 then some (P (k + 2)) else none) := by
    unfold St.getFwd
    have h0 : 0 < s.height (P (k + 1)) := hx1
    rw [e_height, if_pos h0, e_fwd, if_neg, hfx]
    rintro ⟨_, _, h, _⟩
    exact hUx 0 hl1 h.symm
  rw [hf1, Res.bind_ok]
  generalize hs2 : (match (if k + 2 ≤ n + 1 then some (P (k + 2)) else none : Option Nat) with
      | some y => s1.setBack y (s1.back (P (k + 1)))
      | none => { s1 with tail := s1.back (P (k + 1)) } : St K V) = s2
  have a_eq : s2 = { s1 with
      back := fun y => if k + 2 ≤ n + 1 ∧ y = P (k + 2) then s.back (P (k + 1)) else s.back y
      tail := if k + 2 ≤ n + 1 then s.tail else s.back (P (k + 1)) } := by
    rw [← hs2]
    by_cases hlast : k + 2 ≤ n + 1
    · simp only [hlast, if_true, true_and, St.setBack, e_back, e_tail]
    · simp only [hlast, if_false, false_and, e_back]
  have RF := delete_rep (s' := { s2 with size := s2.size - 1 }) R F' hkn
    (by intro y; simp only [a_eq, e_height])
    (by intro y j hj; simp only [a_eq, e_fwd]; simp [hj])
    (by intro y j hj; simp only [a_eq, e_fwd]; rw [if_neg (by omega)])
    (by intro y j hj; simp only [a_eq, e_span]; simp [hj])
    (by intro y; simp only [a_eq])
    (by simp only [a_eq]) (by simp only [a_eq, e_size]) (by simp only [a_eq, e_level]) (by simp only [a_eq, e_alloc])
    (by simp only [a_eq, e_header])
  have hlev : s2.level = s.level := by rw [a_eq]; exact e_level
  have R0 : Rep { s2 with size := s2.size - 1, level := s2.level } n (delPos P k) := RF.1
  obtain ⟨l', e, h2, h3⟩ := lower_ok (s := { s2 with size := s2.size - 1 }) s2.level (by omega) R0
  have e' : lowerLoop s2 s2.level = .ok l' := by
    rw [← e]; exact lowerLoop_congr s2 { s2 with size := s2.size - 1 } rfl rfl rfl _
  refine ⟨{ s2 with level := l', size := s2.size - 1 }, ?_, h3, ?_, ?_, ?_, ?_, ?_, ?_, ?_, ?_⟩
  · refine (congrArg (fun s2 : St K V => (lowerLoop s2 s2.level >>= fun l =>
      pure ({ s2 with level := l, size := s2.size - 1 } : St K V) : Res (St K V))) hs2).trans ?_
    show (lowerLoop s2 s2.level >>= _) = _
    rw [e', Res.bind_ok]; rfl
  · have G := RF.2
    have hP1 : ∀ r, r ≤ k → delPos P k r = P r := fun r h => by simp [delPos, h]
    refine ⟨hkn, F.f0, ?_, F.le, ?_, ?_⟩
    · intro i hi; rw [hP1 (f i) (F.le i hi)]; exact F.upd i hi
    · intro i hi
      show i < s2.height _
      rw [a_eq, hP1 (f i) (F.le i hi)]; simp only [e_height]; exact F.high i hi
    · intro i hi r h1 h2
      show s2.height _ ≤ i
      rw [a_eq, hP1 r h2]; simp only [e_height]; exact F.gap i hi r h1 h2
  · show l' ≤ s.level; omega
  · show s2.key = _; rw [a_eq]; exact e_key
  · show s2.val = _; rw [a_eq]; exact e_val
  · show s2.alloc = _; rw [a_eq]; exact e_alloc
  · show s2.header = _; rw [a_eq]; exact e_header
  · show s2.height = _; rw [a_eq]; exact e_height
  · intro y hy
    show s2.fwd y 0 = _
    rw [a_eq]; simp only [e_fwd]
    rw [if_neg]
    rintro ⟨_, _, h, _⟩
    rw [F.f0] at h; exact hy h

end Gds.SkipList
