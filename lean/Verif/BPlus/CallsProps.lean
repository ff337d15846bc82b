import Verif.BPlus.CallsDel

/-! Property C128: the theorems. -/
namespace Gds.BPlus
open BT Tree
variable {K V E : Type} [Inhabited K] [Inhabited V]

/-! ### C128 -/

theorem stepE_any (cmp : EComp K E) (t : Tree K V) {d : Nat} (b : BT K V d) (g : Good t b) (c : Nat) (e : E) (call : ECall K V) :
    (∃ a t' d' b' c' e', stepE (counted cmp) (c, e) t call = .ok (a, t', (c', e')) ∧ Good t' (d := d') b' ∧ t'.degree = t.degree ∧
      AnyStep b.entries call a b'.entries ∧ c' ≤ c + callBound t.degree b.entries.length call) ∨
    (stepE (counted cmp) (c, e) t call = .panic .indexOutOfRange ∧ ∃ k, call = .delete k) := by
  cases call with
  | has k =>
    obtain ⟨q, i, ex, c', e', h1, h2, h3, h4⟩ := searchE_any cmp t b g k c e
    refine Or.inl ⟨.has ex, t, d, b, c', e', by simp [stepE, containsKeyE, h1], g, rfl, ?_, h4⟩
    by_cases h : b.entries = []
    · rw [h, h3 h]; exact .empty k
    · exact .has k ex _ h
  | get k =>
    obtain ⟨q, i, ex, c', e', h1, h2, h3, h4⟩ := searchE_any cmp t b g k c e
    cases ex with
    | false => exact Or.inl ⟨.get none, t, d, b, c', e', by simp [stepE, getVerifyE, h1], g, rfl, .absent k _, h4⟩
    | true =>
      obtain ⟨p, rfl, hi, hm⟩ := h2 rfl
      exact Or.inl ⟨.get (some (t.h.values p i).2), t, d, b, c', e', by simp [stepE, getVerifyE, h1, getVal, hi], g, rfl, .present k _ _ hm, h4⟩
  | insertEqual k v =>
    obtain ⟨t', d', b', c', e', h1, g', hd, ha, h2⟩ := insertE_any cmp t b (k, v) g c e
    exact Or.inl ⟨.inserted true, t', d', b', c', e', by simp [stepE, h1], g', hd, .equal k v _ _ ha, h2⟩
  | insertUnique k v =>
    obtain ⟨q, i, ex, c1, e1, h1, h2, h3, h4⟩ := searchE_any cmp t b g k c e
    cases ex with
    | false =>
      obtain ⟨t', d', b', c', e', h5, g', hd, ha, h6⟩ := insertE_any cmp t b (k, v) g c1 e1
      exact Or.inl ⟨.inserted true, t', d', b', c', e', by simp [stepE, insertUniqueE, containsKeyE, h1, h5], g', hd, .unique k v _ _ ha,
        by simp only [callBound]; omega⟩
    | true =>
      refine Or.inl ⟨.inserted false, t, d, b, c1, e1, by simp [stepE, insertUniqueE, containsKeyE, h1], g, rfl, .refused k v _ (fun h => ?_),
        by simp only [callBound]; omega⟩
      have := h3 h
      simp at this
  | delete k =>
    rcases deleteE_any cmp k t b g c e with ⟨t', r, d', c', e', b', f, g', hd, ha, hc⟩ | f
    · exact Or.inl ⟨.deleted r, t', d', b', c', e', by simp [stepE, f], g', hd, ha, by simpa only [callBound] using hc⟩
    · exact Or.inr ⟨by simp [stepE, f], k, rfl⟩

theorem runE_any (cmp : EComp K E) : ∀ (cs : List (ECall K V)) (t : Tree K V) {d : Nat} (b : BT K V d) (_ : Good t b) (c : Nat) (e : E),
    (∃ as t' d' b' c' e', runE (counted cmp) (c, e) t cs = .ok (as, t', (c', e')) ∧ Good t' (d := d') b' ∧ t'.degree = t.degree ∧
      AnyRun b.entries cs as b'.entries) ∨
    (runE (counted cmp) (c, e) t cs = .panic .indexOutOfRange ∧ ∃ k, .delete k ∈ cs) := by
  intro cs
  induction cs with
  | nil => intro t d b g c e; exact Or.inl ⟨[], t, d, b, c, e, rfl, g, rfl, .nil⟩
  | cons call cs ih =>
    intro t d b g c e
    rcases stepE_any cmp t b g c e call with ⟨a, t1, d1, b1, c1, e1, h1, g1, hd1, s1, -⟩ | ⟨h1, k, rfl⟩
    · rcases ih t1 b1 g1 c1 e1 with ⟨as, t2, d2, b2, c2, e2, h2, g2, hd2, s2⟩ | ⟨h2, k, hk⟩
      · exact Or.inl ⟨a :: as, t2, d2, b2, c2, e2, by simp [runE, h1, h2], g2, hd2.trans hd1, .cons s1 s2⟩
      · exact Or.inr ⟨by simp [runE, h1, h2], k, by simp [hk]⟩
    · exact Or.inr ⟨by simp [runE, h1], k, by simp⟩

/-- C128: with any comparator whatsoever — inconsistent, with state, answering at random — a history of lookups, insertions and deletions on a new
B+ tree returns, or stops in a deletion at an index out of range. If it returns, its answers are those of some history of steps on a list of entries,
and that list is what the linked leaves of the tree hold; the tree keeps its shape. -/
theorem any_comparator (cmp : EComp K E) (M : Nat) (hM : 2 ≤ M) (e : E) (cs : List (ECall K V)) :
    ∃ t0, newMap M = .ok t0 ∧
      ((∃ as t n e' d l es ss, runE (counted cmp) (0, e) t0 cs = .ok (as, t, (n, e')) ∧ t.degree = M ∧ Holds t d l es ss ∧ AnyRun [] cs as es) ∨
       (runE (counted cmp) (0, e) t0 cs = .panic .indexOutOfRange ∧ ∃ k, .delete k ∈ cs)) := by
  obtain ⟨t0, h0, hd, g⟩ := newMap_good (K := K) (V := V) hM
  refine ⟨t0, h0, ?_⟩
  rcases runE_any cmp cs t0 _ g 0 e with ⟨as, t, d', b', c', e', h1, g', hd', s⟩ | h
  · exact Or.inl ⟨as, t, c', e', d', _, _, _, h1, hd'.trans hd, g'.holds, s⟩
  · exact Or.inr h

/-- C128: the comparator calls of the next call, counted from zero, after any such history, on a tree of degree `M` with `n` entries: a lookup makes
at most `(log_M n + 1) * (log₂ (2M-1) + 1)` of them, `InsertEqual` at most `(log_M n + 2) * 2M`, and `InsertUnique` and `Delete` those of a lookup and
at most `(log_M n + 2) * 2M` and `(log_M n + 1) * 2M` more. -/
theorem calls_of_one (cmp : EComp K E) (M : Nat) (hM : 2 ≤ M) (e : E) (cs : List (ECall K V)) {t0 t : Tree K V} {as : List (EAns V)} {n : Nat} {e' : E}
    (h0 : newMap M = .ok t0) (h : runE (counted cmp) (0, e) t0 cs = .ok (as, t, (n, e'))) {d : Nat} {l : List Nat} {es ss : List (K × V)}
    (hh : Holds t d l es ss) (c : ECall K V) :
    (∃ a t' k e'' d' l' es' ss', stepE (counted cmp) (0, e') t c = .ok (a, t', (k, e'')) ∧ Holds t' d' l' es' ss' ∧ AnyStep es c a es' ∧
      k ≤ callBound M es.length c) ∨
    (stepE (counted cmp) (0, e') t c = .panic .indexOutOfRange ∧ ∃ k, c = .delete k) := by
  obtain ⟨t0', h0', hd, g⟩ := newMap_good (K := K) (V := V) hM
  rw [h0'] at h0
  cases h0
  rcases runE_any cmp cs t0 _ g 0 e with ⟨as1, t1, d1, b1, c1, e1, h1, g1, hd1, s1⟩ | ⟨h1, -⟩
  · rw [h1] at h
    cases h
    obtain ⟨-, -, rfl, -⟩ := hh.unique g1.holds
    rcases stepE_any cmp t b1 g1 0 e' c with ⟨a, t', d', b', c', e'', h2, g2, -, s2, hk⟩ | h2
    · refine Or.inl ⟨a, t', c', e'', d', _, _, _, h2, g2.holds, s2, ?_⟩
      rw [hd1, hd] at hk
      omega
    · exact Or.inr h2
  · rw [h1] at h; cases h

/-! ### A comparator whose answers depend on its arguments alone -/

theorem bsearchE_pure (f : Compare K) (g : K → K → E → E) (t : Tree K V) (node : Option Nat) (key : K) : ∀ (n l hi mid : Nat) (e : E) (r : (Nat × Nat × Bool) × E),
    hi - l ≤ n → bsearchE (fun a b e => (f a b, g a b e)) e t node key l hi mid = .ok r → bsearch f t node key l hi mid = .ok r.1 := by
  intro n
  induction n with
  | zero =>
    intro l hi mid e r hn h
    have : ¬ l < hi := by omega
    rw [bsearchE, if_neg this] at h
    rw [bsearch, if_neg this]
    cases h; rfl
  | succ n ih =>
    intro l hi mid e r hn h
    by_cases hlt : l < hi
    · rw [bsearchE, if_pos hlt] at h
      rw [bsearch, if_pos hlt]
      simp only at h ⊢
      cases hv : t.getVal node ((l + (hi - 1)) / 2) with
      | panic => rw [hv] at h; simp at h
      | hang => rw [hv] at h; simp at h
      | ok v =>
        simp only [hv, Res.bind_ok] at h ⊢
        by_cases h1 : f key v.1 < 0
        · simp only [h1, if_true] at h ⊢
          exact ih _ _ _ _ _ (by omega) h
        · simp only [h1, if_false] at h ⊢
          by_cases h2 : 0 < f key v.1
          · simp only [h2, if_true] at h ⊢
            exact ih _ _ _ _ _ (by omega) h
          · simp only [h2, if_false] at h ⊢
            cases h; rfl
    · rw [bsearchE, if_neg hlt] at h
      rw [bsearch, if_neg hlt]
      cases h; rfl

theorem Res.ok_of_bind {A B : Type} {x : Res A} {k : A → Res B} {b : B} (h : (x >>= k) = .ok b) : ∃ a, x = .ok a ∧ k a = .ok b := by
  cases x with
  | ok a => exact ⟨a, rfl, h⟩
  | panic => simp at h
  | hang => simp at h

theorem admissible_ok {A : Type} (P : A → Prop) : Lean.Order.admissible (fun (r : Res A) => ∀ a, r = .ok a → P a) :=
  Lean.Order.admissible_flatOrder (fun (r : Res A) => ∀ a, r = .ok a → P a) (fun _ h => by cases h)

theorem searchLoopE_pure (f : Compare K) (g : K → K → E → E) (t : Tree K V) (key : K) :
    ∀ (e : E) (node : Option Nat) (r : (Option Nat × Nat × Bool) × E),
    searchLoopE (fun a b e => (f a b, g a b e)) e t node key = .ok r → searchLoop f t node key = .ok r.1 := by
  apply searchLoopE.fixpoint_induct (fun a b e => (f a b, g a b e)) t key
    (fun F => ∀ (e : E) (node : Option Nat) (r : (Option Nat × Nat × Bool) × E), F e node = .ok r → searchLoop f t node key = .ok r.1)
  · refine Lean.Order.admissible_pi _ fun e => Lean.Order.admissible_pi _ fun node => ?_
    exact Lean.Order.admissible_apply (fun _ (G : Option Nat → Res ((Option Nat × Nat × Bool) × E)) => ∀ r, G node = .ok r → searchLoop f t node key = .ok r.1) e
      (Lean.Order.admissible_apply (fun nd (x : Res ((Option Nat × Nat × Bool) × E)) => ∀ r, x = .ok r → searchLoop f t node key = .ok r.1) node (admissible_ok _))
  · intro F ih e node r h
    obtain ⟨n, h1, h⟩ := Res.ok_of_bind h
    obtain ⟨b, h2, h⟩ := Res.ok_of_bind h
    obtain ⟨lf, h3, h⟩ := Res.ok_of_bind h
    rw [searchLoop]
    simp only [h1, bsearchE_pure f g t node key _ _ _ _ _ _ (Nat.le_refl _) h2, h3, Res.bind_ok]
    cases lf with
    | true =>
      simp only [if_true] at h ⊢
      cases hb : b.1.2.2 <;> simp only [hb, if_true, Bool.false_eq_true, if_false] at h ⊢ <;> (cases h; rfl)
    | false =>
      simp only [Bool.false_eq_true, if_false] at h ⊢
      obtain ⟨c, h4, h⟩ := Res.ok_of_bind h
      simp only [h4, Res.bind_ok]
      exact ih _ _ _ h

theorem searchE_pure (f : Compare K) (g : K → K → E → E) (t : Tree K V) (key : K) (e : E) (r : (Option Nat × Nat × Bool) × E)
    (h : searchE (fun a b e => (f a b, g a b e)) e t key = .ok r) : search f t key = .ok r.1 := by
  rw [searchE] at h
  rw [search]
  by_cases hs : t.size = 0
  · simp only [hs, if_true] at h ⊢; cases h; rfl
  · simp only [hs, if_false] at h ⊢; exact searchLoopE_pure f g t key _ _ _ h

theorem leafShiftE_pure (f : Compare K) (g : K → K → E → E) (node : Option Nat) (key : K) : ∀ (n : Nat) (t : Tree K V) (e : E) (r : (Tree K V × Nat) × E),
    leafShiftE (fun a b e => (f a b, g a b e)) e t node key n = .ok r → leafShift f t node key n = .ok r.1 := by
  intro n
  induction n with
  | zero => intro t e r h; cases h; rfl
  | succ n ih =>
    intro t e r h
    rw [leafShiftE] at h
    obtain ⟨v, h1, h⟩ := Res.ok_of_bind h
    rw [leafShift]
    simp only [h1, Res.bind_ok]
    by_cases hc : f key v.1 < 0
    · simp only [hc, if_true] at h ⊢
      obtain ⟨t', h2, h⟩ := Res.ok_of_bind h
      simp only [h2, Res.bind_ok]
      exact ih _ _ _ h
    · simp only [hc, if_false] at h ⊢; cases h; rfl

theorem descendPosE_pure (f : Compare K) (g : K → K → E → E) (t : Tree K V) (node : Option Nat) (key : K) : ∀ (n : Nat) (e : E) (r : Nat × E),
    descendPosE (fun a b e => (f a b, g a b e)) e t node key n = .ok r → descendPos f t node key n = .ok r.1 := by
  intro n
  induction n with
  | zero => intro e r h; cases h; rfl
  | succ n ih =>
    intro e r h
    rw [descendPosE] at h
    obtain ⟨v, h1, h⟩ := Res.ok_of_bind h
    rw [descendPos]
    simp only [h1, Res.bind_ok]
    by_cases hc : f key v.1 < 0
    · simp only [hc, if_true] at h ⊢
      exact ih _ _ h
    · simp only [hc, if_false] at h ⊢; cases h; rfl

theorem insertNonFullE_pure (f : Compare K) (g : K → K → E → E) (p : K × V) : ∀ (e : E) (t : Tree K V) (node : Option Nat) (r : Tree K V × E),
    insertNonFullE (fun a b e => (f a b, g a b e)) e t node p = .ok r → insertNonFull f t node p = .ok r.1 := by
  apply insertNonFullE.fixpoint_induct (fun a b e => (f a b, g a b e)) p
    (fun F => ∀ (e : E) (t : Tree K V) (node : Option Nat) (r : Tree K V × E), F e t node = .ok r → insertNonFull f t node p = .ok r.1)
  · refine Lean.Order.admissible_pi _ fun e => Lean.Order.admissible_pi _ fun t => Lean.Order.admissible_pi _ fun node => ?_
    exact Lean.Order.admissible_apply (fun _ (G : Tree K V → Option Nat → Res (Tree K V × E)) => ∀ r, G t node = .ok r → insertNonFull f t node p = .ok r.1) e
      (Lean.Order.admissible_apply (fun _ (G : Option Nat → Res (Tree K V × E)) => ∀ r, G node = .ok r → insertNonFull f t node p = .ok r.1) t
        (Lean.Order.admissible_apply (fun _ (x : Res (Tree K V × E)) => ∀ r, x = .ok r → insertNonFull f t node p = .ok r.1) node (admissible_ok _)))
  · intro F ih e t node r h
    obtain ⟨lf, h1, h⟩ := Res.ok_of_bind h
    rw [insertNonFull]
    simp only [h1, Res.bind_ok]
    cases lf with
    | true =>
      simp only [if_true] at h ⊢
      obtain ⟨n, h2, h⟩ := Res.ok_of_bind h
      obtain ⟨q, h3, h⟩ := Res.ok_of_bind h
      obtain ⟨t1, h4, h⟩ := Res.ok_of_bind h
      obtain ⟨t2, h5, h⟩ := Res.ok_of_bind h
      simp only [h2, leafShiftE_pure f g node p.1 n t e q h3, h4, h5, Res.bind_ok]
      cases h; rfl
    | false =>
      simp only [Bool.false_eq_true, if_false] at h ⊢
      obtain ⟨n, h2, h⟩ := Res.ok_of_bind h
      obtain ⟨q, h3, h⟩ := Res.ok_of_bind h
      obtain ⟨c, h4, h⟩ := Res.ok_of_bind h
      obtain ⟨cn, h5, h⟩ := Res.ok_of_bind h
      simp only [h2, descendPosE_pure f g t node p.1 n e q h3, h4, h5, Res.bind_ok]
      by_cases hf : 2 * t.degree - 1 = cn
      · simp only [hf, if_true] at h ⊢
        obtain ⟨t1, h6, h⟩ := Res.ok_of_bind h
        obtain ⟨v, h7, h⟩ := Res.ok_of_bind h
        obtain ⟨c2, h8, h⟩ := Res.ok_of_bind h
        simp only [h6, h7, h8, Res.bind_ok]
        exact ih _ _ _ _ h
      · simp only [hf, if_false] at h ⊢
        exact ih _ _ _ _ h

theorem insertE_pure (f : Compare K) (g : K → K → E → E) (p : K × V) (e : E) (t : Tree K V) (r : Tree K V × E)
    (h : insertE (fun a b e => (f a b, g a b e)) e t p = .ok r) : insert f t p = .ok r.1 := by
  rw [insertE] at h
  rw [insert]
  by_cases h0 : t.root = none
  · simp only [h0, if_true] at h ⊢; cases h; rfl
  · simp only [h0, if_false] at h ⊢
    obtain ⟨n, h1, h⟩ := Res.ok_of_bind h
    simp only [h1, Res.bind_ok]
    by_cases hf : t.degree * 2 - 1 = n
    · simp only [hf, if_true] at h ⊢
      obtain ⟨t1, h2, h⟩ := Res.ok_of_bind h
      obtain ⟨t2, h3, h⟩ := Res.ok_of_bind h
      obtain ⟨t3, h4, h⟩ := Res.ok_of_bind h
      obtain ⟨q, h5, h⟩ := Res.ok_of_bind h
      simp only [h2, h3, h4, insertNonFullE_pure f g p _ _ _ _ h5, Res.bind_ok]
      cases h; rfl
    · simp only [hf, if_false] at h ⊢
      exact insertNonFullE_pure f g p _ _ _ _ h

theorem findSlotE_pure (f : Compare K) (g : K → K → E → E) (t : Tree K V) (node : Option Nat) (key : K) : ∀ (n i : Nat) (e : E) (r : Nat × E),
    findSlotE (fun a b e => (f a b, g a b e)) e t node key i n = .ok r → findSlot f t node key i n = .ok r.1 := by
  intro n
  induction n with
  | zero => intro i e r h; cases h; rfl
  | succ n ih =>
    intro i e r h
    rw [findSlotE] at h
    obtain ⟨v, h1, h⟩ := Res.ok_of_bind h
    rw [findSlot]
    simp only [h1, Res.bind_ok]
    by_cases hc : f v.1 key < 0
    · simp only [hc, if_true] at h ⊢
      exact ih _ _ _ h
    · simp only [hc, if_false] at h ⊢; cases h; rfl

/-- What `x` returns is, but for the state, what `y` returns. -/
def Refines {A : Type} (x : Res (A × E)) (y : Res A) : Prop := ∀ r, x = .ok r → y = .ok r.1

omit [Inhabited K] [Inhabited V] in
theorem Refines.bind {A B : Type} {m : Res B} {k : B → Res (A × E)} {k' : B → Res A} (h : ∀ b, Refines (k b) (k' b)) : Refines (m >>= k) (m >>= k') := by
  intro r hr
  obtain ⟨b, h1, h2⟩ := Res.ok_of_bind hr
  rw [h1, Res.bind_ok]
  exact h b r h2

theorem Refines.ite {A : Type} {p : Prop} [Decidable p] {x x' : Res (A × E)} {y y' : Res A} (h : Refines x y) (h' : Refines x' y') :
    Refines (if p then x else x') (if p then y else y') := by
  split
  · exact h
  · exact h'

theorem deleteNonOneE_pure (f : Compare K) (g : K → K → E → E) (key : K) : ∀ (e : E) (t : Tree K V) (node : Option Nat) (r : Tree K V × E),
    deleteNonOneE (fun a b e => (f a b, g a b e)) e t node key = .ok r → deleteNonOne f t node key = .ok r.1 := by
  apply deleteNonOneE.fixpoint_induct (fun a b e => (f a b, g a b e)) key
    (fun F => ∀ (e : E) (t : Tree K V) (node : Option Nat) (r : Tree K V × E), F e t node = .ok r → deleteNonOne f t node key = .ok r.1)
  · refine Lean.Order.admissible_pi _ fun e => Lean.Order.admissible_pi _ fun t => Lean.Order.admissible_pi _ fun node => ?_
    exact Lean.Order.admissible_apply (fun _ (G : Tree K V → Option Nat → Res (Tree K V × E)) => ∀ r, G t node = .ok r → deleteNonOne f t node key = .ok r.1) e
      (Lean.Order.admissible_apply (fun _ (G : Option Nat → Res (Tree K V × E)) => ∀ r, G node = .ok r → deleteNonOne f t node key = .ok r.1) t
        (Lean.Order.admissible_apply (fun _ (x : Res (Tree K V × E)) => ∀ r, x = .ok r → deleteNonOne f t node key = .ok r.1) node (admissible_ok _)))
  · intro F ih e t node r h
    obtain ⟨lf, h1, h⟩ := Res.ok_of_bind h
    obtain ⟨n, h2, h⟩ := Res.ok_of_bind h
    obtain ⟨q, h3, h⟩ := Res.ok_of_bind h
    rw [deleteNonOne]
    simp only [h1, h2, findSlotE_pure f g t node key n 0 e q h3, Res.bind_ok]
    cases lf with
    | true =>
      simp only [if_true] at h ⊢
      obtain ⟨v, h4, h⟩ := Res.ok_of_bind h
      simp only [h4, Res.bind_ok]
      by_cases hc : f key v.1 = 0
      · simp only [hc, if_true] at h ⊢
        obtain ⟨t1, h5, h⟩ := Res.ok_of_bind h
        obtain ⟨t2, h6, h⟩ := Res.ok_of_bind h
        simp only [h5, h6, Res.bind_ok]
        cases h; rfl
      · simp only [hc, if_false] at h ⊢; cases h; rfl
    | false =>
      simp only [Bool.false_eq_true, if_false] at h ⊢
      revert h
      generalize hx : (Res.ok r : Res (Tree K V × E)) = x
      have key2 : ∀ (A : Res (Tree K V × E)) (B : Res (Tree K V)), Refines A B → A = .ok r → B = .ok r.1 := fun A B hr h => hr r h
      subst hx
      apply key2
      have hrec : ∀ e t node, Refines (F e t node) (deleteNonOne f t node key) := fun e t node r h => ih e t node r h
      repeat' first
        | exact hrec _ _ _
        | apply Refines.ite
        | (apply Refines.bind; intro _)
        | simp only [Res.bind_ok]

theorem deleteRootE_pure (f : Compare K) (g : K → K → E → E) (key : K) (e : E) (t : Tree K V) (r : Tree K V × E)
    (h : deleteRootE (fun a b e => (f a b, g a b e)) e t key = .ok r) : deleteRoot f t key = .ok r.1 := by
  rw [deleteRootE] at h
  rw [deleteRoot]
  obtain ⟨n, h1, h⟩ := Res.ok_of_bind h
  simp only [h1, Res.bind_ok]
  by_cases hn : 1 = n
  · rw [if_pos hn] at h ⊢
    obtain ⟨y, h2, h⟩ := Res.ok_of_bind h
    obtain ⟨z, h3, h⟩ := Res.ok_of_bind h
    simp only [h2, h3, Res.bind_ok]
    by_cases hyz : y ≠ none ∧ z ≠ none
    · rw [if_pos hyz] at h ⊢
      obtain ⟨yn, h4, h⟩ := Res.ok_of_bind h
      obtain ⟨zn, h5, h⟩ := Res.ok_of_bind h
      simp only [h4, h5, Res.bind_ok]
      by_cases hm : t.degree - 1 = yn ∧ t.degree - 1 = zn
      · rw [if_pos hm] at h ⊢
        obtain ⟨t1, h6, h⟩ := Res.ok_of_bind h
        obtain ⟨q, h7, h⟩ := Res.ok_of_bind h
        simp only [h6, deleteNonOneE_pure f g key _ _ _ _ h7, Res.bind_ok]
        cases h; rfl
      · rw [if_neg hm] at h ⊢
        exact deleteNonOneE_pure f g key _ _ _ _ h
    · rw [if_neg hyz] at h ⊢
      exact deleteNonOneE_pure f g key _ _ _ _ h
  · rw [if_neg hn] at h ⊢
    exact deleteNonOneE_pure f g key _ _ _ _ h

/-- C128: for a comparator whose answers depend on its arguments alone — whatever else it does — what a call returns is what the model of C63
and C65 returns. -/
theorem callsE_pure (f : Compare K) (g : K → K → E → E) (e : E) (t : Tree K V) (k : K) (v : V) :
    (∀ b e', containsKeyE (fun a b e => (f a b, g a b e)) e t k = .ok (b, e') → containsKey f t k = .ok b) ∧
    (∀ o e', getVerifyE (fun a b e => (f a b, g a b e)) e t k = .ok (o, e') → ∃ x, getVerify f t k = .ok (x, o.isSome) ∧ ∀ w, o = some w → x = w) ∧
    (∀ t' e', insertE (fun a b e => (f a b, g a b e)) e t (k, v) = .ok (t', e') → insertEqual f t k v = .ok (t', true)) ∧
    (∀ t' b e', insertUniqueE (fun a b e => (f a b, g a b e)) e t k v = .ok (t', b, e') → insertUnique f t k v = .ok (t', b)) ∧
    (∀ t' b e', deleteE (fun a b e => (f a b, g a b e)) e t k = .ok (t', b, e') → delete f t k = .ok (t', b)) := by
  have hc : ∀ (b : Bool) (e' : E), containsKeyE (fun a b e => (f a b, g a b e)) e t k = .ok (b, e') → containsKey f t k = .ok b := by
    intro b e' h
    obtain ⟨r, h1, h⟩ := Res.ok_of_bind h
    cases h
    simp only [containsKey, searchE_pure f g t k _ _ h1, Res.bind_ok]
  refine ⟨hc, ?_, ?_, ?_, ?_⟩
  · intro o e' h
    obtain ⟨r, h1, h⟩ := Res.ok_of_bind h
    simp only [getVerify, searchE_pure f g t k _ _ h1, Res.bind_ok]
    cases hb : r.1.2.2 with
    | true =>
      simp only [hb, if_true] at h ⊢
      obtain ⟨w, h2, h⟩ := Res.ok_of_bind h
      cases h
      simp [h2]
    | false =>
      simp only [hb, Bool.false_eq_true, if_false] at h ⊢
      cases h
      simp
  · intro t' e' h
    simp only [insertEqual, insertE_pure f g (k, v) e t _ h, Res.bind_ok]
  · intro t' b e' h
    obtain ⟨q, h1, h⟩ := Res.ok_of_bind h
    simp only [insertUnique, hc q.1 q.2 h1, Res.bind_ok]
    cases hb : q.1 with
    | true => simp only [hb, Bool.not_true, Bool.false_eq_true, if_false] at h ⊢; cases h; rfl
    | false =>
      simp only [hb, Bool.not_false, if_true] at h ⊢
      obtain ⟨r, h2, h⟩ := Res.ok_of_bind h
      cases h
      simp only [insertE_pure f g (k, v) _ t _ h2, Res.bind_ok]
  · intro t' b e' h
    obtain ⟨q, h1, h⟩ := Res.ok_of_bind h
    simp only [delete, hc q.1 q.2 h1, Res.bind_ok]
    cases hb : q.1 with
    | false => simp only [hb, Bool.false_eq_true, if_false] at h ⊢; cases h; rfl
    | true =>
      simp only [hb, if_true] at h ⊢
      obtain ⟨r, h2, h⟩ := Res.ok_of_bind h
      cases h
      simp only [deleteRootE_pure f g k _ t _ h2, Res.bind_ok]

/-! ### The hypotheses are met -/

/-- A comparator that answers -1, 1, -1, … by turns: nothing is ever found, and entries are put anywhere. -/
example : (do
    let t0 ← newMap (K := Nat) (V := Nat) 2
    let r ← runE (counted (E := Bool) fun _ _ e => (if e then -1 else 1, !e)) (0, true) t0
      [.insertEqual 5 50, .insertUnique 3 30, .insertUnique 4 40, .insertEqual 4 41, .get 4, .has 5, .delete 5]
    pure (r.1, r.2.2.1)) =
      .ok ([.inserted true, .inserted true, .inserted true, .inserted true, .get none, .has false, .deleted false], 13) := by cbv

/-- A comparator that says "equal" on two calls of five: lookups find the value of another key, deletions take any entry. -/
example : (do
    let t0 ← newMap (K := Nat) (V := Nat) 2
    let r ← runE (counted (E := Nat) fun _ _ e => (if e % 5 = 2 ∨ e % 5 = 4 then 0 else if e % 2 = 0 then -1 else 1, e + 1)) (0, 0) t0
      [.insertEqual 5 50, .insertUnique 3 30, .insertUnique 4 40, .insertEqual 4 41, .insertEqual 1 10, .get 4, .get 4, .has 7, .delete 5, .delete 9, .delete 9, .delete 8]
    pure (r.1, r.2.2.1)) =
      .ok ([.inserted true, .inserted true, .inserted false, .inserted true, .inserted true, .get (some 50), .get (some 50), .has true, .deleted true,
        .deleted false, .deleted true, .deleted true], 31) := by cbv

/-- A comparator that says "equal" in the lookup and "smaller" in the deletion, on a full leaf: the index is out of range. -/
example : (do
    let t0 ← newMap (K := Nat) (V := Nat) 2
    let r ← runE (counted (E := Nat) fun _ _ e => (if e = 3 then 0 else if e < 3 then 1 else -1, e + 1)) (0, 0) t0
      [.insertEqual 5 50, .insertEqual 3 30, .insertEqual 4 40, .delete 5]
    pure r.1) = .panic .indexOutOfRange := by cbv

end Gds.BPlus
