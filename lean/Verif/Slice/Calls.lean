import Verif.Slice.Props

/-! Property C130: which calls the slice functions make to their callbacks, when these carry state. -/
namespace Gds.Slice
variable {T U E : Type}

/-! ### The functions with callbacks that read and change a state -/

/-- slice.go:113-118, the loop of `EqualFunc`. -/
def equalFuncLoopE (eq : T → U → E → Bool × E) : List T → List U → E → Bool × E
  | a :: s1, b :: s2, e => if !(eq a b e).1 then (false, (eq a b e).2) else equalFuncLoopE eq s1 s2 (eq a b e).2
  | _, _, e => (true, e)

/-- slice.go:109-120 `EqualFunc`. -/
def equalFuncE (eq : T → U → E → Bool × E) (s1 : List T) (s2 : List U) (e : E) : Bool × E :=
  if s1.length ≠ s2.length then (false, e) else equalFuncLoopE eq s1 s2 e

/-- slice.go:157-172 `CompareFunc`. -/
def compareFuncE (cmp : T → U → E → Int × E) : List T → List U → E → Int × E
  | _ :: _, [], e => (1, e)
  | v1 :: s1, v2 :: s2, e => if (cmp v1 v2 e).1 ≠ 0 then cmp v1 v2 e else compareFuncE cmp s1 s2 (cmp v1 v2 e).2
  | [], s2, e => (if 0 < s2.length then -1 else 0, e)

/-- slice.go:187-194 `Slice.Index` from position `i` on. -/
def indexFuncFromE (f : T → E → Bool × E) : Nat → List T → E → Int × E
  | _, [], e => (-1, e)
  | i, v :: s, e => if (f v e).1 then (i, (f v e).2) else indexFuncFromE f (i + 1) s (f v e).2

/-- slice.go:187-194 `Slice.Index`. -/
def indexFuncE (f : T → E → Bool × E) (s : List T) (e : E) : Int × E := indexFuncFromE f 0 s e

/-- slice.go:203-205 `Slice.Contains`. -/
def containsFuncE (f : T → E → Bool × E) (s : List T) (e : E) : Bool × E := (decide ((indexFuncE f s e).1 ≥ 0), (indexFuncE f s e).2)

/-- slice.go:301-307, the range loop of `CompactFunc` over `s[1:]`; `k` is the index in `s` of the element read next, `n` the number left. -/
def compactLoopE (eq : T → T → E → Bool × E) (s : Hdr) : Nat → Nat → Mem T → Nat → T → E → Res (Mem T × Nat × E)
  | 0, _, m, i, _, e => .ok (m, i, e)
  | n + 1, k, m, i, last, e => do
    let v ← m.get s k
    if !(eq v last e).1 then
      let m ← m.set s i v
      compactLoopE eq s n (k + 1) m (i + 1) v (eq v last e).2
    else compactLoopE eq s n (k + 1) m i last (eq v last e).2

/-- slice.go:295-309 `CompactFunc`. -/
def compactFuncE (eq : T → T → E → Bool × E) (m : Mem T) (s : Hdr) (e : E) : Res (Mem T × Hdr × E) := do
  if s.len < 2 then pure (m, s, e)
  else
    let last ← m.get s 0
    let (m, i, e) ← compactLoopE eq s (s.len - 1) 1 m 1 last e
    let r ← sliceTo s i
    pure (m, r, e)

/-! ### Specification -/

/-- Ask about the arguments in order until one is answered; nothing behind it is asked. -/
def firstAnswer {A B : Type} (ask : A → E → Option B × E) : List A → E → Option B × E
  | [], e => (none, e)
  | a :: as, e => match ask a e with
    | (some b, e) => (some b, e)
    | (none, e) => firstAnswer ask as e

/-- What is kept of a list whose last kept element is `last`, and the state after the questions: every element is compared once, with the last one kept. -/
def keepE (eq : T → T → E → Bool × E) : T → List T → E → List T × E
  | _, [], e => ([], e)
  | last, x :: xs, e =>
    if (eq x last e).1 then keepE eq last xs (eq x last e).2
    else (x :: (keepE eq x xs (eq x last e).2).1, (keepE eq x xs (eq x last e).2).2)

/-- Not Go code: the callback with a log of its arguments. -/
def logging {A B : Type} (f : A → B) : A → List A → B × List A := fun a log => (f a, log ++ [a])

/-! ### EqualFunc, CompareFunc, Index -/

/-- EqualFunc: no call when the lengths differ, otherwise index by index up to the first pair that differs. -/
theorem equalFuncE_spec (eq : T → U → E → Bool × E) (s1 : List T) (s2 : List U) (e : E) :
    equalFuncE eq s1 s2 e =
      if s1.length ≠ s2.length then (false, e)
      else match firstAnswer (fun p e => (if (eq p.1 p.2 e).1 then none else some (), (eq p.1 p.2 e).2)) (s1.zip s2) e with
        | (o, e) => (o.isNone, e) := by
  unfold equalFuncE
  by_cases h : s1.length ≠ s2.length
  · rw [if_pos h, if_pos h]
  · rw [if_neg h, if_neg h]
    clear h
    induction s1 generalizing s2 e with
    | nil => rfl
    | cons a s1 ih =>
      cases s2 with
      | nil => rfl
      | cons b s2 =>
        simp only [equalFuncLoopE, List.zip_cons_cons, firstAnswer]
        by_cases hq : (eq a b e).1 = true
        · have := ih s2 (eq a b e).2
          simpa [hq] using this
        · simp [hq]

/-- CompareFunc: index by index up to the first non-zero answer, which is the result. -/
theorem compareFuncE_spec (cmp : T → U → E → Int × E) (s1 : List T) (s2 : List U) (e : E) :
    compareFuncE cmp s1 s2 e =
      match firstAnswer (fun p e => (if (cmp p.1 p.2 e).1 = 0 then none else some (cmp p.1 p.2 e).1, (cmp p.1 p.2 e).2)) (s1.zip s2) e with
      | (some c, e) => (c, e)
      | (none, e) => (lengthCmp s1.length s2.length, e) := by
  induction s1 generalizing s2 e with
  | nil => cases s2 <;> simp [compareFuncE, firstAnswer, lengthCmp]
  | cons a s1 ih =>
    cases s2 with
    | nil => simp [compareFuncE, firstAnswer, lengthCmp]
    | cons b s2 =>
      simp only [compareFuncE, List.zip_cons_cons, firstAnswer]
      by_cases hq : (cmp a b e).1 = 0
      · have hl : lengthCmp (a :: s1).length (b :: s2).length = lengthCmp s1.length s2.length := by simp [lengthCmp]
        rw [hl]
        simp [hq, ih]
      · simp [hq]

/-- Index: element by element up to the first that is accepted, whose index is the result. -/
theorem indexFuncE_spec (f : T → E → Bool × E) (s : List T) (e : E) :
    indexFuncE f s e =
      match firstAnswer (fun p e => (if (f p.1 e).1 then some p.2 else none, (f p.1 e).2)) s.zipIdx e with
      | (some i, e) => ((i : Int), e)
      | (none, e) => (-1, e) := by
  unfold indexFuncE
  generalize 0 = k
  induction s generalizing k e with
  | nil => rfl
  | cons a s ih =>
    simp only [indexFuncFromE, List.zipIdx_cons, firstAnswer]
    by_cases hq : (f a e).1 = true
    · simp [hq]
    · have := ih (f a e).2 (k + 1)
      simpa [hq] using this

/-! ### The calls, when the answers depend on the arguments alone -/

theorem firstAnswer_logging {A B : Type} (g : A → Option B) (as : List A) (log : List A) :
    firstAnswer (fun a l => (g a, l ++ [a])) as log = (as.findSome? g, log ++ as.take ((as.findIdx (fun a => (g a).isSome)) + 1)) := by
  induction as generalizing log with
  | nil => simp [firstAnswer]
  | cons a as ih =>
    cases h : g a with
    | some b => simp [firstAnswer, h, List.findIdx_cons]
    | none => simp [firstAnswer, h, List.findIdx_cons, ih]

/-- EqualFunc asks about the pairs up to and including the first that differs — about none when the lengths differ — and is otherwise the pure function. -/
theorem equalFunc_calls (eq : T → U → Bool) (s1 : List T) (s2 : List U) :
    equalFuncE (fun a b => logging (fun p => eq p.1 p.2) (a, b)) s1 s2 [] =
      (equalFunc eq s1 s2, if s1.length ≠ s2.length then [] else (s1.zip s2).take ((s1.zip s2).findIdx (fun p => !eq p.1 p.2) + 1)) := by
  have hp : (equalFuncE (fun a b => logging (fun p => eq p.1 p.2) (a, b)) s1 s2 []).1 = equalFunc eq s1 s2 := by
    unfold equalFuncE equalFunc
    by_cases h : s1.length ≠ s2.length
    · rw [if_pos h, if_pos h]
    · rw [if_neg h, if_neg h]
      generalize ([] : List (T × U)) = log
      clear h
      induction s1 generalizing s2 log with
      | nil => cases s2 <;> rfl
      | cons a s1 ih =>
        cases s2 with
        | nil => rfl
        | cons b s2 =>
          simp only [equalFuncLoopE, equalFuncLoop, logging]
          by_cases hq : eq a b = true
          · simpa [hq] using ih s2 _
          · simp [hq]
  refine Prod.ext hp ?_
  rw [equalFuncE_spec]
  by_cases h : s1.length ≠ s2.length
  · rw [if_pos h, if_pos h]
  · rw [if_neg h, if_neg h]
    have := firstAnswer_logging (fun p : T × U => if eq p.1 p.2 then none else some ()) (s1.zip s2) []
    refine (congrArg (fun r : Option Unit × List (T × U) => r.2) this).trans ?_
    have hf : (fun p : T × U => (if eq p.1 p.2 = true then (none : Option Unit) else some ()).isSome) = fun p => !eq p.1 p.2 := by
      funext p; by_cases hq : eq p.1 p.2 = true <;> simp [hq]
    simp [hf]

/-- CompareFunc asks about the pairs up to and including the first non-zero answer. -/
theorem compareFunc_calls (cmp : T → U → Int) (s1 : List T) (s2 : List U) :
    compareFuncE (fun a b => logging (fun p => cmp p.1 p.2) (a, b)) s1 s2 [] =
      (compareFunc cmp s1 s2, (s1.zip s2).take ((s1.zip s2).findIdx (fun p => decide (cmp p.1 p.2 ≠ 0)) + 1)) := by
  have hp : ∀ (log : List (T × U)), (compareFuncE (fun a b => logging (fun p => cmp p.1 p.2) (a, b)) s1 s2 log).1 = compareFunc cmp s1 s2 := by
    induction s1 generalizing s2 with
    | nil => intro log; cases s2 <;> rfl
    | cons a s1 ih =>
      intro log
      cases s2 with
      | nil => rfl
      | cons b s2 =>
        simp only [compareFuncE, compareFunc, logging]
        by_cases hq : cmp a b = 0
        · simpa [hq] using ih s2 _
        · simp [hq]
  refine Prod.ext (hp _) ?_
  rw [compareFuncE_spec]
  have := firstAnswer_logging (fun p : T × U => if cmp p.1 p.2 = 0 then none else some (cmp p.1 p.2)) (s1.zip s2) []
  erw [this]
  have hf : (fun p : T × U => (if cmp p.1 p.2 = 0 then (none : Option Int) else some (cmp p.1 p.2)).isSome) = fun p => decide (cmp p.1 p.2 ≠ 0) := by
    funext p; by_cases hq : cmp p.1 p.2 = 0 <;> simp [hq]
  rw [hf]
  cases (s1.zip s2).findSome? (fun p : T × U => if cmp p.1 p.2 = 0 then none else some (cmp p.1 p.2)) <;> simp

/-- Index asks about the elements up to and including the first that is accepted. -/
theorem indexFunc_calls (f : T → Bool) (s : List T) :
    indexFuncE (logging f) s [] = (indexFunc f s, s.take (s.findIdx f + 1)) := by
  have key : ∀ (k : Nat) (log : List T), indexFuncFromE (logging f) k s log = (indexFuncFrom f k s, log ++ s.take (s.findIdx f + 1)) := by
    induction s with
    | nil => intro k log; simp [indexFuncFromE, indexFuncFrom]
    | cons a s ih =>
      intro k log
      by_cases hq : f a = true
      · simp [indexFuncFromE, indexFuncFrom, logging, hq, List.findIdx_cons]
      · simp [indexFuncFromE, indexFuncFrom, logging, hq, List.findIdx_cons]
        have := ih (k + 1) (log ++ [a])
        simpa [logging] using this
  simpa [indexFuncE, indexFunc] using key 0 []

/-- Contains makes the calls of Index. -/
theorem containsFunc_calls (f : T → Bool) (s : List T) :
    containsFuncE (logging f) s [] = (containsFunc f s, s.take (s.findIdx f + 1)) := by
  simp [containsFuncE, containsFunc, indexFunc_calls]

/-! ### CompactFunc -/

theorem keepE_length (eq : T → T → E → Bool × E) (last : T) (xs : List T) (e : E) : (keepE eq last xs e).1.length ≤ xs.length := by
  induction xs generalizing last e with
  | nil => simp [keepE]
  | cons x xs ih =>
    unfold keepE
    split
    · exact Nat.le_succ_of_le (ih _ _)
    · simpa using ih _ _

theorem compactLoopE_spec (eq : T → T → E → Bool × E) (s : Hdr) (n k : Nat) (m : Mem T) (i : Nat) (last : T) (e : E)
    (hk : k + n = s.len) (hi : i ≤ k) :
    ∃ m', compactLoopE eq s n k m i last e =
        .ok (m', i + (keepE eq last ((List.range n).map (fun t => m.cell s.arr (s.off + k + t))) e).1.length, (keepE eq last ((List.range n).map (fun t => m.cell s.arr (s.off + k + t))) e).2) ∧
      m'.size = m.size ∧ m'.next = m.next ∧
      ∀ a t, m'.cell a t =
        if a = s.arr ∧ s.off + i ≤ t ∧ t < s.off + i + (keepE eq last ((List.range n).map (fun t => m.cell s.arr (s.off + k + t))) e).1.length
        then ((keepE eq last ((List.range n).map (fun t => m.cell s.arr (s.off + k + t))) e).1[t - (s.off + i)]?).getD (m.cell a t)
        else m.cell a t := by
  induction n generalizing k m i last e with
  | zero => exact ⟨m, by simp [compactLoopE, keepE], rfl, rfl, by intro a t; simp [keepE]⟩
  | succ n ih =>
    rw [List.range_succ_eq_map]
    simp only [List.map_cons, List.map_map, Nat.add_zero]
    have hget : m.get s (k : Int) = .ok (m.cell s.arr (s.off + k)) := by
      simp [Mem.get]; omega
    unfold compactLoopE
    simp only [hget, Res.bind_ok]
    unfold keepE
    cases he : (eq (m.cell s.arr (s.off + k)) last e).1 with
    | true =>
      simp only [Bool.not_true, if_true]
      obtain ⟨m', h1, h2, h3, h4⟩ := ih (k + 1) m i last (eq (m.cell s.arr (s.off + k)) last e).2 (by omega) (by omega)
      have hfun : (fun t => m.cell s.arr (s.off + (k + 1) + t)) =
          ((fun t => m.cell s.arr (s.off + k + t)) ∘ Nat.succ) := by
        funext t; simp; congr 1; omega
      rw [hfun] at h1 h4
      exact ⟨m', by simpa using h1, h2, h3, h4⟩
    | false =>
      have hset : m.set s (i : Int) (m.cell s.arr (s.off + k)) =
          .ok (setCell m s.arr (s.off + i) (m.cell s.arr (s.off + k))) := by
        simp [Mem.set, setCell]; omega
      simp only [Bool.not_false, if_true, hset, Res.bind_ok]
      obtain ⟨m', h1, h2, h3, h4⟩ := ih (k + 1) (setCell m s.arr (s.off + i) (m.cell s.arr (s.off + k)))
          (i + 1) (m.cell s.arr (s.off + k)) (eq (m.cell s.arr (s.off + k)) last e).2 (by omega) (by omega)
      have hfun : (fun t => (setCell m s.arr (s.off + i) (m.cell s.arr (s.off + k))).cell s.arr (s.off + (k + 1) + t)) =
          ((fun t => m.cell s.arr (s.off + k + t)) ∘ Nat.succ) := by
        funext t
        have : ¬ (s.off + (k + 1) + t = s.off + i) := by omega
        simp [this, setCell]; congr 1; omega
      rw [hfun] at h1 h4
      refine ⟨m', ?_, h2, h3, ?_⟩
      · simp [h1]; omega
      · intro a t
        rw [h4]; simp only [setCell]
        generalize (keepE eq (m.cell s.arr (s.off + k)) _ _).1 = L
        simp only [List.length_cons, Bool.false_eq_true, if_false]
        by_cases ha : a = s.arr
        · subst ha
          by_cases ht : t = s.off + i
          · subst ht; simp
          · by_cases hr : s.off + i ≤ t ∧ t < s.off + i + (L.length + 1)
            · have e1 : t - (s.off + i) = (t - (s.off + (i + 1))) + 1 := by omega
              have c1 : s.off + (i + 1) ≤ t ∧ t < s.off + (i + 1) + L.length := by omega
              simp only [c1, hr, ht, and_self, and_false, if_true, if_false, e1, List.getElem?_cons_succ]
            · have c1 : ¬ (s.off + (i + 1) ≤ t ∧ t < s.off + (i + 1) + L.length) := by omega
              simp only [c1, hr, ht, and_false, if_false]
        · simp [ha]
/-- CompactFunc compares every element behind the first exactly once, in index order, with the element kept last, and keeps it if the answer
    is "different" — whatever the callback answers; only the cells of the slice behind the first change. -/
theorem compactFuncE_spec (eq : T → T → E → Bool × E) (m : Mem T) (s : Hdr) (hs : m.Ok s) (e : E) :
    ∃ m' r e', compactFuncE eq m s e = .ok (m', r, e') ∧ m'.Ok r ∧ r.arr = s.arr ∧ r.off = s.off ∧
      (match m.view s with
        | [] => m'.view r = [] ∧ e' = e
        | x :: xs => m'.view r = x :: (keepE eq x xs e).1 ∧ e' = (keepE eq x xs e).2) ∧
      (∀ a k, m'.cell a k ≠ m.cell a k → a = s.arr ∧ s.off + 1 ≤ k ∧ k < s.off + s.len) := by
  obtain ⟨h1, h2, h3, h4⟩ := hs
  unfold compactFuncE
  by_cases hl : s.len < 2
  · simp only [hl, if_true, Res.pure_eq]
    refine ⟨m, s, e, rfl, ⟨h1, h2, h3, h4⟩, rfl, rfl, ?_, by simp⟩
    have hlen : (m.view s).length < 2 := by simpa using hl
    match hv : m.view s with
    | [] => exact ⟨rfl, rfl⟩
    | [x] => exact ⟨by simp [keepE], by simp [keepE]⟩
    | _ :: _ :: _ => rw [hv] at hlen; simp at hlen; omega
  · simp only [hl, if_false]
    have hget : m.get s 0 = .ok (m.cell s.arr s.off) := by
      simp [Mem.get]; omega
    obtain ⟨m', g1, g2, g3, g4⟩ := compactLoopE_spec eq s (s.len - 1) 1 m 1 (m.cell s.arr s.off) e (by omega) (by omega)
    have hview : m.view s = m.cell s.arr s.off ::
        ((List.range (s.len - 1)).map (fun t => m.cell s.arr (s.off + 1 + t))) := by
      unfold Mem.view
      obtain ⟨n, hn⟩ : ∃ n, s.len = n + 1 := ⟨s.len - 1, by omega⟩
      rw [hn, List.range_succ_eq_map]
      simp only [List.map_cons, List.map_map, Nat.add_zero, Nat.add_sub_cancel]
      congr 1
      apply List.map_congr_left
      intro t _; simp; congr 1; omega
    rw [hview]
    have hkl := keepE_length eq (m.cell s.arr s.off) ((List.range (s.len - 1)).map (fun t => m.cell s.arr (s.off + 1 + t))) e
    simp only [List.length_map, List.length_range] at hkl
    simp only
    generalize hL : keepE eq (m.cell s.arr s.off) ((List.range (s.len - 1)).map (fun t => m.cell s.arr (s.off + 1 + t))) e = K at *
    obtain ⟨L, e'⟩ := K
    simp only at g1 g2 g3 g4 hkl ⊢
    simp only [hget, Res.bind_ok, g1, sliceTo]
    rw [slice_ok (by omega)]
    simp only [Res.bind_ok, Res.pure_eq]
    refine ⟨_, _, _, rfl, ⟨by simpa [g3] using h1, by simp [g2]; omega, by simp; omega, by simpa using h4⟩, rfl, by simp, ⟨?_, rfl⟩, ?_⟩
    · apply view_eq_of
      · simp; omega
      · intro k hk
        simp at hk
        simp only [g4]
        cases k with
        | zero =>
          have : ¬ (s.off + 1 ≤ s.off) := by omega
          simp
        | succ k =>
          have hk' : k < L.length := by omega
          simp [hk', show s.off + 1 ≤ s.off + (k + 1) by omega, show s.off + (k + 1) < s.off + 1 + L.length by omega]
          rw [show s.off + (k + 1) - (s.off + 1) = k by omega]
          simp [hk']
    · intro a k hne
      rw [g4] at hne
      split at hne
      · next h => exact ⟨h.1, h.2.1, by omega⟩
      · exact absurd rfl hne
/-- With answers that depend on the arguments alone what is kept are the run heads of C11. -/
theorem keepE_pure (eq : T → T → Bool) (last : T) (xs : List T) (e : E) : keepE (fun a b e => (eq a b, e)) last xs e = (keepRuns eq last xs, e) := by
  induction xs generalizing last with
  | nil => rfl
  | cons x xs ih =>
    unfold keepE keepRuns
    by_cases hq : eq x last = true <;> simp [hq, ih]

/-- Exactly one call for every element behind the first: `len(s) - 1` calls, whatever the callback answers. -/
theorem keepE_counts (eq : T → T → E → Bool × E) (last : T) (xs : List T) (n : Nat) (e : E) :
    (keepE (fun a b (e : Nat × E) => ((eq a b e.2).1, e.1 + 1, (eq a b e.2).2)) last xs (n, e)).2 = (n + xs.length, (keepE eq last xs e).2) := by
  induction xs generalizing last n e with
  | nil => rfl
  | cons x xs ih =>
    unfold keepE
    by_cases hq : (eq x last e).1 = true <;> simp [hq, ih] <;> omega

/-! ### Runs -/

example : compareFuncE (fun a b => logging (fun p => p.1 - p.2) (a, b)) [1, 2, 3, 4] [1, 2, 5, 0] ([] : List (Int × Int)) = (-2, [(1, 1), (2, 2), (3, 5)]) := by
  simp [compareFuncE, logging]

example : equalFuncE (fun a b => logging (fun p => p.1 == p.2) (a, b)) [1, 2, 3] [1, 4, 3] ([] : List (Nat × Nat)) = (false, [(1, 1), (2, 4)]) := by
  simp [equalFuncE, equalFuncLoopE, logging]

/-- A callback that answers "same" on every second call only, on 1 1 1 1: the elements 0, 1 and 3 are kept, after three calls. -/
example : ∃ m' r, compactFuncE (fun _ _ (e : Nat) => (e % 2 == 1, e + 1)) { cell := fun _ _ => 1, size := fun _ => 4, next := 1 } ⟨false, 0, 0, 4, 4⟩ 0 =
    .ok (m', r, 3) ∧ m'.view r = [1, 1, 1] := by
  obtain ⟨m', r, e', h, -, -, -, h2, -⟩ := compactFuncE_spec (fun (_ _ : Nat) (e : Nat) => (e % 2 == 1, e + 1))
    { cell := fun _ _ => 1, size := fun _ => 4, next := 1 } ⟨false, 0, 0, 4, 4⟩ ⟨by decide, by decide, by decide, by decide⟩ 0
  obtain ⟨h3, h4⟩ := h2
  subst h4
  exact ⟨m', r, h, h3⟩

end Gds.Slice
