import Verif.Slice.Calls

/-! `CompactFunc` when its callback panics and the caller recovers (collections/slice/slice.go:295-309): the elements kept so far have
been moved to the front, the rest is where it was. -/
namespace Gds.Slice
variable {T E : Type}

/-- slice.go:301-307, the range loop of `CompactFunc`, with a callback that may panic (answer `none`); `true` in the result: it has. -/
def compactLoopP (eq : T → T → E → Option Bool × E) (s : Hdr) : Nat → Nat → Mem T → Nat → T → E → Res (Mem T × Nat × Bool × E)
  | 0, _, m, i, _, e => .ok (m, i, false, e)
  | n + 1, k, m, i, last, e => do
    let v ← m.get s k
    match (eq v last e).1 with
    | none => pure (m, i, true, (eq v last e).2)
    | some false =>
      let m ← m.set s i v
      compactLoopP eq s n (k + 1) m (i + 1) v (eq v last e).2
    | some true => compactLoopP eq s n (k + 1) m i last (eq v last e).2

/-- slice.go:295-309 `CompactFunc`; no result if the callback has panicked. -/
def compactFuncP (eq : T → T → E → Option Bool × E) (m : Mem T) (s : Hdr) (e : E) : Res (Mem T × Option Hdr × E) := do
  if s.len < 2 then pure (m, some s, e)
  else
    let last ← m.get s 0
    let (m, i, raised, e) ← compactLoopP eq s (s.len - 1) 1 m 1 last e
    if raised then pure (m, none, e)
    else
      let r ← sliceTo s i
      pure (m, some r, e)

/-! ### Specification -/

/-- What is kept of a list whose last kept element is `last` until the callback panics, whether it has, and its state. -/
def keepP (eq : T → T → E → Option Bool × E) : T → List T → E → List T × Bool × E
  | _, [], e => ([], false, e)
  | last, x :: xs, e => match (eq x last e).1 with
    | none => ([], true, (eq x last e).2)
    | some true => keepP eq last xs (eq x last e).2
    | some false => (x :: (keepP eq x xs (eq x last e).2).1, (keepP eq x xs (eq x last e).2).2)

theorem keepP_sublist (eq : T → T → E → Option Bool × E) (last : T) (xs : List T) (e : E) : (keepP eq last xs e).1.Sublist xs := by
  induction xs generalizing last e with
  | nil => exact .slnil
  | cons x xs ih =>
    unfold keepP
    split
    · exact List.nil_sublist _
    · exact (ih _ _).cons _
    · exact (ih _ _).cons_cons _

/-- Until the panic the callback decides as one that does not panic: what is kept then is what is kept of some first elements. -/
theorem keepP_prefix (eq : T → T → E → Option Bool × E) (last : T) (xs : List T) (e : E) (h : (keepP eq last xs e).2.1 = true) :
    ∃ j, j < xs.length ∧ (keepP eq last (xs.take j) e).2.1 = false ∧ (keepP eq last (xs.take j) e).1 = (keepP eq last xs e).1 := by
  induction xs generalizing last e with
  | nil => simp [keepP] at h
  | cons x xs ih =>
    cases hq : (eq x last e).1 with
    | none => exact ⟨0, by simp, by simp [keepP], by simp [keepP, hq]⟩
    | some b =>
      cases b with
      | true =>
        simp only [keepP, hq] at h
        obtain ⟨j, h1, h2, h3⟩ := ih _ _ h
        exact ⟨j + 1, by simpa using h1, by simpa [keepP, hq] using h2, by simpa [keepP, hq] using h3⟩
      | false =>
        simp only [keepP, hq] at h
        obtain ⟨j, h1, h2, h3⟩ := ih _ _ h
        exact ⟨j + 1, by simpa using h1, by simpa [keepP, hq] using h2, by simpa [keepP, hq] using h3⟩

/-- A callback that does not panic keeps what it keeps in C130. -/
theorem keepP_total (eq : T → T → E → Bool × E) (last : T) (xs : List T) (e : E) :
    keepP (fun a b e => (some (eq a b e).1, (eq a b e).2)) last xs e = ((keepE eq last xs e).1, false, (keepE eq last xs e).2) := by
  induction xs generalizing last e with
  | nil => rfl
  | cons x xs ih =>
    cases hq : (eq x last e).1 <;> simp [keepP, keepE, hq, ih]

theorem keepP_covers (eq : T → T → E → Option Bool × E) (ans : T → T → Bool) (ha : ∀ a b e c, (eq a b e).1 = some c → c = ans a b)
    (last : T) (xs : List T) (e : E) (y : T) (hy : y ∈ xs.take (keepP eq last xs e).1.length) :
    ∃ z ∈ last :: (keepP eq last xs e).1, y = z ∨ ans y z = true := by
  induction xs generalizing last e with
  | nil => simp at hy
  | cons x xs ih =>
    cases hq : (eq x last e).1 with
    | none => simp [keepP, hq] at hy
    | some b =>
      have hb := ha _ _ _ _ hq
      cases b with
      | true =>
        simp only [keepP, hq] at hy ⊢
        generalize hL : (keepP eq last xs (eq x last e).2).1 = L at hy ⊢
        cases hl : L.length with
        | zero => rw [hl] at hy; simp at hy
        | succ l =>
          rw [hl, List.take_succ_cons] at hy
          rcases List.mem_cons.1 hy with rfl | hy
          · exact ⟨last, List.mem_cons_self, .inr hb.symm⟩
          · have := ih last (eq x last e).2 (by
              rw [hL, hl]; exact (List.take_subset_take_left xs (Nat.le_succ l)) hy)
            rw [hL] at this
            exact this
      | false =>
        simp only [keepP, hq, List.length_cons, List.take_succ_cons] at hy ⊢
        rcases List.mem_cons.1 hy with rfl | hy
        · exact ⟨y, by simp, .inl rfl⟩
        · obtain ⟨z, h1, h2⟩ := ih x _ hy
          exact ⟨z, List.mem_cons_of_mem _ h1, h2⟩

theorem compactLoopP_spec (eq : T → T → E → Option Bool × E) (s : Hdr) (n k : Nat) (m : Mem T) (i : Nat) (last : T) (e : E)
    (hk : k + n = s.len) (hi : i ≤ k) :
    ∃ m', compactLoopP eq s n k m i last e =
        .ok (m', i + (keepP eq last ((List.range n).map (fun t => m.cell s.arr (s.off + k + t))) e).1.length, (keepP eq last ((List.range n).map (fun t => m.cell s.arr (s.off + k + t))) e).2) ∧
      m'.size = m.size ∧ m'.next = m.next ∧
      ∀ a t, m'.cell a t =
        if a = s.arr ∧ s.off + i ≤ t ∧ t < s.off + i + (keepP eq last ((List.range n).map (fun t => m.cell s.arr (s.off + k + t))) e).1.length
        then ((keepP eq last ((List.range n).map (fun t => m.cell s.arr (s.off + k + t))) e).1[t - (s.off + i)]?).getD (m.cell a t)
        else m.cell a t := by
  induction n generalizing k m i last e with
  | zero => exact ⟨m, by simp [compactLoopP, keepP], rfl, rfl, by intro a t; simp [keepP]⟩
  | succ n ih =>
    rw [List.range_succ_eq_map]
    simp only [List.map_cons, List.map_map, Nat.add_zero]
    have hget : m.get s (k : Int) = .ok (m.cell s.arr (s.off + k)) := by
      simp [Mem.get]; omega
    unfold compactLoopP
    simp only [hget, Res.bind_ok]
    unfold keepP
    cases he : (eq (m.cell s.arr (s.off + k)) last e).1 with
    | none => exact ⟨m, by simp, rfl, rfl, by intro a t; simp⟩
    | some b =>
    cases b with
    | true =>
      simp only
      obtain ⟨m', h1, h2, h3, h4⟩ := ih (k + 1) m i last (eq (m.cell s.arr (s.off + k)) last e).2 (by omega) (by omega)
      have hfun : (fun t => m.cell s.arr (s.off + (k + 1) + t)) =
          ((fun t => m.cell s.arr (s.off + k + t)) ∘ Nat.succ) := by
        funext t; simp; congr 1; omega
      rw [hfun] at h1 h4
      exact ⟨m', by simpa using h1, h2, h3, h4⟩
    | false =>
      have hset : m.set s (i : Int) (m.cell s.arr (s.off + k)) =
          .ok (setCell m s.arr (s.off + i) (m.cell s.arr (s.off + k))) := by
        simp [Mem.set, setCell]; omega
      simp only [hset, Res.bind_ok]
      obtain ⟨m', h1, h2, h3, h4⟩ := ih (k + 1) (setCell m s.arr (s.off + i) (m.cell s.arr (s.off + k)))
          (i + 1) (m.cell s.arr (s.off + k)) (eq (m.cell s.arr (s.off + k)) last e).2 (by omega) (by omega)
      have hfun : (fun t => (setCell m s.arr (s.off + i) (m.cell s.arr (s.off + k))).cell s.arr (s.off + (k + 1) + t)) =
          ((fun t => m.cell s.arr (s.off + k + t)) ∘ Nat.succ) := by
        funext t
        have : ¬ (s.off + (k + 1) + t = s.off + i) := by omega
        simp [this, setCell]; congr 1; omega
      rw [hfun] at h1 h4
      refine ⟨m', ?_, h2, h3, ?_⟩
      · simp [h1]; omega
      · intro a t
        rw [h4]; simp only [setCell]
        generalize (keepP eq (m.cell s.arr (s.off + k)) _ _).1 = L
        simp only [List.length_cons]
        by_cases ha : a = s.arr
        · subst ha
          by_cases ht : t = s.off + i
          · subst ht; simp
          · by_cases hr : s.off + i ≤ t ∧ t < s.off + i + (L.length + 1)
            · have e1 : t - (s.off + i) = (t - (s.off + (i + 1))) + 1 := by omega
              have c1 : s.off + (i + 1) ≤ t ∧ t < s.off + (i + 1) + L.length := by omega
              simp only [c1, hr, ht, and_self, and_false, if_true, if_false, e1, List.getElem?_cons_succ]
            · have c1 : ¬ (s.off + (i + 1) ≤ t ∧ t < s.off + (i + 1) + L.length) := by omega
              simp only [c1, hr, ht, and_false, if_false]
        · simp [ha]

/-- CompactFunc with a callback that may panic: when it returns, or when the panic reaches the caller, the slice holds its first element and
what has been kept, and behind that what was there before; nothing else has changed.  If it returns, the result is the kept part. -/
theorem raised_compactFunc (eq : T → T → E → Option Bool × E) (m : Mem T) (s : Hdr) (hs : m.Ok s) (e : E) :
    ∃ m' r e', compactFuncP eq m s e = .ok (m', r, e') ∧
      (match m.view s with
        | [] => r = some s ∧ m' = m
        | x :: xs => (r = none ↔ (keepP eq x xs e).2.1 = true) ∧
          m'.view s = (x :: (keepP eq x xs e).1) ++ (m.view s).drop ((keepP eq x xs e).1.length + 1) ∧
          ∀ h, r = some h → h.arr = s.arr ∧ h.off = s.off ∧ m'.view h = x :: (keepP eq x xs e).1) ∧
      (∀ a k, m'.cell a k ≠ m.cell a k → a = s.arr ∧ s.off + 1 ≤ k ∧ k < s.off + s.len) := by
  obtain ⟨h1, h2, h3, h4⟩ := hs
  unfold compactFuncP
  by_cases hl : s.len < 2
  · simp only [hl, if_true, Res.pure_eq]
    refine ⟨m, some s, e, rfl, ?_, by simp⟩
    have hlen : (m.view s).length < 2 := by simpa using hl
    match hv : m.view s with
    | [] => exact ⟨rfl, rfl⟩
    | [x] => exact ⟨by simp [keepP], by simp [keepP], fun h hh => by cases hh; simp [keepP, hv]⟩
    | _ :: _ :: _ => rw [hv] at hlen; simp at hlen; omega
  · simp only [hl, if_false]
    have hget : m.get s 0 = .ok (m.cell s.arr s.off) := by
      simp [Mem.get]; omega
    obtain ⟨m', g1, g2, g3, g4⟩ := compactLoopP_spec eq s (s.len - 1) 1 m 1 (m.cell s.arr s.off) e (by omega) (by omega)
    have hview : m.view s = m.cell s.arr s.off ::
        ((List.range (s.len - 1)).map (fun t => m.cell s.arr (s.off + 1 + t))) := by
      unfold Mem.view
      obtain ⟨n, hn⟩ : ∃ n, s.len = n + 1 := ⟨s.len - 1, by omega⟩
      rw [hn, List.range_succ_eq_map]
      simp only [List.map_cons, List.map_map, Nat.add_zero, Nat.add_sub_cancel]
      congr 1
      apply List.map_congr_left
      intro t _; simp; congr 1; omega
    have hdrop : ∀ j, j < s.len → (m.view s)[j]? = some (m.cell s.arr (s.off + j)) := by
      intro j hj
      simp [Mem.view, hj]
    have hkl := (keepP_sublist eq (m.cell s.arr s.off) ((List.range (s.len - 1)).map (fun t => m.cell s.arr (s.off + 1 + t))) e).length_le
    simp only [List.length_map, List.length_range] at hkl
    generalize hL : keepP eq (m.cell s.arr s.off) ((List.range (s.len - 1)).map (fun t => m.cell s.arr (s.off + 1 + t))) e = K at *
    obtain ⟨L, b, e'⟩ := K
    simp only at g1 g2 g3 g4 hkl
    have hall : m'.view s = (m.cell s.arr s.off :: L) ++ (m.view s).drop (L.length + 1) := by
      apply List.ext_getElem?
      intro j
      by_cases hj : j < s.len
      · have hj' : (m'.view s)[j]? = some (m'.cell s.arr (s.off + j)) := by simp [Mem.view, hj]
        rw [hj', g4]
        by_cases hjl : j < L.length + 1
        · rw [List.getElem?_append_left (by simpa using hjl)]
          cases j with
          | zero =>
            have : ¬ (s.off + 1 ≤ s.off) := by omega
            simp
          | succ j =>
            have hk' : j < L.length := by omega
            simp only [true_and, show s.off + 1 ≤ s.off + (j + 1) by omega, show s.off + (j + 1) < s.off + 1 + L.length by omega, if_true]
            rw [show s.off + (j + 1) - (s.off + 1) = j by omega]
            simp [hk']
        · rw [List.getElem?_append_right (by simp; omega), List.getElem?_drop, if_neg (by omega)]
          simp only [List.length_cons]
          rw [show L.length + 1 + (j - (L.length + 1)) = j by omega, hdrop j hj]
      · have a1 : (m'.view s)[j]? = none := by simp [Mem.view]; omega
        rw [a1, eq_comm, List.getElem?_eq_none_iff]
        simp [Mem.view]; omega
    have hfr : ∀ a k, m'.cell a k ≠ m.cell a k → a = s.arr ∧ s.off + 1 ≤ k ∧ k < s.off + s.len := by
      intro a k hne
      rw [g4] at hne
      split at hne
      · next h => exact ⟨h.1, h.2.1, by omega⟩
      · exact absurd rfl hne
    simp only [hget, Res.bind_ok, g1]
    rw [hview, ← hview]
    cases b with
    | true =>
      refine ⟨m', none, e', rfl, ?_, hfr⟩
      have key : ∀ V, V = m.cell s.arr s.off :: ((List.range (s.len - 1)).map (fun t => m.cell s.arr (s.off + 1 + t))) → V = m.view s →
        (match V with
        | [] => (none : Option Hdr) = some s ∧ m' = m
        | x :: xs => ((none : Option Hdr) = none ↔ (keepP eq x xs e).2.1 = true) ∧
          m'.view s = (x :: (keepP eq x xs e).1) ++ V.drop ((keepP eq x xs e).1.length + 1) ∧
          ∀ h, (none : Option Hdr) = some h → h.arr = s.arr ∧ h.off = s.off ∧ m'.view h = x :: (keepP eq x xs e).1) := by
        rintro V rfl hV
        simp only [hL]
        exact ⟨by simp, by rw [hall, ← hV], nofun⟩
      exact key _ hview rfl
    | false =>
      simp only [Bool.false_eq_true, if_false, sliceTo]
      rw [slice_ok (by omega)]
      simp only [Res.bind_ok, Res.pure_eq]
      refine ⟨m', _, e', rfl, ?_, hfr⟩
      have key : ∀ (r : Hdr) V, r.arr = s.arr → r.off = s.off → r.len = L.length + 1 → V = m.cell s.arr s.off :: ((List.range (s.len - 1)).map (fun t => m.cell s.arr (s.off + 1 + t))) → V = m.view s →
        (match V with
        | [] => some r = some s ∧ m' = m
        | x :: xs => (some r = none ↔ (keepP eq x xs e).2.1 = true) ∧
          m'.view s = (x :: (keepP eq x xs e).1) ++ V.drop ((keepP eq x xs e).1.length + 1) ∧
          ∀ h, some r = some h → h.arr = s.arr ∧ h.off = s.off ∧ m'.view h = x :: (keepP eq x xs e).1) := by
        rintro r V r1 r2 r3 rfl hV
        simp only [hL]
        refine ⟨by simp, by rw [hall, ← hV], ?_⟩
        rintro h hh
        cases hh
        refine ⟨r1, r2, ?_⟩
        have : m'.view r = (m'.view s).take (L.length + 1) := by
          simp only [Mem.view, r1, r2, r3, ← List.map_take, List.take_range]
          rw [Nat.min_eq_left (by omega)]
        rw [this, hall]
        simp
      exact key _ _ rfl (by simp) (by simp; omega) hview rfl

/-- Nothing is lost: whether the callback panics or not, every element the slice had is in it still, or the callback's answer is that it is
the same as one that is. -/
theorem raised_nothing_lost (eq : T → T → E → Option Bool × E) (ans : T → T → Bool) (ha : ∀ a b e c, (eq a b e).1 = some c → c = ans a b)
    (m : Mem T) (s : Hdr) (hs : m.Ok s) (e : E) (m' : Mem T) (r : Option Hdr) (e' : E) (h : compactFuncP eq m s e = .ok (m', r, e')) :
    ∀ y ∈ m.view s, ∃ z ∈ m'.view s, y = z ∨ ans y z = true := by
  obtain ⟨m₁, r₁, e₁, h1, h2, -⟩ := raised_compactFunc eq m s hs e
  rw [h1] at h
  cases h
  intro y hy
  cases hv : m.view s with
  | nil => rw [hv] at hy; cases hy
  | cons x xs =>
    rw [hv] at h2 hy
    obtain ⟨-, h3, -⟩ := h2
    rw [h3]
    rcases List.mem_cons.1 hy with rfl | hy
    · exact ⟨y, by simp, .inl rfl⟩
    · rw [← List.take_append_drop (keepP eq x xs e).1.length xs] at hy
      rcases List.mem_append.1 hy with hy | hy
      · obtain ⟨z, h4, h5⟩ := keepP_covers eq ans ha x xs e y hy
        exact ⟨z, List.mem_append_left _ h4, h5⟩
      · exact ⟨y, List.mem_append_right _ (by simpa using hy), .inl rfl⟩

/-- Nor can an element appear: every element of the slice afterwards was in it before. -/
theorem raised_nothing_new (eq : T → T → E → Option Bool × E) (m : Mem T) (s : Hdr) (hs : m.Ok s) (e : E)
    (m' : Mem T) (r : Option Hdr) (e' : E) (h : compactFuncP eq m s e = .ok (m', r, e')) : ∀ y ∈ m'.view s, y ∈ m.view s := by
  obtain ⟨m₁, r₁, e₁, h1, h2, -⟩ := raised_compactFunc eq m s hs e
  rw [h1] at h
  cases h
  intro y hy
  cases hv : m.view s with
  | nil => rw [hv] at h2; rw [h2.2, hv] at hy; exact hy
  | cons x xs =>
    rw [hv] at h2
    obtain ⟨-, h3, -⟩ := h2
    rw [h3] at hy
    rcases List.mem_append.1 hy with hy | hy
    · rcases List.mem_cons.1 hy with rfl | hy
      · exact List.mem_cons_self
      · exact List.mem_cons_of_mem _ ((keepP_sublist eq x xs e).subset hy)
    · exact List.mem_of_mem_drop hy

/-! ### A run -/

/-- Elements of the run below: 0 1 1 2 ... as the array has them. -/
def runMem : Mem Nat := { cell := fun _ k => if k = 0 then 1 else k, size := fun _ => 4, next := 1 }

/-- The callback of the run: it panics when it is asked about 3. -/
def runEq (a b : Nat) (_ : Unit) : Option Bool × Unit := (if a = 3 then none else some (a == b), ())

/-- A slice whose CompactFunc is left by a panic is neither as it was nor compacted: 1 1 2 3 has become 1 2 2 3. -/
theorem raised_unchanged_refuted : ∃ m', compactFuncP runEq runMem ⟨false, 0, 0, 4, 4⟩ () = .ok (m', none, ()) ∧
    runMem.view ⟨false, 0, 0, 4, 4⟩ = [1, 1, 2, 3] ∧ m'.view ⟨false, 0, 0, 4, 4⟩ = [1, 2, 2, 3] := by
  obtain ⟨m', r, e', h, h2, -⟩ := raised_compactFunc runEq runMem ⟨false, 0, 0, 4, 4⟩ ⟨by decide, by decide, by decide, by decide⟩ ()
  have hv : runMem.view ⟨false, 0, 0, 4, 4⟩ = [1, 1, 2, 3] := by decide
  have hk : keepP runEq 1 [1, 2, 3] () = ([2], true, ()) := by decide
  rw [hv] at h2
  simp only [hk] at h2
  obtain ⟨h3, h4, -⟩ := h2
  have := h3.2 trivial
  subst this
  exact ⟨m', h, hv, by simpa using h4⟩

end Gds.Slice
