import Verif.LinkedList.Refine
import Verif.Slice.Props

/-! Theorems about the linked list (C27–C31).  The specification is in `Verif/LinkedList/Spec.lean`. -/

namespace Gds.LinkedList
variable {T : Type}

/-- C27: every legal history over any number of lists returns exactly what the sequences of the specification
    return, and never panics.  (`Front`, `Back`, `Next`, `Prev`, `Len`, `ToSlice` and the value of an element are
    operations of the history, so all observations are covered; the copying operations of C29 and `Clear` are
    included.) -/
theorem run_refines (z : T) : ∀ (ops : List (Op T)) (s : St T) (a : Abs T), Inv s a → LegalHist z a ops →
    ∃ s', run z s ops = .ok (s', (specRun z a ops).2) ∧ Inv s' (specRun z a ops).1 := by
  intro ops
  induction ops with
  | nil => intro s a h _; exact ⟨s, rfl, h⟩
  | cons op ops ih =>
    intro s a h hl
    obtain ⟨s1, e1, h1⟩ := step_refines z h op hl.1
    obtain ⟨s2, e2, h2⟩ := ih s1 _ h1 hl.2
    exact ⟨s2, by simp [run, e1, e2, specRun], h2⟩

theorem history_refines_sequences (z : T) (ops : List (Op T)) (hl : LegalHist z (Abs.empty z) ops) :
    ∃ s', run z (St.empty z) ops = .ok (s', (specRun z (Abs.empty z) ops).2) := by
  obtain ⟨s', h, -⟩ := run_refines z ops _ _ (inv_empty z) hl
  exact ⟨s', h⟩

/-- The state and the sequences after a legal history. -/
structure After (z : T) (ops : List (Op T)) (s : St T) (a : Abs T) : Prop where
  legal : LegalHist z (Abs.empty z) ops
  conc : ∃ outs, run z (St.empty z) ops = .ok (s, outs)
  abst : a = (specRun z (Abs.empty z) ops).1

theorem After.inv {z : T} {ops : List (Op T)} {s : St T} {a : Abs T} (h : After z ops s a) : Inv s a := by
  obtain ⟨s', e, hi⟩ := run_refines z ops _ _ (inv_empty z) h.legal
  obtain ⟨outs, e'⟩ := h.conc
  rw [e] at e'
  simp only [Res.ok.injEq, Prod.mk.injEq] at e'
  rw [h.abst, ← e'.1]; exact hi

/-- Following `Next` from `Front` (not Go code: the caller's loop), at most `k` times. -/
def walk (nx : Nat → Option Nat) : Nat → Option Nat → List Nat
  | 0, _ => []
  | _ + 1, none => []
  | k + 1, some e => e :: walk nx k (nx e)

/-- C27: walking `Next` from `Front` meets exactly the sequence, walking `Prev` from `Back` its reverse, and both
    walks then reach nil. -/
theorem walks {z : T} {ops : List (Op T)} {s : St T} {a : Abs T} (h : After z ops s a) {l : Nat}
    (hl : a.isList l = true) (k : Nat) (hk : (a.seq l).length ≤ k) :
    walk (next s) k (front s l) = a.seq l ∧ walk (prev s) k (back s l) = (a.seq l).reverse := by
  have hi := h.inv
  obtain ⟨h1, h2⟩ := inv_front hi hl
  rw [h1, h2]
  have fwd : ∀ (ys xs : List Nat) (k : Nat), a.seq l = xs ++ ys → ys.length ≤ k → walk (next s) k ys.head? = ys := by
    intro ys
    induction ys with
    | nil => intro xs k _ _; cases k <;> rfl
    | cons y ys ih =>
      intro xs k hs hk
      cases k with
      | zero => simp at hk
      | succ k =>
        simp only [List.head?_cons, walk, (inv_next hi hs).1]
        rw [ih (xs ++ [y]) k (by simp [hs]) (by simpa using hk)]
  have bwd : ∀ (xs ys : List Nat) (k : Nat), a.seq l = xs.reverse ++ ys → xs.length ≤ k →
      walk (prev s) k xs.head? = xs := by
    intro xs
    induction xs with
    | nil => intro ys k _ _; cases k <;> rfl
    | cons x xs ih =>
      intro ys k hs hk
      cases k with
      | zero => simp at hk
      | succ k =>
        have hs' : a.seq l = xs.reverse ++ x :: ys := by simp [hs]
        simp only [List.head?_cons, walk, (inv_next hi hs').2]
        rw [List.getLast?_reverse, ih (x :: ys) k hs' (by simpa using hk)]
  refine ⟨fwd _ [] k (by simp) hk, ?_⟩
  rw [← List.head?_reverse]
  exact bwd _ [] k (by simp) (by simpa using hk)

/-- Non-vacuity: two lists, an element moved, one removed. -/
example : LegalHist 0 (Abs.empty 0)
    [.newList, .zeroList, .pushBack 0 5, .pushBack 0 6, .pushFront 1 7, .moveToFront 0 3, .remove 0 2, .pushBackList 1 1] ∧
    (specRun 0 (Abs.empty 0)
      [.newList, .zeroList, .pushBack 0 5, .pushBack 0 6, .pushFront 1 7, .moveToFront 0 3, .remove 0 2, .pushBackList 1 1]).1.seq 1 = [4, 5] := by
  refine ⟨?_, by decide⟩
  simp [LegalHist, Legal, specStep, Abs.empty, Abs.addList, Abs.alloc, Abs.setSeq, Abs.touch]

/-! ### C28 -/

/-- C28: operations given an element that is not in the receiver change nothing at all. -/
theorem foreign_element {z : T} {ops : List (Op T)} {s : St T} {a : Abs T} (h : After z ops s a) {l e : Nat}
    (hs : a.stale e = false) (he : e ∉ a.seq l) (v : T) :
    removeElem s l e = .ok (s, a.value e) ∧ insertBefore s l v e = .ok (s, none) ∧
    insertAfter s l v e = .ok (s, none) ∧ moveToFront s l e = .ok s ∧ moveToBack s l e = .ok s ∧
    (∀ m, moveBefore s l e m = .ok s ∧ moveAfter s l e m = .ok s ∧
      moveBefore s l m e = .ok s ∧ moveAfter s l m e = .ok s) := by
  have hi := h.inv
  have hn : (s.heap e).list ≠ some l := fun e' => he ((hi.list_iff hs).1 e')
  refine ⟨?_, ?_, ?_, ?_, ?_, fun m => ⟨?_, ?_, ?_, ?_⟩⟩ <;>
    simp [removeElem, insertBefore, insertAfter, moveToFront, moveToBack, moveBefore, moveAfter, hn, hi.val]

/-! ### C29 -/

/-- C29: PushBackList appends copies of the values of `o` (also when `o` is `l`), every other list keeps its
    values. -/
theorem pushBackList_values {z : T} {ops : List (Op T)} {s : St T} {a : Abs T} (h : After z ops s a) {l o : Nat}
    (hl : a.isList l = true) (ho : a.isList o = true) :
    ∃ s', pushBackList s l o = .ok s' ∧
      toSlice s' l = .ok ((a.seq l).map a.value ++ (a.seq o).map a.value) ∧
      ∀ k, k ≠ l → a.isList k = true → a.inited k = true → toSlice s' k = .ok ((a.seq k).map a.value) := by
  have hi := h.inv
  obtain ⟨s', e, h'⟩ := step_refines z hi (.pushBackList l o) ⟨hl, ho⟩
  have e' : pushBackList s l o = .ok s' := by
    simp only [step] at e
    cases hx : pushBackList s l o with
    | ok s1 => rw [hx] at e; simp at e; rw [e.1]
    | panic k => rw [hx] at e; simp at e
    | hang => rw [hx] at e; simp at e
  have hval : ∀ k ls, k ∈ a.seq ls → (specStep z a (.pushBackList l o)).1.value k = a.value k := by
    intro k ls hk
    exact value_alloc_old a _ (hi.mem ls k hk).2.1
  refine ⟨s', e', ?_, ?_⟩
  · rw [inv_toSlice h' (by exact hl) (by simp [specStep, Abs.touch])]
    congr 1
    have : (specStep z a (.pushBackList l o)).1.seq l = a.seq l ++ a.ids (a.seq o).length := by
      simp [specStep, Abs.touch, Abs.setSeq]
    rw [this, List.map_append]
    congr 1
    · exact List.map_congr_left fun k hk => hval k l hk
    · apply List.ext_getElem
      · simp [Abs.ids]
      · intro i h1 h2
        simp [Abs.ids] at h1
        simp only [specStep, Abs.touch, Abs.setSeq, Abs.alloc, Abs.ids, List.getElem_map, List.getElem_range]
        rw [dif_pos (by simp; omega)]
        simp
  · intro k hk hkl hki
    rw [inv_toSlice h' (by exact hkl) (by simp [specStep, Abs.touch, hk]; exact hki)]
    congr 1
    have : (specStep z a (.pushBackList l o)).1.seq k = a.seq k := by
      simp [specStep, Abs.touch, Abs.setSeq, hk, Abs.alloc]
    rw [this]
    exact List.map_congr_left fun j hj => hval j k hj

/-- C29: PushFrontList prepends copies of the values of `o`, in `o`'s order. -/
theorem pushFrontList_values {z : T} {ops : List (Op T)} {s : St T} {a : Abs T} (h : After z ops s a) {l o : Nat}
    (hl : a.isList l = true) (ho : a.isList o = true) :
    ∃ s', pushFrontList s l o = .ok s' ∧
      toSlice s' l = .ok ((a.seq o).map a.value ++ (a.seq l).map a.value) ∧
      ∀ k, k ≠ l → a.isList k = true → a.inited k = true → toSlice s' k = .ok ((a.seq k).map a.value) := by
  have hi := h.inv
  obtain ⟨s', e, h'⟩ := step_refines z hi (.pushFrontList l o) ⟨hl, ho⟩
  have e' : pushFrontList s l o = .ok s' := by
    simp only [step] at e
    cases hx : pushFrontList s l o with
    | ok s1 => rw [hx] at e; simp at e; rw [e.1]
    | panic k => rw [hx] at e; simp at e
    | hang => rw [hx] at e; simp at e
  have hval : ∀ k ls, k ∈ a.seq ls → (specStep z a (.pushFrontList l o)).1.value k = a.value k := by
    intro k ls hk
    exact value_alloc_old a _ (hi.mem ls k hk).2.1
  refine ⟨s', e', ?_, ?_⟩
  · rw [inv_toSlice h' (by exact hl) (by simp [specStep, Abs.touch])]
    congr 1
    have : (specStep z a (.pushFrontList l o)).1.seq l = (a.ids (a.seq o).length).reverse ++ a.seq l := by
      simp [specStep, Abs.touch, Abs.setSeq]
    rw [this, List.map_append]
    congr 1
    · apply List.ext_getElem
      · simp [Abs.ids]
      · intro i h1 h2
        simp [Abs.ids] at h1
        simp only [specStep, Abs.touch, Abs.setSeq, Abs.alloc, Abs.ids, List.getElem_map, List.getElem_range, List.getElem_reverse]
        rw [dif_pos (by simp; omega)]
        simp only [List.length_map, List.length_range]
        congr 2
        omega
    · exact List.map_congr_left fun k hk => hval k l hk
  · intro k hk hkl hki
    rw [inv_toSlice h' (by exact hkl) (by simp [specStep, Abs.touch, hk]; exact hki)]
    congr 1
    have : (specStep z a (.pushFrontList l o)).1.seq k = a.seq k := by
      simp [specStep, Abs.touch, Abs.setSeq, hk, Abs.alloc]
    rw [this]
    exact List.map_congr_left fun j hj => hval j k hj

/-! ### C30 -/

/-- C30, the part that holds: after Clear, Len is 0, Front and Back are nil, no other list is affected and a
    following push builds a one-element list (`run_refines` covers every further legal history). -/
theorem clear_partial {z : T} {ops : List (Op T)} {s : St T} {a : Abs T} (h : After z ops s a) {l : Nat}
    (hl : a.isList l = true) (v : T) :
    len (clear s l) l = 0 ∧ front (clear s l) l = none ∧ back (clear s l) l = none ∧
    (∀ k, k ≠ l → a.isList k = true → a.inited k = true → toSlice (clear s l) k = toSlice s k) ∧
    ∃ s' e, pushBack (clear s l) l v = .ok (s', e) ∧ toSlice s' l = .ok [v] := by
  have hi := h.inv
  have hc := inv_clear hi hl
  have hc' : Inv (clear s l) (specStep z a (.clear l)).1 := hc
  have hl' : (specStep z a (.clear l)).1.isList l = true := hl
  obtain ⟨h1, h2⟩ := inv_front hc' hl'
  have hnil : (specStep z a (.clear l)).1.seq l = [] := by simp [specStep, Abs.setSeq]
  rw [hnil] at h1 h2
  refine ⟨by simp [len, clear, St.setLen], h1, h2, ?_, ?_⟩
  · intro k hk hkl hki
    rw [inv_toSlice hi hkl hki, inv_toSlice hc' (by exact hkl) (by simp [specStep, hk, hki])]
    simp [specStep, Abs.setSeq, hk]
  · obtain ⟨s', e, h'⟩ := step_refines z hc' (.pushBack l v) hl'
    refine ⟨s', a.fresh, ?_, ?_⟩
    · simp only [step] at e
      cases hx : pushBack (clear s l) l v with
      | ok r =>
        rw [hx] at e
        simp [specStep, Abs.setSeq] at e
        obtain ⟨r1, r2⟩ := r
        simp at e; rw [e.1, e.2]
      | panic k => rw [hx] at e; simp at e
      | hang => rw [hx] at e; simp at e
    · rw [inv_toSlice h' (by exact hl) (by simp [specStep, Abs.touch])]
      simp [specStep, Abs.touch, Abs.setSeq, Abs.alloc]

/-- C27: Init empties any list, at any point of any history: Len is 0, Front and Back are nil, ToSlice is empty (unlike after Clear),
    every other list keeps its values, and a following push builds a one-element list. -/
theorem init_empties {z : T} {ops : List (Op T)} {s : St T} {a : Abs T} (h : After z ops s a) {l : Nat}
    (hl : a.isList l = true) (v : T) :
    len (init s l) l = 0 ∧ front (init s l) l = none ∧ back (init s l) l = none ∧ toSlice (init s l) l = .ok [] ∧
    (∀ k, k ≠ l → a.isList k = true → a.inited k = true → toSlice (init s l) k = toSlice s k) ∧
    ∃ s' e, pushBack (init s l) l v = .ok (s', e) ∧ toSlice s' l = .ok [v] := by
  have hi := h.inv
  have hc' : Inv (init s l) (specStep z a (.init l)).1 := inv_init hi hl
  have hl' : (specStep z a (.init l)).1.isList l = true := hl
  obtain ⟨h1, h2⟩ := inv_front hc' hl'
  have hnil : (specStep z a (.init l)).1.seq l = [] := by simp [specStep, Abs.setSeq]
  rw [hnil] at h1 h2
  refine ⟨by simp [len, init, St.setLen], h1, h2, ?_, ?_, ?_⟩
  · rw [inv_toSlice hc' hl' (by simp [specStep]), hnil]; rfl
  · intro k hk hkl hki
    rw [inv_toSlice hi hkl hki, inv_toSlice hc' (by exact hkl) (by simp [specStep, hk, hki])]
    simp [specStep, Abs.setSeq, hk]
  · obtain ⟨s', e, h'⟩ := step_refines z hc' (.pushBack l v) hl'
    refine ⟨s', a.fresh, ?_, ?_⟩
    · simp only [step] at e
      cases hx : pushBack (init s l) l v with
      | ok r =>
        rw [hx] at e
        simp [specStep, Abs.setSeq] at e
        obtain ⟨r1, r2⟩ := r
        simp at e; rw [e.1, e.2]
      | panic k => rw [hx] at e; simp at e
      | hang => rw [hx] at e; simp at e
    · rw [inv_toSlice h' (by exact hl) (by simp [specStep, Abs.touch])]
      simp [specStep, Abs.touch, Abs.setSeq, Abs.alloc]

/-- C27: assigning the exported `Value` field of an element changes that element's value and nothing else. -/
theorem setValue_values {z : T} {ops : List (Op T)} {s : St T} {a : Abs T} (h : After z ops s a) {l : Nat}
    (hl : a.isList l = true) (hin : a.inited l = true) (e : Nat) (v : T) :
    toSlice (s.setValue e v) l = .ok ((a.seq l).map fun k => if k = e then v else a.value k) := by
  rw [inv_toSlice (inv_setValue h.inv e v) hl hin]

theorem toSlice_nil {s : St T} {l : Nat} (h1 : (s.heap l).next = none) (h2 : s.len l = 0) :
    toSlice s l = .panic .nilDeref := by
  unfold toSlice
  rw [h2, if_neg (by omega), Iter.all]
  simp [iter, deref, h1]

/-- C30 is false for ToSlice and Iter: on every list that has just been cleared they dereference nil. -/
theorem clear_toSlice_refuted (s : St T) (l : Nat) : toSlice (clear s l) l = .panic .nilDeref :=
  toSlice_nil (by simp [clear, St.setNext, St.setLen]) (by simp [clear, St.setLen])

/-- The same on a zero-value list that has not been pushed to (the documentation calls it ready to use). -/
theorem toSlice_uninitialised_refuted {z : T} {ops : List (Op T)} {s : St T} {a : Abs T} (h : After z ops s a)
    {l : Nat} (hl : a.isList l = true) (hu : a.inited l = false) : toSlice s l = .panic .nilDeref := by
  obtain ⟨h1, h2⟩ := h.inv.raw l hl hu
  have h3 := (h.inv.lst l hl).2.2
  rw [h2] at h3
  exact toSlice_nil h1 (by simpa using h3)

/-- C30 is false for elements of a cleared list: removing one drives Len to -1. -/
theorem clear_remove_refuted (z v : T) :
    ∃ s l e s' x, run z (St.empty z) [.newList, .pushBack 0 v, .clear 0] = .ok (s, [.ptr (some l), .ptr (some e), .unit]) ∧
      removeElem s l e = .ok (s', x) ∧ len s' l = -1 := by
  refine ⟨_, 0, 1, _, _, rfl, rfl, rfl⟩

/-! ### C31 -/

/-- C31: ToSlice. -/
theorem toSlice_values {z : T} {ops : List (Op T)} {s : St T} {a : Abs T} (h : After z ops s a) {l : Nat}
    (hl : a.isList l = true) (hi : a.inited l = true) : toSlice s l = .ok ((a.seq l).map a.value) :=
  inv_toSlice h.inv hl hi

/-- C31: Iter yields the values in order, then reports the end — and is back at its start, so the next pull
    delivers the first element again. -/
theorem iter_values {z : T} {ops : List (Op T)} {s : St T} {a : Abs T} (h : After z ops s a) {l : Nat}
    (hl : a.isList l = true) (hin : a.inited l = true) :
    ∃ n, Iter.Yields (iter s l) (some l) ((a.seq l).map a.value) n ∧ iter s l n = .ok (none, some l) := by
  have hi := h.inv
  have main : ∀ (ys xs : List Nat) (x : Nat), a.seq l = xs ++ ys → (l :: xs).getLast? = some x →
      ∃ n, Iter.Yields (iter s l) (some x) (ys.map a.value) n ∧ iter s l n = .ok (none, some l) := by
    intro ys
    induction ys with
    | nil =>
      intro xs x hs hx
      have hr := hi.ring l hl hin
      rw [hs] at hr
      have := ((ring_cut hr).2.2 x l hx (by simp)).1
      exact ⟨some x, .nil _, by simp [iter, deref, this]⟩
    | cons y ys ih =>
      intro xs x hs hx
      have hr := hi.ring l hl hin
      rw [hs] at hr
      have hlk := ((ring_cut hr).2.2 x y hx (by simp)).1
      have hne : y ≠ l := by
        rintro rfl
        have := (hi.mem y y (by rw [hs]; simp)).2.2.1
        simp [hl] at this
      obtain ⟨n, h1, h2⟩ := ih (xs ++ [y]) y (by simp [hs])
        (by rw [show l :: (xs ++ [y]) = (l :: xs) ++ [y] by simp, List.getLast?_append]; simp)
      refine ⟨n, ?_, h2⟩
      rw [List.map_cons]
      refine .cons (s₁ := some y) ?_ h1
      simp [iter, deref, hlk, hne, hi.val y]
  exact main (a.seq l) [] l (by simp) (by simp)

/-- A segment delivers exactly `vs` and then reports its end. -/
def SegYields (s : St T) (l : Nat) (g : SegIter) (vs : List T) : Prop :=
  ∃ g' g'', Iter.Yields (segNext s l) g vs g' ∧ segNext s l g' = .ok (none, g'')

/-- C31: for parallelism p ≤ 0 there is one segment, holding everything. -/
theorem split_sequential {z : T} {ops : List (Op T)} {s : St T} {a : Abs T} (h : After z ops s a) {l : Nat}
    (hl : a.isList l = true) (hin : a.inited l = true) (p : Int) (hp : p ≤ 0) :
    ∃ g st, Iter.Yields (splitNext s l p) (0, front s l) [g] st ∧ splitNext s l p st = .ok (none, st) ∧
      SegYields s l g ((a.seq l).map a.value) := by
  obtain ⟨n, h1, h2⟩ := iter_values h hl hin
  refine ⟨.whole (some l), (1, front s l), .cons (s₁ := (1, front s l)) ?_ (.nil _), ?_, ?_⟩
  · simp [splitNext, hp]
  · simp [splitNext, hp]
  · have lift : ∀ x vs y, Iter.Yields (iter s l) x vs y → Iter.Yields (segNext s l) (.whole x) vs (.whole y) := by
      intro x vs y hy
      induction hy with
      | nil s => exact .nil _
      | cons hx _ ih => exact .cons (by simp only [segNext, hx, Res.bind_ok]; rfl) ih
    exact ⟨_, .whole (some l), lift _ _ _ h1, by simp [segNext, h2]⟩

theorem advance_inv {s : St T} {a : Abs T} (hi : Inv s a) {l : Nat} : ∀ (k : Nat) (ys xs : List Nat),
    a.seq l = xs ++ ys → advance s k ys.head? = (ys.drop k).head? := by
  intro k
  induction k with
  | zero => intro ys xs _; rfl
  | succ k ih =>
    intro ys xs hs
    cases ys with
    | nil => simp [advance]
    | cons y ys =>
      simp only [List.head?_cons, advance, (inv_next hi hs).1, List.drop_succ_cons]
      exact ih ys (xs ++ [y]) (by simp [hs])

theorem seg_rest {s : St T} {a : Abs T} (hi : Inv s a) {l : Nat} : ∀ (ys xs : List Nat), a.seq l = xs ++ ys →
    SegYields s l (.rest ys.head?) (ys.map a.value) := by
  intro ys
  induction ys with
  | nil => intro xs _; exact ⟨_, _, .nil _, rfl⟩
  | cons y ys ih =>
    intro xs hs
    obtain ⟨g', g'', h1, h2⟩ := ih (xs ++ [y]) (by simp [hs])
    refine ⟨g', g'', .cons (s₁ := .rest ys.head?) ?_ h1, h2⟩
    simp [segNext, (inv_next hi hs).1, hi.val y]

theorem seg_step {s : St T} {a : Abs T} (hi : Inv s a) {l : Nat} : ∀ (k : Nat) (ys xs : List Nat), a.seq l = xs ++ ys →
    SegYields s l (.step k ys.head?) ((ys.take k).map a.value) := by
  intro k
  induction k with
  | zero =>
    intro ys xs _
    cases ys with
    | nil => exact ⟨_, _, .nil _, rfl⟩
    | cons y ys =>
      refine ⟨_, .step (-1) (some y), .nil _, ?_⟩
      simp [segNext]
  | succ k ih =>
    intro ys xs hs
    cases ys with
    | nil => exact ⟨_, _, .nil _, rfl⟩
    | cons y ys =>
      obtain ⟨g', g'', h1, h2⟩ := ih ys (xs ++ [y]) (by simp [hs])
      refine ⟨g', g'', .cons (s₁ := .step (k : Int) ys.head?) ?_ h1, h2⟩
      have : (0 : Int) < ((k + 1 : Nat) : Int) := by omega
      simp only [List.head?_cons, segNext, this, if_true, (inv_next hi hs).1, hi.val y]
      simp

/-- The segments from position `i` on. -/
theorem split_from {s : St T} {a : Abs T} (hi : Inv s a) {l : Nat} (hl : a.isList l = true) (p : Int) (hp : 0 < p)
    (q : Nat) (hq : Int.tdiv ((a.seq l).length : Int) p = q) (hq0 : 0 < q) (i : Nat) :
    ∃ (segs : List (SegIter × List T)) (st : Int × Option Nat),
      Iter.Yields (splitNext s l p) ((i : Int), ((a.seq l).drop i).head?) (segs.map (·.1)) st ∧
      splitNext s l p st = .ok (none, st) ∧ (segs.map (·.2)).flatten = ((a.seq l).drop i).map a.value ∧
      (∀ g ∈ segs, SegYields s l g.1 g.2 ∧ 0 < g.2.length) ∧ segs.length = Slice.segCount ((a.seq l).length - i) q ∧
      segs.map (·.2) = Slice.cuts q (((a.seq l).drop i).map a.value) := by
  have hlen := (hi.lst l hl).2.2
  have hp0 : ¬ p ≤ 0 := by omega
  induction hn : (a.seq l).length - i using Nat.strongRecOn generalizing i with
  | _ n ih =>
    have hsplit : a.seq l = (a.seq l).take i ++ (a.seq l).drop i := by simp
    by_cases hil : i < (a.seq l).length
    · obtain ⟨segs, st, h1, h2, h3, h4, h5, h6⟩ := ih ((a.seq l).length - (i + q)) (by omega) (i + q) rfl
      have hadv := advance_inv hi (l := l) q ((a.seq l).drop i) ((a.seq l).take i) hsplit
      rw [List.drop_drop] at hadv
      have hne : ¬ ((i : Int) ≥ ((a.seq l).length : Int)) := by omega
      by_cases hlast : i + q ≥ (a.seq l).length
      · refine ⟨(.rest ((a.seq l).drop i).head?, ((a.seq l).drop i).map a.value) :: segs, st, .cons (s₁ := ((↑(i + q) : Int), ((a.seq l).drop (i + q)).head?)) ?_ h1, h2, ?_, ?_, ?_, ?_⟩
        · have : (i : Int) + (q : Int) ≥ ((a.seq l).length : Int) := by omega
          simp only [splitNext, hp0, if_false, hlen, hne, hq, this, if_true, Int.toNat_natCast, hadv]
          simp
        · have : (a.seq l).drop (i + q) = [] := List.drop_eq_nil_of_le hlast
          simp only [List.map_cons, List.flatten_cons, h3, this]; simp
        · intro g hg
          rcases List.mem_cons.1 hg with rfl | hg
          · refine ⟨seg_rest hi _ _ hsplit, by simp; omega⟩
          · exact h4 g hg
        · rw [List.length_cons, h5, Slice.segCount_succ n q hq0 (by omega)]; congr 2; omega
        · have hne : ((a.seq l).drop i).map a.value ≠ [] := by
            intro e; have := congrArg List.length e; simp at this; omega
          rw [List.map_cons, h6, Slice.cuts_cons hq0 hne, ← List.map_drop, List.drop_drop, List.take_of_length_le (by simp; omega)]
      · refine ⟨(.step q ((a.seq l).drop i).head?, (((a.seq l).drop i).take q).map a.value) :: segs, st, .cons (s₁ := ((↑(i + q) : Int), ((a.seq l).drop (i + q)).head?)) ?_ h1, h2, ?_, ?_, ?_, ?_⟩
        · have : ¬ ((i : Int) + (q : Int) ≥ ((a.seq l).length : Int)) := by omega
          simp only [splitNext, hp0, if_false, hlen, hne, hq, this, Int.toNat_natCast, hadv]
          simp
        · simp only [List.map_cons, List.flatten_cons, h3]
          rw [← List.drop_drop, ← List.map_append, List.take_append_drop]
        · intro g hg
          rcases List.mem_cons.1 hg with rfl | hg
          · refine ⟨seg_step hi q _ _ hsplit, by simp; omega⟩
          · exact h4 g hg
        · rw [List.length_cons, h5, Slice.segCount_succ n q hq0 (by omega)]; congr 2; omega
        · have hne : ((a.seq l).drop i).map a.value ≠ [] := by
            intro e; have := congrArg List.length e; simp at this; omega
          rw [List.map_cons, h6, Slice.cuts_cons hq0 hne, ← List.map_drop, List.drop_drop, List.map_take]
    · refine ⟨[], ((i : Int), ((a.seq l).drop i).head?), .nil _, ?_, ?_, by simp, ?_, ?_⟩
      · have : (i : Int) ≥ ((a.seq l).length : Int) := by omega
        simp only [splitNext, hp0, if_false, hlen, this, if_true]
      · rw [List.drop_eq_nil_of_le (by omega)]; rfl
      · have : n = 0 := by omega
        subst this
        simp only [Slice.segCount, List.length_nil]
        exact (Nat.div_eq_of_lt (by omega)).symm
      · rw [List.drop_eq_nil_of_le (by omega)]; simp [Slice.cuts_nil]

/-- C31: for 1 ≤ p ≤ Len the segments are finitely many, non-empty and concatenate to the list's values; their
number is ⌈Len / (Len / p)⌉, each has Len / p values except possibly the last one. -/
theorem split_parallel {z : T} {ops : List (Op T)} {s : St T} {a : Abs T} (h : After z ops s a) {l : Nat}
    (hl : a.isList l = true) (p : Nat) (hp : 1 ≤ p) (hlen : p ≤ (a.seq l).length) :
    ∃ (segs : List (SegIter × List T)) (st : Int × Option Nat),
      Iter.Yields (splitNext s l p) (0, front s l) (segs.map (·.1)) st ∧ splitNext s l p st = .ok (none, st) ∧
      (segs.map (·.2)).flatten = (a.seq l).map a.value ∧ (∀ g ∈ segs, SegYields s l g.1 g.2 ∧ 0 < g.2.length) ∧
      segs.length = Slice.segCount (a.seq l).length ((a.seq l).length / p) ∧
      segs.map (·.2) = Slice.cuts ((a.seq l).length / p) ((a.seq l).map a.value) := by
  have hq : Int.tdiv ((a.seq l).length : Int) (p : Int) = (((a.seq l).length / p : Nat) : Int) := by
    rw [Int.tdiv_eq_ediv_of_nonneg (by omega)]; simp
  have := split_from h.inv hl (p : Int) (by omega) _ hq (Nat.div_pos hlen (by omega)) 0
  rw [(inv_front h.inv hl).1]
  simpa using this

/-- Non-vacuity for the theorems about a list `l` after a history: three elements in list 0. -/
example : ∃ s a, After 0 [.newList, .pushBack 0 10, .pushBack 0 20, .pushFront 0 5] s a ∧ a.isList 0 = true ∧
    a.inited 0 = true ∧ (a.seq 0).map a.value = [5, 10, 20] ∧ (1 : Nat) ∉ a.seq 5 ∧ a.stale 1 = false := by
  have hleg : LegalHist 0 (Abs.empty 0) [.newList, .pushBack 0 10, .pushBack 0 20, .pushFront 0 5] := by
    simp [LegalHist, Legal, specStep, Abs.empty, Abs.addList, Abs.alloc, Abs.setSeq, Abs.touch]
  obtain ⟨s', e, -⟩ := run_refines 0 _ _ _ (inv_empty 0) hleg
  exact ⟨s', _, ⟨hleg, ⟨_, e⟩, rfl⟩, rfl, rfl, rfl, by decide, rfl⟩

end Gds.LinkedList
