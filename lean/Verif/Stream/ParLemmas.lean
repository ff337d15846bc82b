import Verif.Stream.Par
import Verif.Stream.Lemmas
import Mathlib.Data.List.Perm.Basic

namespace Gds.Stream

variable {E T R : Type}

/-- Pulling from `st` delivers exactly `xs` and touches neither counters nor environment. -/
inductive PureSeg (s : Stm E T) : s.S → List T → Prop where
  | nil {st st'} (h : ∀ l e, s.pull st l e = .ok (none, st', l, e)) : PureSeg s st []
  | cons {st st' x xs} (h : ∀ l e, s.pull st l e = .ok (some x, st', l, e)) (r : PureSeg s st' xs) :
      PureSeg s st (x :: xs)

/-- The segmenter in state `g` hands out segments with the contents `segs`, then ends. -/
inductive SegsOf (s : Stm E T) : s.G → List (List T) → Prop where
  | nil {g} (h : ∀ l e, ∃ g', s.seg g l e = .ok (none, g', l, e)) : SegsOf s g []
  | cons {g g' st xs segs} (h : ∀ l e, s.seg g l e = .ok (some st, g', l, e)) (hs : PureSeg s st xs)
      (r : SegsOf s g' segs) : SegsOf s g (xs :: segs)

/-- `s.Activate(p)` hands out segments with contents `segs`. -/
def Splits (s : Stm E T) (p : Int) (segs : List (List T)) : Prop := SegsOf s (s.activate p) segs

/-! ### Streams that split -/

theorem ofSlice_pureSeg (m : Slice.Mem T) (s h : Slice.Hdr) (p : Int) (n k : Nat) (hk : n + k = h.len) :
    PureSeg (ofSlice (E := E) m s p) (h, k) ((m.view h).drop k) := by
  induction n generalizing k with
  | zero =>
    rw [List.drop_eq_nil_of_le (by simp; omega)]
    exact .nil (st' := (h, k)) (fun l e => by simp [ofSlice, Slice.iter, show ¬ k < h.len by omega])
  | succ n ih =>
    have hk' : k < h.len := by omega
    rw [List.drop_eq_getElem_cons (by simpa using hk')]
    refine .cons (st' := (h, k + 1)) (fun l e => ?_) (ih (k + 1) (by omega))
    simp [ofSlice, Slice.iter, hk', Slice.get_view m h k hk']

theorem ofSlice_segsOf (m : Slice.Mem T) (s : Slice.Hdr) (q p : Int) {i : Int} {gs : List Slice.Hdr} {idx : Int}
    (h : Iter.Yields (Slice.splitableIter s p) i gs idx) (hend : Slice.splitableIter s p idx = .ok (none, idx)) :
    SegsOf (ofSlice (E := E) m s q) (p, i) (gs.map m.view) := by
  induction h with
  | nil i => exact .nil (fun l e => ⟨(p, i), by simp [ofSlice, hend]⟩)
  | @cons i g i1 gs _ hn r ih =>
    refine .cons (st := (g, 0)) (g' := (p, i1)) (fun l e => by simp [ofSlice, hn]) ?_ (ih hend)
    have := ofSlice_pureSeg (E := E) m s g q g.len 0 (by omega)
    simpa using this

/-- A slice of length at least p ≥ 1 is cut into segments of ⌊len/p⌋ elements (the last one may be shorter). -/
theorem ofSlice_cuts (m : Slice.Mem T) (s : Slice.Hdr) (hs : m.Ok s) (p : Nat) (hp : 1 ≤ p) (hl : p ≤ s.len) (q : Int) :
    Splits (ofSlice (E := E) m s q) p (Slice.cuts (s.len / p) (m.view s)) := by
  obtain ⟨gs, idx, h1, h2, h3, h4, h5, h7⟩ := Slice.split_parallel m s hs p hp hl
  rw [← h7]
  exact ofSlice_segsOf m s q p h1 h2

/-- A list of length at least p ≥ 1 is cut into non-empty pieces whose concatenation is the list;
    there are p of them exactly when p divides the length. -/
theorem cuts_facts (xs : List T) (p : Nat) (hp : 1 ≤ p) (hl : p ≤ xs.length) :
    (Slice.cuts (xs.length / p) xs).flatten = xs ∧ (∀ g ∈ Slice.cuts (xs.length / p) xs, g ≠ []) ∧
      p ≤ (Slice.cuts (xs.length / p) xs).length ∧ ((Slice.cuts (xs.length / p) xs).length = p ↔ p ∣ xs.length) := by
  have hq : 0 < xs.length / p := Nat.div_pos hl (by omega)
  have := Slice.segCount_eq_iff xs.length p hp hl
  rw [← Slice.cuts_length hq] at this
  exact ⟨Slice.cuts_flatten hq xs, Slice.cuts_ne_nil xs, this⟩

/-- A slice of length at least p ≥ 1 splits into non-empty segments whose concatenation is the slice;
    there are p of them exactly when p divides the length. -/
theorem ofSlice_splits (m : Slice.Mem T) (s : Slice.Hdr) (hs : m.Ok s) (p : Nat) (hp : 1 ≤ p) (hl : p ≤ s.len) (q : Int) :
    ∃ segs, Splits (ofSlice (E := E) m s q) p segs ∧ segs.flatten = m.view s ∧ (∀ g ∈ segs, g ≠ []) ∧
      p ≤ segs.length ∧ (segs.length = p ↔ p ∣ s.len) := by
  have := cuts_facts (m.view s) p hp (by simpa using hl)
  rw [show (m.view s).length = s.len by simp] at this
  exact ⟨_, ofSlice_cuts m s hs p hp hl q, this⟩

theorem map_pureSeg {s : Stm E T} (f : T → R) {st xs} (h : PureSeg s st xs) :
    PureSeg (map s f) st (xs.map f) := by
  induction h with
  | @nil st st' h => exact .nil (st' := st') (fun (l : s.L) e => by simp [map, h])
  | cons h r ih => exact .cons (fun (l : s.L) e => by simp [map, h]) ih

theorem map_splits {s : Stm E T} (f : T → R) {p segs} (h : Splits s p segs) :
    Splits (map s f) p (segs.map (List.map f)) := by
  unfold Splits at *
  show SegsOf (map s f) (s.activate p) _
  generalize s.activate p = g at h
  induction h with
  | nil h => exact .nil h
  | cons h hs r ih => exact .cons h (map_pureSeg f hs) ih

theorem pureSeg_of_eq {s : Stm E T} {st st1 xs} (h : ∀ l e, s.pull st l e = s.pull st1 l e)
    (r : PureSeg s st1 xs) : PureSeg s st xs := by
  cases r with
  | nil hn => exact .nil (fun l e => by rw [h]; exact hn l e)
  | cons hn r => exact .cons (fun l e => by rw [h]; exact hn l e) r

theorem filter_pureSeg {s : Stm E T} (q : T → Bool) {st xs} (h : PureSeg s st xs) :
    PureSeg (filter s q) st (xs.filter q) := by
  induction h with
  | @nil st st' h =>
    exact .nil (st' := st') (fun (l : s.L) e => by simp only [filter]; rw [filterPull]; simp [h])
  | @cons st st' x xs h r ih =>
    by_cases hq : q x = true
    · rw [List.filter_cons_of_pos hq]
      exact .cons (fun (l : s.L) e => by simp only [filter]; rw [filterPull]; simp [h, hq]) ih
    · rw [List.filter_cons_of_neg hq]
      refine pureSeg_of_eq (fun (l : s.L) e => ?_) ih
      simp only [filter]
      conv_lhs => rw [filterPull]
      simp [h, hq]

theorem filter_splits {s : Stm E T} (q : T → Bool) {p segs} (h : Splits s p segs) :
    Splits (filter s q) p (segs.map (List.filter q)) := by
  unfold Splits at *
  show SegsOf (filter s q) (s.activate p) _
  generalize s.activate p = g at h
  induction h with
  | nil h => exact .nil h
  | cons h hs r ih => exact .cons h (filter_pureSeg q hs) ih

theorem skipWhile_pureSeg {s : Stm E T} (q : T → Bool) {st xs} (h : PureSeg s st xs) :
    PureSeg (skipWhile s q) st (xs.filter (fun x => !q x)) := by
  induction h with
  | @nil st st' h =>
    exact .nil (st' := st') (fun (l : s.L) e => by simp only [skipWhile]; rw [skipWhilePull]; simp [h])
  | @cons st st' x xs h r ih =>
    by_cases hq : q x = true
    · rw [List.filter_cons_of_neg (by simp [hq])]
      refine pureSeg_of_eq (fun (l : s.L) e => ?_) ih
      simp only [skipWhile]
      conv_lhs => rw [skipWhilePull]
      simp [h, hq]
    · rw [List.filter_cons_of_pos (by simp [hq])]
      exact .cons (fun (l : s.L) e => by simp only [skipWhile]; rw [skipWhilePull]; simp [h, hq]) ih

theorem skipWhile_splits {s : Stm E T} (q : T → Bool) {p segs} (h : Splits s p segs) :
    Splits (skipWhile s q) p (segs.map (List.filter (fun x => !q x))) := by
  unfold Splits at *
  show SegsOf (skipWhile s q) (s.activate p) _
  generalize s.activate p = g at h
  induction h with
  | nil h => exact .nil h
  | cons h hs r ih => exact .cons h (skipWhile_pureSeg q hs) ih

/-! ### What is left of a segment or a segmenter, as a function of its state -/

theorem PureSeg.unique {s : Stm E T} {st xs ys} (l : s.L) (e : E) (h : PureSeg s st xs) (h' : PureSeg s st ys) :
    xs = ys := by
  induction h generalizing ys with
  | nil h =>
    have h1 := h l e
    cases h' with
    | nil => rfl
    | cons h2 => rw [h2] at h1; simp at h1
  | cons h r ih =>
    cases h' with
    | nil h2 => have h1 := h2 l e; rw [h] at h1; simp at h1
    | cons h2 r2 =>
      have := h l e
      rw [h2] at this
      simp at this
      obtain ⟨rfl, rfl⟩ := this
      rw [ih r2]

theorem SegsOf.unique {s : Stm E T} {g xs ys} (l : s.L) (e : E) (h : SegsOf s g xs) (h' : SegsOf s g ys) :
    xs = ys := by
  induction h generalizing ys with
  | nil h =>
    obtain ⟨st1, h1⟩ := h l e
    cases h' with
    | nil => rfl
    | cons h2 => rw [h2] at h1; simp at h1
  | cons h hs r ih =>
    cases h' with
    | nil h2 => obtain ⟨st1, h1⟩ := h2 l e; rw [h] at h1; simp at h1
    | cons h2 hs2 r2 =>
      have := h l e
      rw [h2] at this
      simp at this
      obtain ⟨rfl, rfl⟩ := this
      rw [ih r2, hs.unique l e hs2]

open Classical in
/-- Elements still to be delivered from `st`. -/
noncomputable def rem (s : Stm E T) (st : s.S) : List T :=
  if h : ∃ xs, PureSeg s st xs then h.choose else []

open Classical in
/-- Segments still to be handed out from `g`. -/
noncomputable def remG (s : Stm E T) (g : s.G) : List (List T) :=
  if h : ∃ xs, SegsOf s g xs then h.choose else []

/-- The segment state is one of a well-behaved segment. -/
def Good (s : Stm E T) (st : s.S) : Prop := ∃ xs, PureSeg s st xs

/-- The segmenter state is one of a well-behaved segmenter. -/
def GoodG (s : Stm E T) (g : s.G) : Prop := ∃ xs, SegsOf s g xs

section
variable {s : Stm E T}

theorem rem_eq {st xs} (l : s.L) (e : E) (h : PureSeg s st xs) : rem s st = xs := by
  have hg : ∃ xs, PureSeg s st xs := ⟨xs, h⟩
  unfold rem
  rw [dif_pos hg]
  exact hg.choose_spec.unique l e h

theorem remG_eq {g xs} (l : s.L) (e : E) (h : SegsOf s g xs) : remG s g = xs := by
  have hg : ∃ xs, SegsOf s g xs := ⟨xs, h⟩
  unfold remG
  rw [dif_pos hg]
  exact hg.choose_spec.unique l e h

theorem pull_some {st l e v st' l' e'} (hg : Good s st) (h : s.pull st l e = .ok (some v, st', l', e')) :
    l' = l ∧ e' = e ∧ Good s st' ∧ rem s st = v :: rem s st' := by
  obtain ⟨xs, hx⟩ := hg
  have hr := rem_eq l e hx
  cases hx with
  | nil h1 => have h2 := h1 l e; rw [h] at h2; simp at h2
  | cons h1 r =>
    rw [h1] at h
    simp at h
    obtain ⟨rfl, rfl, rfl, rfl⟩ := h
    exact ⟨rfl, rfl, ⟨_, r⟩, by rw [hr, rem_eq l e r]⟩

theorem pull_none {st l e st' l' e'} (hg : Good s st) (h : s.pull st l e = .ok (none, st', l', e')) :
    l' = l ∧ e' = e ∧ rem s st = [] := by
  obtain ⟨xs, hx⟩ := hg
  have hr := rem_eq l e hx
  cases hx with
  | nil h1 =>
    have h2 := h1 l e
    rw [h] at h2
    simp at h2
    exact ⟨h2.2.1, h2.2.2, hr⟩
  | cons h1 r => rw [h1] at h; simp at h

theorem pull_ok {st} (hg : Good s st) (l : s.L) (e : E) :
    (∃ v st', s.pull st l e = .ok (some v, st', l, e)) ∨ (∃ st', s.pull st l e = .ok (none, st', l, e)) := by
  obtain ⟨xs, hx⟩ := hg
  cases hx with
  | nil h1 => exact .inr ⟨_, h1 l e⟩
  | cons h1 r => exact .inl ⟨_, _, h1 l e⟩

theorem seg_some {g l e st g' l' e'} (hg : GoodG s g) (h : s.seg g l e = .ok (some st, g', l', e')) :
    l' = l ∧ e' = e ∧ Good s st ∧ GoodG s g' ∧ remG s g = rem s st :: remG s g' := by
  obtain ⟨xs, hx⟩ := hg
  have hr := remG_eq l e hx
  cases hx with
  | nil h1 => obtain ⟨_, h2⟩ := h1 l e; rw [h] at h2; simp at h2
  | cons h1 hs r =>
    rw [h1] at h
    simp at h
    obtain ⟨rfl, rfl, rfl, rfl⟩ := h
    exact ⟨rfl, rfl, ⟨_, hs⟩, ⟨_, r⟩, by rw [hr, rem_eq l e hs, remG_eq l e r]⟩

theorem seg_none {g l e g' l' e'} (hg : GoodG s g) (h : s.seg g l e = .ok (none, g', l', e')) :
    l' = l ∧ e' = e ∧ remG s g = [] := by
  obtain ⟨xs, hx⟩ := hg
  have hr := remG_eq l e hx
  cases hx with
  | nil h1 =>
    obtain ⟨_, h2⟩ := h1 l e
    rw [h] at h2
    simp at h2
    exact ⟨h2.2.1, h2.2.2, hr⟩
  | cons h1 hs r => rw [h1] at h; simp at h

theorem seg_ok {g} (hg : GoodG s g) (l : s.L) (e : E) :
    (∃ v st', s.seg g l e = .ok (some v, st', l, e)) ∨ (∃ st', s.seg g l e = .ok (none, st', l, e)) := by
  obtain ⟨xs, hx⟩ := hg
  cases hx with
  | nil h1 => exact .inr (h1 l e)
  | cons h1 hs r => exact .inl ⟨_, _, h1 l e⟩

end

/-- Every element of a list is at some place. -/
theorem mem_split {α : Type _} {a : α} {xs : List α} (h : a ∈ xs) : ∃ pre post, xs = pre ++ a :: post :=
  List.append_of_mem h

end Gds.Stream
