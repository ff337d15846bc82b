import Verif.Slice.Lemmas
import Verif.Iter.Props
import Mathlib.Order.Lattice
import Mathlib.Data.List.Lex
import Mathlib.Data.List.Forall2

/-! Properties C03 and C04 (slice part), C07–C15. -/
namespace Gds.Slice
variable {T : Type _}

/-! ### C09, C10: Insert, Delete, Replace -/

/-- C09: `Insert(s,i,v...)` is `s[:i] ++ v ++ s[i:]`, whatever the spare capacity, when `v` is apart
    from `s`'s capacity window; C10: no cell below index `i`, none outside the capacity window, and
    none at all when the array is reallocated, is changed. -/
theorem insert_splice (z : T) (m : Mem T) (s v : Hdr) (i : Int) (hs : m.Ok s) (hv : m.Ok v)
    (hav : v.Apart s) (hi : 0 ≤ i ∧ i ≤ s.len) :
    ∃ m' r, insert z m s i v = .ok (m', r) ∧ m'.Ok r ∧
      m'.view r = (m.view s).take i.toNat ++ m.view v ++ (m.view s).drop i.toNat ∧
      (∀ a k, a < m.next → m'.cell a k ≠ m.cell a k →
        s.len + v.len ≤ s.cap ∧ s.owns a k ∧ s.off + i.toNat ≤ k) := by
  obtain ⟨n, rfl⟩ := Int.eq_ofNat_of_zero_le hi.1
  have hn : n ≤ s.len := by omega
  have h3 := hs.len_le
  have e : s.len + v.len = n + v.len + (s.len - n) := by omega
  by_cases hc : s.len + v.len ≤ s.cap
  · unfold insert
    simp only [hc, if_true, sliceTo, sliceFrom]
    rw [slice_ok (by simp; omega)]
    simp only [Res.bind_ok]
    rw [slice_ok (by simp; omega), slice_ok (by omega), slice_ok (by simp; omega)]
    simp only [Res.bind_ok, Res.pure_eq]
    refine ⟨_, _, rfl, ?_⟩
    suffices h : Spliced m _ s v _ n n (n + v.len + (s.len - n) ≤ s.cap) from ⟨h.ok, h.view, fun a k ha hne => ⟨trivial, (h.frame a k ha hne).2⟩⟩
    apply spliced_inplace <;> first | assumption | omega | (simp; try omega)
  · unfold insert
    simp only [hc, if_false, sliceTo, sliceFrom, Mem.make]
    rw [slice_ok (by simp; omega)]
    simp only [Res.bind_ok]
    rw [slice_ok (by simp; omega), slice_ok (by simp; omega), slice_ok (by omega)]
    simp only [Res.bind_ok, Res.pure_eq]
    refine ⟨_, _, rfl, ?_⟩
    suffices h : Spliced m _ s v _ n n False from ⟨h.ok, h.view, fun a k ha hne => (h.frame a k ha hne).1.elim⟩
    have := @spliced_fresh _ z m s v
    simp only [Mem.make] at this
    apply this <;> first | assumption | rfl | omega | (simp; try omega)

/-- C09: `Insert` panics exactly when the index is out of range. -/
theorem insert_panics (z : T) (m : Mem T) (s v : Hdr) (i : Int) (hs : m.Ok s)
    (hi : ¬ (0 ≤ i ∧ i ≤ s.len)) : insert z m s i v = .panic .sliceBounds := by
  have h3 := hs.len_le
  unfold insert
  by_cases hc : s.len + v.len ≤ s.cap
  · simp only [sliceTo, sliceFrom, hc, if_true]
    rw [slice_ok (by simp; omega)]
    simp only [Res.bind_ok]
    by_cases h1 : 0 ≤ i + v.len ∧ i ≤ s.len
    · rw [slice_ok (by simp; omega)]
      simp only [Res.bind_ok]
      rw [slice_panic (by omega)]; rfl
    · rw [slice_panic (by simp; omega)]; rfl
  · simp only [sliceTo, sliceFrom, Mem.make, hc, if_false]
    by_cases h1 : 0 ≤ i ∧ i ≤ s.cap
    · rw [slice_ok (by simp; omega)]
      simp only [Res.bind_ok]
      rw [slice_ok (by simp; omega), slice_panic (by simp; omega)]; rfl
    · rw [slice_panic (by omega)]; rfl

/-- C09: `Replace(s,i,j,v...)` is `s[:i] ++ v ++ s[j:]`, with the frame of C10. -/
theorem replace_splice (z : T) (m : Mem T) (s v : Hdr) (i j : Int) (hs : m.Ok s) (hv : m.Ok v)
    (hav : v.Apart s) (hi : 0 ≤ i ∧ i ≤ j ∧ j ≤ s.len) :
    ∃ m' r, replace z m s i j v = .ok (m', r) ∧ m'.Ok r ∧
      m'.view r = (m.view s).take i.toNat ++ m.view v ++ (m.view s).drop j.toNat ∧
      (∀ a k, a < m.next → m'.cell a k ≠ m.cell a k →
        i.toNat + v.len + (s.len - j.toNat) ≤ s.cap ∧ s.owns a k ∧ s.off + i.toNat ≤ k) := by
  obtain ⟨n, rfl⟩ := Int.eq_ofNat_of_zero_le hi.1
  obtain ⟨l, rfl⟩ := Int.eq_ofNat_of_zero_le (show 0 ≤ j by omega)
  have hn : n ≤ l := by omega
  have hl : l ≤ s.len := by omega
  have h3 := hs.len_le
  by_cases hc : n + v.len + (s.len - l) ≤ s.cap
  · unfold replace
    simp only [sliceTo, sliceFrom]
    rw [slice_ok (by omega)]
    simp only [Res.bind_ok]
    rw [slice_ok (by omega)]
    simp only [Res.bind_ok]
    rw [slice_ok (by omega)]
    simp only [Res.bind_ok]
    rw [if_pos (by omega), slice_ok (by simp; omega)]
    simp only [Res.bind_ok]
    rw [slice_ok (by simp; omega)]
    simp only [Res.bind_ok]
    rw [slice_ok (by simp; omega)]
    simp only [Res.bind_ok, Res.pure_eq]
    refine ⟨_, _, rfl, ?_⟩
    suffices h : Spliced m _ s v _ n l _ from ⟨h.ok, h.view, h.frame⟩
    apply spliced_inplace <;> first | assumption | omega | (simp; try omega)
  · unfold replace
    simp only [sliceTo, sliceFrom, Mem.make]
    rw [slice_ok (by omega)]
    simp only [Res.bind_ok]
    rw [slice_ok (by omega)]
    simp only [Res.bind_ok]
    rw [slice_ok (by omega)]
    simp only [Res.bind_ok]
    rw [if_neg (by omega)]
    rw [slice_ok (by simp; omega)]
    simp only [Res.bind_ok]
    rw [slice_ok (by simp; omega)]
    simp only [Res.bind_ok, Res.pure_eq]
    refine ⟨_, _, rfl, ?_⟩
    suffices h : Spliced m _ s v _ n l False from ⟨h.ok, h.view, fun a k ha hne => (h.frame a k ha hne).1.elim⟩
    have := @spliced_fresh _ z m s v
    simp only [Mem.make] at this
    apply this <;> first | assumption | rfl | omega | (simp; try omega)

/-- C09: `Replace` panics exactly when `s[i:j]` is not within the length. -/
theorem replace_panics (z : T) (m : Mem T) (s v : Hdr) (i j : Int) (hs : m.Ok s)
    (hi : ¬ (0 ≤ i ∧ i ≤ j ∧ j ≤ s.len)) : replace z m s i j v = .panic .sliceBounds := by
  have h3 := hs.len_le
  unfold replace
  by_cases h1 : 0 ≤ i ∧ i ≤ j ∧ j ≤ s.cap
  · rw [slice_ok h1]
    simp only [Res.bind_ok, sliceTo, sliceFrom]
    rw [slice_ok (by omega)]
    simp only [Res.bind_ok]
    rw [slice_panic (by omega)]; rfl
  · rw [slice_panic h1]; rfl

/-- C09: `Delete(s,i,j)` is `s[:i] ++ s[j:]`, always in place (C10). -/
theorem delete_splice (z : T) (extra : Nat) (m : Mem T) (s : Hdr) (i j : Int) (hs : m.Ok s)
    (hi : 0 ≤ i ∧ i ≤ j ∧ j ≤ s.len) :
    ∃ m' r, delete z extra m s i j = .ok (m', r) ∧ m'.Ok r ∧ r.arr = s.arr ∧ r.off = s.off ∧ r.cap = s.cap ∧
      m'.view r = (m.view s).take i.toNat ++ (m.view s).drop j.toNat ∧
      (∀ a k, m'.cell a k ≠ m.cell a k → a = s.arr ∧ s.off + i.toNat ≤ k ∧ k < s.off + r.len) := by
  obtain ⟨n, rfl⟩ := Int.eq_ofNat_of_zero_le hi.1
  obtain ⟨l, rfl⟩ := Int.eq_ofNat_of_zero_le (show 0 ≤ j by omega)
  have hn : n ≤ l := by omega
  have hl : l ≤ s.len := by omega
  obtain ⟨h1, h2, h3, h4⟩ := hs
  unfold delete
  simp only [sliceTo, sliceFrom]
  rw [slice_ok (by omega)]
  simp only [Res.bind_ok]
  rw [slice_ok (by omega)]
  simp only [Res.bind_ok]
  rw [slice_ok (by omega)]
  simp only [Res.bind_ok, Res.pure_eq, Mem.append]
  rw [if_pos (by omega)]
  refine ⟨_, _, rfl, ⟨by simpa [Mem.copy] using h1, by simpa [Mem.copy] using h2, by simp; omega,
    by simpa using h4⟩, rfl, by simp, by simp, ?_, ?_⟩
  · apply view_eq_of
    · simp; omega
    · intro k hk
      have := splice_getElem? (m.view s) [] n l k (by simp; omega)
      simp only [List.append_nil] at this
      simp only [Int.toNat_natCast]
      rw [this]
      simp only [view_getElem?, Mem.copy, List.length_nil]
      simp at hk
      clear this
      simp only [Int.sub_zero, Int.toNat_natCast, Int.toNat_zero, Nat.add_zero, Nat.sub_zero]
      have e : ((s.len : Int) - (l : Int)).toNat = s.len - l := by omega
      rw [e]
      have hmin : min (s.cap - n) (s.len - l) = s.len - l := by omega
      rw [hmin]
      grind
  · intro a k hne
    simp only [Mem.copy] at hne
    simp
    grind

/-- C09: `Delete` panics exactly when `s[i:j]` is not within the length. -/
theorem delete_panics (z : T) (extra : Nat) (m : Mem T) (s : Hdr) (i j : Int) (hs : m.Ok s)
    (hi : ¬ (0 ≤ i ∧ i ≤ j ∧ j ≤ s.len)) : delete z extra m s i j = .panic .sliceBounds := by
  have h3 := hs.len_le
  unfold delete
  by_cases h1 : 0 ≤ i ∧ i ≤ j ∧ j ≤ s.cap
  · rw [slice_ok h1]
    simp only [Res.bind_ok, sliceTo, sliceFrom]
    rw [slice_ok (by omega)]
    simp only [Res.bind_ok]
    rw [slice_panic (by omega)]; rfl
  · rw [slice_panic h1]; rfl

/-- C09: the hypothesis that `v` is apart from `s` cannot be dropped: inserting a part of the slice's own
    array in place gives a wrong result. -/
theorem insert_aliased_refuted :
    ¬ ∀ (m : Mem Nat) (s v : Hdr) (i : Int), m.Ok s → m.Ok v → 0 ≤ i ∧ i ≤ s.len →
        ∃ m' r, insert 0 m s i v = .ok (m', r) ∧
          m'.view r = (m.view s).take i.toNat ++ m.view v ++ (m.view s).drop i.toNat := by
  intro h
  -- array [1,2,3,0]; s = a[0:3]; Insert(s, 0, s[1:2]...) with spare capacity
  obtain ⟨m', r, h1, h2⟩ := h
    { cell := fun _ k => [1, 2, 3, 0].getD k 0, size := fun _ => 4, next := 1 }
    { arr := 0, off := 0, len := 3, cap := 4 } { arr := 0, off := 1, len := 1, cap := 3 } 0
    ⟨by decide, by decide, by decide, by decide⟩ ⟨by decide, by decide, by decide, by decide⟩ (by decide)
  simp [insert, sliceTo, sliceFrom, slice] at h1
  obtain ⟨rfl, rfl⟩ := h1
  revert h2
  decide

/-- Non-vacuity of the splice theorems: array [1,2,3,0,0], s = a[1:3], v elsewhere. -/
example : ∃ (m : Mem Nat) (s v : Hdr), m.Ok s ∧ m.Ok v ∧ v.Apart s ∧ m.view s = [2, 3] ∧ m.view v = [8, 9] ∧
    s.len + v.len ≤ s.cap ∧ (0 ≤ (1 : Int) ∧ (1 : Int) ≤ s.len) :=
  ⟨{ cell := fun a k => if a = 0 then [1, 2, 3, 0, 0].getD k 0 else [8, 9].getD k 0, size := fun a => if a = 0 then 5 else 2, next := 2 },
   { arr := 0, off := 1, len := 2, cap := 4 }, { arr := 1, off := 0, len := 2, cap := 2 },
   ⟨by decide, by decide, by decide, by decide⟩, ⟨by decide, by decide, by decide, by decide⟩,
   Or.inl (by decide), by decide, by decide, by decide, by decide⟩

/-! ### C03, C04: Iter and All -/

theorem get_view (m : Mem T) (s : Hdr) (i : Nat) (h : i < s.len) :
    m.get s i = .ok ((m.view s)[i]'(by simpa using h)) := by
  simp [Mem.get, Mem.view, h]

/-- C03/C04: `s.Iter()` is the iterator `FromSlice` gives over the same elements, so everything proved for
    `FromSlice` (pull results, push traversal) holds for it. -/
theorem iter_eq_fromSlice (m : Mem T) (s : Hdr) : iter m s = Iter.fromSlice (m.view s) := by
  funext idx
  unfold iter Iter.fromSlice
  by_cases h : idx < s.len
  · simp [h, get_view]
  · simp [h]

/-- C03: pulling `s.Iter()` k times returns `s[0], s[1], …` and then (zero,false) for ever. -/
theorem iter_pulls (m : Mem T) (s : Hdr) (k : Nat) :
    ∃ idx, Iter.pulls (iter m s) k 0 = .ok ((List.range k).map (Iter.pullSpec (m.view s)), idx) := by
  rw [iter_eq_fromSlice]; exact Iter.fromSlice_pulls _ _

theorem allLoop_visit {E : Type _} (m : Mem T) (s : Hdr) (yield : T → E → Bool × E) (n i : Nat) (e : E)
    (h : i + n = s.len) : allLoop m s yield n i e = .ok (Iter.visit yield ((m.view s).drop i) e) := by
  induction n generalizing i e with
  | zero =>
    rw [List.drop_eq_nil_of_le (by simp; omega)]; rfl
  | succ n ih =>
    have hi : i < s.len := by omega
    rw [List.drop_eq_getElem_cons (by simpa using hi)]
    unfold allLoop
    simp only [get_view m s i hi, Res.bind_ok, Iter.visit]
    split
    · exact ih (i + 1) _ (by omega)
    · rfl

/-- C04: `s.All(yield)` shows the elements in order and stops right after the first refused one. -/
theorem all_visit {E : Type _} (m : Mem T) (s : Hdr) (yield : T → E → Bool × E) (e : E) :
    all m s yield e = .ok (Iter.visit yield (m.view s) e) := by
  unfold all; rw [allLoop_visit m s yield _ _ _ (by omega)]; simp

/-! ### C07, C08: SplitableIter -/

/-- C07: with parallelism ≤ 0 there is exactly one segment, the whole slice. -/
theorem split_sequential (s : Hdr) (p : Int) (hp : p ≤ 0) :
    ∃ idx, Iter.Yields (splitableIter s p) 0 [s] idx ∧ splitableIter s p idx = .ok (none, idx) :=
  ⟨1, .cons (s₁ := 1) (by simp [splitableIter, hp]) (.nil _), by simp [splitableIter, hp]⟩

theorem slice_view (m : Mem T) (s : Hdr) (i j : Nat) (hij : i ≤ j) (hj : j ≤ s.len)
    (hs : m.Ok s) : ∃ g, slice s i j = .ok g ∧ m.Ok g ∧ g.len = j - i ∧ m.view g = ((m.view s).drop i).take (j - i) := by
  obtain ⟨h1, h2, h3, h4⟩ := hs
  refine ⟨_, slice_ok (by omega), ⟨h1, by simp; omega, by simp; omega, by intro h; simp [h4 h]⟩, by simp, ?_⟩
  apply view_eq_of
  · simp; omega
  · intro k hk
    simp at hk
    have hk' : k < j - i := by omega
    rw [List.getElem?_take_of_lt hk', List.getElem?_drop, view_getElem?, if_pos (by omega)]
    simp; congr 1; omega

/-- Number of segments needed for `n` elements in steps of `q`. -/
def segCount (n q : Nat) : Nat := (n + q - 1) / q

theorem segCount_succ (n q : Nat) (hq : 0 < q) (hn : 0 < n) : segCount n q = segCount (n - q) q + 1 := by
  unfold segCount
  by_cases h : q ≤ n
  · have : n + q - 1 = (n - q + q - 1) + q := by omega
    rw [this, Nat.add_div_right _ hq]
  · have e0 : n - q = 0 := by omega
    rw [e0]
    have h1 : (0 + q - 1) / q = 0 := Nat.div_eq_of_lt (by omega)
    have h2 : n + q - 1 = (n - 1) + q := by omega
    rw [h1, h2, Nat.add_div_right _ hq, Nat.div_eq_of_lt (by omega)]

/-- A list cut into pieces of length `q`, the last one possibly shorter. -/
def cuts {A : Type _} (q : Nat) (xs : List A) : List (List A) :=
  if h : q = 0 ∨ xs = [] then [] else xs.take q :: cuts q (xs.drop q)
termination_by xs.length
decreasing_by
  have : xs.length ≠ 0 := fun e => h (.inr (List.length_eq_zero_iff.1 e))
  rw [List.length_drop]; omega

theorem cuts_nil {A : Type _} (q : Nat) : cuts q ([] : List A) = [] := by rw [cuts]; simp

theorem cuts_cons {A : Type _} {q : Nat} {xs : List A} (hq : 0 < q) (hx : xs ≠ []) :
    cuts q xs = xs.take q :: cuts q (xs.drop q) := by
  rw [cuts, dif_neg]
  rintro (h | h)
  · omega
  · exact hx h

theorem cuts_flatten {A : Type _} {q : Nat} (hq : 0 < q) (xs : List A) : (cuts q xs).flatten = xs := by
  induction hn : xs.length using Nat.strongRecOn generalizing xs with
  | _ n ih =>
    by_cases hx : xs = []
    · subst hx; rw [cuts_nil]; rfl
    · have : xs.length ≠ 0 := fun e => hx (List.length_eq_zero_iff.1 e)
      rw [cuts_cons hq hx, List.flatten_cons, ih (xs.drop q).length (by rw [List.length_drop]; omega) _ rfl, List.take_append_drop]

/-- The sizes of the pieces depend only on the length. -/
theorem cuts_sizes {A B : Type _} {q : Nat} (hq : 0 < q) (xs : List A) (ys : List B) (h : xs.length = ys.length) :
    (cuts q xs).map List.length = (cuts q ys).map List.length := by
  induction hn : xs.length using Nat.strongRecOn generalizing xs ys with
  | _ n ih =>
    by_cases hx : xs = []
    · have hy : ys = [] := List.length_eq_zero_iff.1 (by rw [← h, hx]; rfl)
      subst hx hy; rw [cuts_nil, cuts_nil]; rfl
    · have h0 : xs.length ≠ 0 := fun e => hx (List.length_eq_zero_iff.1 e)
      have hy : ys ≠ [] := by rintro rfl; rw [List.length_nil] at h; exact h0 h
      rw [cuts_cons hq hx, cuts_cons hq hy, List.map_cons, List.map_cons,
        ih (xs.drop q).length (by rw [List.length_drop]; omega) _ (ys.drop q) (by simp [h]) rfl]
      simp [h]

theorem cuts_length {A : Type _} {q : Nat} (hq : 0 < q) (xs : List A) : (cuts q xs).length = segCount xs.length q := by
  induction hn : xs.length using Nat.strongRecOn generalizing xs with
  | _ n ih =>
    by_cases hx : xs = []
    · subst hx
      simp only [List.length_nil] at hn
      subst hn
      rw [cuts_nil, segCount, List.length_nil, Nat.div_eq_of_lt (by omega)]
    · have h0 : xs.length ≠ 0 := fun e => hx (List.length_eq_zero_iff.1 e)
      rw [cuts_cons hq hx, List.length_cons, ih (xs.drop q).length (by rw [List.length_drop]; omega) _ rfl,
        List.length_drop, ← hn, segCount_succ xs.length q hq (by omega)]

theorem cuts_ne_nil {A : Type _} {q : Nat} (xs : List A) : ∀ g ∈ cuts q xs, g ≠ [] := by
  induction hn : xs.length using Nat.strongRecOn generalizing xs with
  | _ n ih =>
    intro g hg
    rw [cuts] at hg
    split at hg
    · simp at hg
    · next h =>
      have hq : q ≠ 0 := fun e => h (.inl e)
      have h0 : xs.length ≠ 0 := fun e => h (.inr (List.length_eq_zero_iff.1 e))
      rcases List.mem_cons.1 hg with rfl | hg
      · intro e
        have := congrArg List.length e
        rw [List.length_take, List.length_nil] at this
        omega
      · exact ih (xs.drop q).length (by rw [List.length_drop]; omega) _ rfl g hg

theorem split_from (m : Mem T) (s : Hdr) (hs : m.Ok s) (p : Int) (hp : 0 < p) (q : Nat)
    (hq : Int.tdiv s.len p = q) (hq0 : 0 < q) (i : Nat) :
    ∃ segs idx, Iter.Yields (splitableIter s p) i segs idx ∧ splitableIter s p idx = .ok (none, idx) ∧
      (segs.map m.view).flatten = (m.view s).drop i ∧ (∀ g ∈ segs, m.Ok g ∧ 0 < g.len ∧ g.len ≤ q) ∧
      segs.length = segCount (s.len - i) q ∧ segs.map m.view = cuts q ((m.view s).drop i) := by
  have hp0 : ¬ p = 0 := by omega
  have hpn : ¬ p ≤ 0 := by omega
  induction hn : s.len - i using Nat.strongRecOn generalizing i with
  | _ n ih =>
    by_cases hi : i < s.len
    · have hi' : ¬ ((i : Int) ≥ s.len) := by omega
      obtain ⟨segs, idx, h1, h2, h3, h4, h5, h6⟩ := ih (s.len - (i + q)) (by omega) (i + q) rfl
      by_cases hl : i + q ≥ s.len
      · obtain ⟨g, g1, g2, g3, g4⟩ := slice_view m s i s.len (by omega) (by omega) hs
        refine ⟨g :: segs, idx, .cons (s₁ := (↑(i + q) : Int)) ?_ h1, h2, ?_, ?_, ?_, ?_⟩
        · have hl' : (i : Int) + (q : Int) ≥ s.len := by omega
          simp only [splitableIter, hp0, hpn, hi', hq, hl', if_true, if_false, sliceFrom, g1, Res.bind_ok]
          rfl
        · simp only [List.map_cons, List.flatten_cons, h3, g4]
          have hnil : (m.view s).drop (i + q) = [] := List.drop_eq_nil_of_le (by simp; omega)
          rw [hnil, List.append_nil, List.take_of_length_le (by simp)]
        · intro x hx
          rcases List.mem_cons.1 hx with rfl | hx
          · exact ⟨g2, by omega, by omega⟩
          · exact h4 x hx
        · rw [List.length_cons, h5, segCount_succ n q hq0 (by omega)]; congr 2; omega
        · have hne : (m.view s).drop i ≠ [] := by
            intro e; have := congrArg List.length e; simp at this; omega
          rw [List.map_cons, h6, cuts_cons hq0 hne, List.drop_drop, g4]
          congr 1
          rw [List.take_of_length_le (by simp), List.take_of_length_le (by simp; omega)]
      · obtain ⟨g, g1, g2, g3, g4⟩ := slice_view m s i (i + q) (by omega) (by omega) hs
        refine ⟨g :: segs, idx, .cons (s₁ := (↑(i + q) : Int)) ?_ h1, h2, ?_, ?_, ?_, ?_⟩
        · have hl' : ¬ ((i : Int) + (q : Int) ≥ s.len) := by omega
          have g1' : slice s (i : Int) ((i : Int) + (q : Int)) = .ok g := by simpa using g1
          simp only [splitableIter, hp0, hpn, hi', hq, hl', if_false, g1', Res.bind_ok]
          rfl
        · simp only [List.map_cons, List.flatten_cons, h3, g4]
          rw [show i + q - i = q by omega, ← List.drop_drop]
          exact List.take_append_drop q _
        · intro x hx
          rcases List.mem_cons.1 hx with rfl | hx
          · exact ⟨g2, by omega, by omega⟩
          · exact h4 x hx
        · rw [List.length_cons, h5, segCount_succ n q hq0 (by omega)]; congr 2; omega
        · have hne : (m.view s).drop i ≠ [] := by
            intro e; have := congrArg List.length e; simp at this; omega
          rw [List.map_cons, h6, cuts_cons hq0 hne, List.drop_drop, g4]
          congr 1
          rw [show i + q - i = q by omega]
    · refine ⟨[], i, .nil _, ?_, ?_, by simp, ?_, ?_⟩
      · have : (i : Int) ≥ s.len := by omega
        simp only [splitableIter, hp0, hpn, this, if_true, if_false]
      · rw [List.drop_eq_nil_of_le (by simp; omega)]; rfl
      · have : n = 0 := by omega
        subst this
        simp only [segCount, List.length_nil]
        exact (Nat.div_eq_of_lt (by omega)).symm
      · rw [List.drop_eq_nil_of_le (by simp; omega), cuts_nil]; rfl

/-- C07: for 1 ≤ p ≤ len(s) the segments are finitely many, non-empty, and their concatenation is `s`;
    C08: their number is ⌈len / (len / p)⌉, and each has len / p elements except possibly the last one. -/
theorem split_parallel (m : Mem T) (s : Hdr) (hs : m.Ok s) (p : Nat) (hp : 1 ≤ p) (hl : p ≤ s.len) :
    ∃ segs idx, Iter.Yields (splitableIter s p) 0 segs idx ∧ splitableIter s p idx = .ok (none, idx) ∧
      (segs.map m.view).flatten = m.view s ∧ (∀ g ∈ segs, m.Ok g ∧ 0 < g.len) ∧
      segs.length = segCount s.len (s.len / p) ∧ segs.map m.view = cuts (s.len / p) (m.view s) := by
  have hq : Int.tdiv (s.len : Int) (p : Int) = ((s.len / p : Nat) : Int) := by
    rw [Int.tdiv_eq_ediv_of_nonneg (by omega)]; simp
  obtain ⟨segs, idx, h1, h2, h3, h4, h5, h6⟩ := split_from m s hs p (by omega) (s.len / p) hq
    (Nat.div_pos hl (by omega)) 0
  exact ⟨segs, idx, h1, h2, by simpa using h3, fun g hg => ⟨(h4 g hg).1, (h4 g hg).2.1⟩, by simpa using h5, by simpa using h6⟩

/-- C07: an empty slice has no segment for p ≥ 1. -/
theorem split_empty (s : Hdr) (p : Int) (hp : 1 ≤ p) (h0 : s.len = 0) :
    splitableIter s p 0 = .ok (none, 0) := by
  have h1 : ¬ p = 0 := by omega
  have h2 : ¬ p ≤ 0 := by omega
  simp [splitableIter, h2, h0]

/-- C08, exact answer: the number of segments is `p` iff `p` divides the length, otherwise larger. -/
theorem segCount_eq_iff (n p : Nat) (hp : 1 ≤ p) (hl : p ≤ n) :
    p ≤ segCount n (n / p) ∧ (segCount n (n / p) = p ↔ p ∣ n) := by
  have hq : 0 < n / p := Nat.div_pos hl (by omega)
  have hmod := Nat.div_add_mod n p
  have hlt := Nat.mod_lt n (show p > 0 by omega)
  have hdvd : p ∣ n ↔ n % p = 0 := Nat.dvd_iff_mod_eq_zero
  rw [hdvd]
  generalize n / p = q at *
  generalize n % p = r at *
  unfold segCount
  by_cases hr : r = 0
  · have : (n + q - 1) / q = p := by
      have e : n + q - 1 = (q - 1) + q * p := by
        have : n = q * p := by rw [Nat.mul_comm]; omega
        omega
      rw [e, Nat.add_mul_div_left _ _ hq, Nat.div_eq_of_lt (by omega)]; omega
    simp [this, hr]
  · have : p + 1 ≤ (n + q - 1) / q := by
      rw [Nat.le_div_iff_mul_le hq]
      have : (p + 1) * q = p * q + q := by rw [Nat.add_mul]; omega
      omega
    constructor
    · omega
    · constructor <;> intro h <;> omega

/-- C08, partial: exactly `p` segments when `p` divides len(s) > 0. -/
theorem split_count_partial (m : Mem T) (s : Hdr) (hs : m.Ok s) (p : Nat) (hp : 1 ≤ p) (hl : p ≤ s.len)
    (hd : p ∣ s.len) :
    ∃ segs idx, Iter.Yields (splitableIter s p) 0 segs idx ∧ splitableIter s p idx = .ok (none, idx) ∧
      (segs.map m.view).flatten = m.view s ∧ segs.length = p := by
  obtain ⟨segs, idx, h1, h2, h3, _, h5, _⟩ := split_parallel m s hs p hp hl
  exact ⟨segs, idx, h1, h2, h3, h5.trans ((segCount_eq_iff _ _ hp hl).2.2 hd)⟩

/-- Pull results of a deterministic iterator are unique. -/
theorem yields_unique {σ U : Type _} {next : Iter.Next σ U} {s t t' : σ} {xs ys : List U} {w w' : σ}
    (h : Iter.Yields next s xs t) (he : next t = .ok (none, w))
    (h' : Iter.Yields next s ys t') (he' : next t' = .ok (none, w')) : xs = ys ∧ t = t' := by
  induction h generalizing ys with
  | nil s =>
    cases h' with
    | nil => exact ⟨rfl, rfl⟩
    | cons hx _ => rw [he] at hx; cases hx
  | cons hx hr ih =>
    cases h' with
    | nil => rw [hx] at he'; cases he'
    | cons hx' hr' =>
      rw [hx] at hx'
      cases hx'
      obtain ⟨e1, e2⟩ := ih he hr'
      exact ⟨by rw [e1], e2⟩

/-- C08, the claim that fails: three elements asked for in two segments come in three. -/
theorem split_count_refuted :
    ¬ ∀ (s : Hdr) (p : Nat), 1 ≤ p → p ≤ s.len →
        ∃ segs idx, Iter.Yields (splitableIter s p) 0 segs idx ∧ splitableIter s p idx = .ok (none, idx) ∧
          segs.length = p := by
  intro h
  obtain ⟨segs, idx, h1, h2, h3⟩ := h { arr := 0, off := 0, len := 3, cap := 3 } 2 (by decide) (by decide)
  obtain ⟨segs', idx', g1, g2, _, _, g5, _⟩ := split_parallel
    (m := { cell := fun _ k => k, size := fun _ => 3, next := 1 })
    { arr := 0, off := 0, len := 3, cap := 3 } ⟨by decide, by decide, by decide, by decide⟩ 2 (by decide) (by decide)
  obtain ⟨rfl, _⟩ := yields_unique h1 h2 g1 g2
  rw [g5] at h3
  revert h3; decide

/-- C08: for p > len(s) > 0 the segmenter never ends: every pull gives an empty segment. -/
theorem split_endless (s : Hdr) (p : Nat) (hp : s.len < p) (h0 : 0 < s.len) (hc : s.len ≤ s.cap) (k : Nat) :
    ∃ segs, Iter.Yields (splitableIter s p) 0 segs 0 ∧ segs.length = k ∧ ∀ g ∈ segs, g.len = 0 := by
  have hstep : ∃ g, splitableIter s p 0 = .ok (some g, 0) ∧ g.len = 0 := by
    have e : Int.tdiv (s.len : Int) (p : Int) = 0 := by
      rw [Int.tdiv_eq_ediv_of_nonneg (by omega)]
      have := Nat.div_eq_of_lt hp
      omega
    have h1 : ¬ ((p : Int) = 0) := by omega
    have h2 : ¬ ((p : Int) ≤ 0) := by omega
    have h3 : ¬ ((0 : Int) ≥ s.len) := by omega
    refine ⟨{ isNil := s.isNil, arr := s.arr, off := s.off, len := 0, cap := s.cap }, ?_, rfl⟩
    simp only [splitableIter, h1, h2, h3, e, Int.add_zero, if_false]
    rw [slice_ok (by omega)]; simp
  obtain ⟨g, hg, hl⟩ := hstep
  induction k with
  | zero => exact ⟨[], .nil _, rfl, by simp⟩
  | succ k ih =>
    obtain ⟨segs, h1, h2, h3⟩ := ih
    exact ⟨g :: segs, .cons hg h1, by simp [h2], by intro x hx; rcases List.mem_cons.1 hx with rfl | hx; exact hl; exact h3 x hx⟩

/-! ### C11: Compact -/

/-- Spec of `Compact`: the first element of every run. -/
def runHeads (eq : T → T → Bool) : List T → List T
  | [] => []
  | x :: xs => x :: keepRuns eq x xs

/-- C11: `CompactFunc(s, eq)` returns the run heads; C10: only cells 1 … len-1 of `s` change. -/
theorem compactFunc_runHeads (eq : T → T → Bool) (m : Mem T) (s : Hdr) (hs : m.Ok s) :
    ∃ m' r, compactFunc eq m s = .ok (m', r) ∧ m'.Ok r ∧ r.arr = s.arr ∧ r.off = s.off ∧
      m'.view r = runHeads eq (m.view s) ∧
      (∀ a k, m'.cell a k ≠ m.cell a k → a = s.arr ∧ s.off + 1 ≤ k ∧ k < s.off + s.len) := by
  obtain ⟨h1, h2, h3, h4⟩ := hs
  unfold compactFunc
  by_cases hl : s.len < 2
  · simp only [hl, if_true, Res.pure_eq]
    refine ⟨m, s, rfl, ⟨h1, h2, h3, h4⟩, rfl, rfl, ?_, by simp⟩
    have hlen : (m.view s).length < 2 := by simpa using hl
    match hv : m.view s with
    | [] => rfl
    | [x] => rfl
    | _ :: _ :: _ => rw [hv] at hlen; simp at hlen; omega
  · simp only [hl, if_false]
    have hget : m.get s 0 = .ok (m.cell s.arr s.off) := by
      simp [Mem.get]; omega
    obtain ⟨m', g1, g2, g3, g4⟩ := compactLoop_spec eq s (s.len - 1) 1 m 1 (m.cell s.arr s.off) (by omega) (by omega)
    have hview : m.view s = m.cell s.arr s.off ::
        ((List.range (s.len - 1)).map (fun t => m.cell s.arr (s.off + 1 + t))) := by
      unfold Mem.view
      obtain ⟨n, hn⟩ : ∃ n, s.len = n + 1 := ⟨s.len - 1, by omega⟩
      rw [hn, List.range_succ_eq_map]
      simp only [List.map_cons, List.map_map, Nat.add_zero, Nat.add_sub_cancel]
      congr 1
      apply List.map_congr_left
      intro t _; simp; congr 1; omega
    rw [hview]
    have hkl := keepRuns_length eq (m.cell s.arr s.off) ((List.range (s.len - 1)).map (fun t => m.cell s.arr (s.off + 1 + t)))
    simp only [List.length_map, List.length_range] at hkl
    simp only [runHeads]
    generalize hL : keepRuns eq (m.cell s.arr s.off) ((List.range (s.len - 1)).map (fun t => m.cell s.arr (s.off + 1 + t))) = L at *
    simp only [hget, Res.bind_ok, g1, sliceTo]
    rw [slice_ok (by omega)]
    simp only [Res.bind_ok, Res.pure_eq]
    refine ⟨_, _, rfl, ⟨by simpa [g3] using h1, by simp [g2]; omega, by simp; omega, by simpa using h4⟩, rfl, by simp, ?_, ?_⟩
    · apply view_eq_of
      · simp; omega
      · intro k hk
        simp at hk
        simp only [g4]
        cases k with
        | zero =>
          have : ¬ (s.off + 1 ≤ s.off) := by omega
          simp
        | succ k =>
          have hk' : k < L.length := by omega
          simp [hk', show s.off + 1 ≤ s.off + (k + 1) by omega, show s.off + (k + 1) < s.off + 1 + L.length by omega]
          rw [show s.off + (k + 1) - (s.off + 1) = k by omega]
          simp [hk']
    · intro a k hne
      rw [g4] at hne
      split at hne
      · next h => exact ⟨h.1, h.2.1, by omega⟩
      · exact absurd rfl hne

/-- C11: `Compact(s)` is `CompactFunc` with `==`. -/
theorem compact_runHeads [DecidableEq T] (m : Mem T) (s : Hdr) (hs : m.Ok s) :
    ∃ m' r, compact m s = .ok (m', r) ∧ m'.Ok r ∧ r.arr = s.arr ∧ r.off = s.off ∧
      m'.view r = runHeads (fun v last => decide (v = last)) (m.view s) ∧
      (∀ a k, m'.cell a k ≠ m.cell a k → a = s.arr ∧ s.off + 1 ≤ k ∧ k < s.off + s.len) :=
  compactFunc_runHeads _ m s hs

theorem keepRuns_sublist (eq : T → T → Bool) (last : T) (xs : List T) : (keepRuns eq last xs).Sublist xs := by
  induction xs generalizing last with
  | nil => simp [keepRuns]
  | cons x xs ih =>
    unfold keepRuns; split
    · exact (ih last).cons x
    · exact (ih x).cons_cons x

/-- C11: the result is a subsequence. -/
theorem runHeads_sublist (eq : T → T → Bool) (xs : List T) : (runHeads eq xs).Sublist xs := by
  cases xs with
  | nil => simp [runHeads]
  | cons x xs => exact (keepRuns_sublist eq x xs).cons_cons x

theorem keepRuns_chain (eq : T → T → Bool) (last : T) (xs : List T) :
    List.IsChain (fun a b => eq b a = false) (last :: keepRuns eq last xs) := by
  induction xs generalizing last with
  | nil => simp [keepRuns]
  | cons x xs ih =>
    unfold keepRuns; split
    · exact ih last
    · next h => exact List.IsChain.cons_cons (by simpa using h) (ih x)

/-- C11: no two neighbours of the result are identified by `eq`. -/
theorem runHeads_no_repeats (eq : T → T → Bool) (xs : List T) :
    List.IsChain (fun a b => eq b a = false) (runHeads eq xs) := by
  cases xs with
  | nil => simp [runHeads]
  | cons x xs => exact keepRuns_chain eq x xs

theorem keepRuns_of_chain (eq : T → T → Bool) (last : T) (xs : List T)
    (h : List.IsChain (fun a b => eq b a = false) (last :: xs)) : keepRuns eq last xs = xs := by
  induction xs generalizing last with
  | nil => rfl
  | cons x xs ih =>
    rw [List.isChain_cons_cons] at h
    unfold keepRuns; simp [h.1, ih x h.2]

/-- C11: compacting twice equals compacting once. -/
theorem runHeads_idempotent (eq : T → T → Bool) (xs : List T) :
    runHeads eq (runHeads eq xs) = runHeads eq xs := by
  cases xs with
  | nil => rfl
  | cons x xs =>
    simp only [runHeads]
    rw [keepRuns_of_chain eq x _ (keepRuns_chain eq x xs)]

/-- C11: exactly one element per run — the list is the concatenation of the result's elements, each
    repeated a positive number of times. -/
theorem runHeads_runs [DecidableEq T] (xs : List T) :
    ∃ ns : List Nat, ns.length = (runHeads (fun v last => decide (v = last)) xs).length ∧ (∀ n ∈ ns, 0 < n) ∧
      xs = (List.zipWith List.replicate ns (runHeads (fun v last => decide (v = last)) xs)).flatten := by
  cases xs with
  | nil => exact ⟨[], rfl, by simp, rfl⟩
  | cons x xs =>
    simp only [runHeads]
    suffices ∀ k, ∃ ns : List Nat, ns.length = (keepRuns (fun v last => decide (v = last)) x xs).length + 1 ∧ (∀ n ∈ ns, 0 < n) ∧
        List.replicate (k + 1) x ++ xs = (List.zipWith List.replicate ns (x :: keepRuns (fun v last => decide (v = last)) x xs)).flatten by
      simpa using this 0
    induction xs generalizing x with
    | nil => intro k; exact ⟨[k + 1], rfl, by simp, by simp [keepRuns]⟩
    | cons y ys ih =>
      intro k
      unfold keepRuns
      by_cases h : y = x
      · subst h
        obtain ⟨ns, h1, h2, h3⟩ := ih y (k + 1)
        refine ⟨ns, by simpa using h1, h2, ?_⟩
        simp only [decide_true, if_true]
        rw [← h3, List.replicate_succ' (n := k + 1)]; simp
      · obtain ⟨ns, h1, h2, h3⟩ := ih y 0
        refine ⟨(k + 1) :: ns, by simpa [h] using h1, ?_, ?_⟩
        · intro n hn; rcases List.mem_cons.1 hn with rfl | hn; omega; exact h2 n hn
        · simp only [h, decide_false, Bool.false_eq_true, if_false, List.zipWith_cons_cons, List.flatten_cons]
          rw [← h3]; simp

example : runHeads (fun v last => decide (v = last)) [1, 1, 2, 2, 2, 1] = [1, 2, 1] := by decide

/-! ### C12: Equal, Compare -/

theorem equalLoop_iff [DecidableEq T] (s1 s2 : List T) (h : s1.length = s2.length) :
    equalLoop s1 s2 = true ↔ s1 = s2 := by
  induction s1 generalizing s2 with
  | nil => cases s2 <;> simp_all [equalLoop]
  | cons a s1 ih =>
    cases s2 with
    | nil => simp at h
    | cons b s2 =>
      unfold equalLoop
      by_cases hab : a = b
      · simp [hab, ih s2 (by simpa using h)]
      · simp [hab]

/-- C12: `Equal` is equality of the element sequences. -/
theorem equal_iff [DecidableEq T] (s1 s2 : List T) : equal s1 s2 = true ↔ s1 = s2 := by
  unfold equal
  by_cases h : s1.length = s2.length
  · simp [h, equalLoop_iff s1 s2 h]
  · simp [h]; intro e; exact h (by rw [e])

theorem equalFuncLoop_iff {U : Type _} (eq : T → U → Bool) (s1 : List T) (s2 : List U) (h : s1.length = s2.length) :
    equalFuncLoop eq s1 s2 = true ↔ List.Forall₂ (fun a b => eq a b = true) s1 s2 := by
  induction s1 generalizing s2 with
  | nil => cases s2 <;> simp_all [equalFuncLoop]
  | cons a s1 ih =>
    cases s2 with
    | nil => simp at h
    | cons b s2 =>
      unfold equalFuncLoop
      by_cases hab : eq a b
      · simp [hab, ih s2 (by simpa using h)]
      · simp [hab]

/-- C12: `EqualFunc` iff the lengths agree and `eq` holds position by position. -/
theorem equalFunc_iff {U : Type _} (eq : T → U → Bool) (s1 : List T) (s2 : List U) :
    equalFunc eq s1 s2 = true ↔ List.Forall₂ (fun a b => eq a b = true) s1 s2 := by
  unfold equalFunc
  by_cases h : s1.length = s2.length
  · simp [h, equalFuncLoop_iff eq s1 s2 h]
  · simp [h]; intro e; exact h e.length_eq

/-- C12: `Compare` is -1, 0, 1 exactly according to the lexicographic order of the sequences (`<` on
    `List T` is Mathlib's lexicographic order, a linear order). -/
theorem compare_lex {T : Type _} [LinearOrder T] (s1 s2 : List T) :
    (compare s1 s2 = -1 ↔ s1 < s2) ∧ (compare s1 s2 = 0 ↔ s1 = s2) ∧ (compare s1 s2 = 1 ↔ s2 < s1) := by
  induction s1 generalizing s2 with
  | nil =>
    cases s2 with
    | nil => simp [compare]
    | cons b s2 => simp [compare]
  | cons a s1 ih =>
    cases s2 with
    | nil => simp [compare]
    | cons b s2 =>
      obtain ⟨i1, i2, i3⟩ := ih s2
      unfold compare
      rcases lt_trichotomy a b with h | h | h
      · have h1 : ¬ b < a := not_lt_of_gt h
        have h2 : a ≠ b := ne_of_lt h
        simp [h, h1, h2, h2.symm, List.cons_lt_cons_iff]
      · subst h
        simp [i1, i2, i3, List.cons_lt_cons_iff]
      · have h1 : ¬ a < b := not_lt_of_gt h
        have h2 : a ≠ b := (ne_of_lt h).symm
        simp [h, h1, h2, h2.symm, List.cons_lt_cons_iff]

/-- Spec: three-way comparison of lengths. -/
def lengthCmp (a b : Nat) : Int := if a < b then -1 else if a = b then 0 else 1

/-- C12: `CompareFunc` is the first non-zero pairwise result, else the comparison of the lengths. -/
theorem compareFunc_spec {U : Type _} (cmp : T → U → Int) (s1 : List T) (s2 : List U) :
    compareFunc cmp s1 s2 =
      ((List.zipWith cmp s1 s2).find? (· ≠ 0)).getD (lengthCmp s1.length s2.length) := by
  induction s1 generalizing s2 with
  | nil =>
    cases s2 <;> simp [compareFunc, lengthCmp]
  | cons a s1 ih =>
    cases s2 with
    | nil => simp [compareFunc, lengthCmp]
    | cons b s2 =>
      unfold compareFunc
      by_cases h : cmp a b = 0
      · simp [h, ih, lengthCmp]
      · simp [h]

/-! ### C13: Index, Contains -/

theorem indexFuncFrom_spec (f : T → Bool) (s : List T) (b : Nat) :
    (∀ i : Nat, indexFuncFrom f b s = (b + i : Nat) ↔ ∃ h : i < s.length, f s[i] = true ∧ ∀ j (hj : j < i), f (s[j]'(by omega)) = false) ∧
    (indexFuncFrom f b s = -1 ↔ ∀ x ∈ s, f x = false) ∧ (indexFuncFrom f b s = -1 ∨ (b : Int) ≤ indexFuncFrom f b s) := by
  induction s generalizing b with
  | nil => simp [indexFuncFrom]; omega
  | cons v s ih =>
    obtain ⟨i1, i2, i3⟩ := ih (b + 1)
    unfold indexFuncFrom
    by_cases hv : f v = true
    · simp only [hv, if_true]
      refine ⟨?_, ?_, by omega⟩
      · intro i
        constructor
        · intro h
          have : i = 0 := by omega
          subst this; simp [hv]
        · rintro ⟨h1, h2, h3⟩
          cases i with
          | zero => simp
          | succ i => have := h3 0 (by omega); simp [hv] at this
      · simp [hv]
    · simp only [hv, Bool.false_eq_true, if_false]
      refine ⟨?_, ?_, by omega⟩
      · intro i
        cases i with
        | zero => simp [hv]; omega
        | succ i =>
          have := i1 i
          rw [show b + (i + 1) = b + 1 + i by omega, this]
          constructor
          · rintro ⟨h1, h2, h3⟩
            refine ⟨by simpa using h1, by simpa using h2, ?_⟩
            intro j hj
            cases j with
            | zero => simpa using hv
            | succ j => simpa using h3 j (by omega)
          · rintro ⟨h1, h2, h3⟩
            refine ⟨by simpa using h1, by simpa using h2, ?_⟩
            intro j hj
            simpa using h3 (j + 1) (by omega)
      · rw [i2]; simp [hv]

/-- C13: `s.Index(f)` is `i` iff `i` is the least index whose element satisfies `f`; -1 iff there is none;
    and it is never another negative number. -/
theorem indexFunc_spec (f : T → Bool) (s : List T) :
    (∀ i : Nat, indexFunc f s = i ↔ ∃ h : i < s.length, f s[i] = true ∧ ∀ j (hj : j < i), f (s[j]'(by omega)) = false) ∧
    (indexFunc f s = -1 ↔ ∀ x ∈ s, f x = false) ∧ (indexFunc f s = -1 ∨ 0 ≤ indexFunc f s) := by
  have := indexFuncFrom_spec f s 0
  simpa [indexFunc] using this

/-- C13: `Index(s, v)`. -/
theorem index_spec [DecidableEq T] (s : List T) (v : T) :
    (∀ i : Nat, index s v = i ↔ ∃ h : i < s.length, s[i] = v ∧ ∀ j (hj : j < i), s[j]'(by omega) ≠ v) ∧
    (index s v = -1 ↔ v ∉ s) ∧ (index s v = -1 ∨ 0 ≤ index s v) := by
  obtain ⟨h1, h2, h3⟩ := indexFunc_spec (fun vs => decide (v = vs)) s
  refine ⟨?_, ?_, h3⟩
  · intro i
    have := h1 i
    simp only [decide_eq_true_eq, decide_eq_false_iff_not] at this
    unfold index; unfold indexFunc at this
    rw [this]
    constructor
    · rintro ⟨a, b, c⟩; exact ⟨a, b.symm, fun j hj e => c j hj e.symm⟩
    · rintro ⟨a, b, c⟩; exact ⟨a, b.symm, fun j hj e => c j hj e.symm⟩
  · unfold index; unfold indexFunc at h2
    rw [h2]; simp only [decide_eq_false_iff_not]
    constructor
    · intro h hm; exact h v hm rfl
    · rintro h x hx rfl; exact h hx

/-- C13: `Contains` is membership, `s.Contains(f)` is existence. -/
theorem contains_iff [DecidableEq T] (s : List T) (v : T) : contains s v = true ↔ v ∈ s := by
  obtain ⟨_, h2, h3⟩ := index_spec s v
  unfold contains
  rw [decide_eq_true_eq]
  constructor
  · intro h; by_cases hm : v ∈ s; exact hm; rw [h2.2 hm] at h; omega
  · intro hm; rcases h3 with h3 | h3
    · exact absurd hm (h2.1 h3)
    · exact h3

theorem containsFunc_iff (f : T → Bool) (s : List T) : containsFunc f s = true ↔ ∃ x ∈ s, f x = true := by
  obtain ⟨_, h2, h3⟩ := indexFunc_spec f s
  unfold containsFunc
  rw [decide_eq_true_eq]
  constructor
  · intro h
    by_cases hm : ∃ x ∈ s, f x = true
    · exact hm
    · have : indexFunc f s = -1 := h2.2 (fun x hx => by
        by_cases hf : f x = true
        · exact absurd ⟨x, hx, hf⟩ hm
        · simpa using hf)
      omega
  · rintro ⟨x, hx, hf⟩; rcases h3 with h3 | h3
    · have := h2.1 h3 x hx; rw [hf] at this; cases this
    · exact h3

/-! ### C14: Clone, Grow, Clip -/

/-- C14: `Clone` has the same elements; a nil slice stays nil, a non-nil slice gets a fresh array, and no
    existing cell changes. -/
theorem clone_spec (z : T) (extra : Nat) (m : Mem T) (s : Hdr) (hs : m.Ok s) :
    ∀ m' r, clone z extra m s = (m', r) → m'.Ok r ∧ m'.view r = m.view s ∧ r.isNil = s.isNil ∧
      (s.isNil = false → m.next ≤ r.arr) ∧ (∀ a k, a < m.next → m'.cell a k = m.cell a k) := by
  intro m' r h
  obtain ⟨h1, h2, h3, h4⟩ := hs
  unfold clone at h
  by_cases hn : s.isNil = true
  · simp only [hn, if_true, Prod.mk.injEq] at h
    obtain ⟨rfl, rfl⟩ := h
    exact ⟨⟨h1, h2, h3, h4⟩, rfl, rfl, by simp [hn], fun _ _ _ => rfl⟩
  · have hn' : s.isNil = false := by simpa using hn
    simp only [hn', Bool.false_eq_true, if_false, Mem.make, Mem.append, Nat.zero_add] at h
    by_cases hc : s.len ≤ 0
    · simp only [hc, if_true, Prod.mk.injEq] at h
      obtain ⟨rfl, rfl⟩ := h
      have h0 : s.len = 0 := by omega
      refine ⟨⟨by simp [Mem.copy], by simp [Mem.copy], by simp [h0], by simp⟩, ?_, hn'.symm, by simp, ?_⟩
      · simp [Mem.view, h0]
      · intro a k ha
        simp [Mem.copy]; omega
    · simp only [hc, if_false, Prod.mk.injEq] at h
      obtain ⟨rfl, rfl⟩ := h
      refine ⟨⟨by simp [Mem.copy], by simp [Mem.copy], by simp, by simp⟩, ?_, hn'.symm, by simp, ?_⟩
      · apply view_eq_of
        · simp
        · intro k hk
          simp at hk
          simp only [view_getElem?, hk, Mem.copy]
          grind
      · intro a k ha
        simp only [Mem.copy]
        grind

theorem append_fresh (z : T) (extra : Nat) (m : Mem T) (s v : Hdr) (h : ¬ s.len + v.len ≤ s.cap) :
    m.append z extra s v =
      (((m.make z (s.len + v.len) (s.len + v.len + extra)).1.copy
          (m.make z (s.len + v.len) (s.len + v.len + extra)).2 s).copy
          { (m.make z (s.len + v.len) (s.len + v.len + extra)).2 with off := s.len, len := v.len, cap := v.len } v,
        (m.make z (s.len + v.len) (s.len + v.len + extra)).2) := by
  simp [Mem.append, h]

/-- C14: for n ≥ 0, `Grow(s,n)` has the same elements and room for n more; no existing cell changes. -/
theorem grow_spec (z : T) (extra : Nat) (m : Mem T) (s : Hdr) (n : Int) (hs : m.Ok s) (hn : 0 ≤ n) :
    ∃ m' r, grow z extra m s n = .ok (m', r) ∧ m'.Ok r ∧ m'.view r = m.view s ∧ s.len + n.toNat ≤ r.cap ∧
      (∀ a k, a < m.next → m'.cell a k = m.cell a k) := by
  obtain ⟨c, rfl⟩ := Int.eq_ofNat_of_zero_le hn
  obtain ⟨h1, h2, h3, h4⟩ := hs
  unfold grow
  rw [if_neg (by omega)]
  by_cases hc : (c : Int) - ((s.cap : Int) - s.len) > 0
  · simp only [hc, if_true, sliceTo]
    rw [slice_ok (by omega)]
    simp only [Res.bind_ok, Mem.make]
    rw [append_fresh _ _ _ _ _ (by simp; omega)]
    simp only [Mem.make]
    rw [slice_ok (by simp; omega)]
    simp only [Res.bind_ok, Res.pure_eq]
    refine ⟨_, _, rfl, ⟨by simp [Mem.copy], by simp [Mem.copy], by simp; omega, by simp⟩, ?_, by simp; omega, ?_⟩
    · apply view_eq_of
      · simp
      · intro k hk
        simp at hk
        simp only [view_getElem?, hk, Mem.copy]
        grind
    · intro a k ha
      simp only [Mem.copy]
      grind
  · simp only [hc, if_false, Res.pure_eq]
    exact ⟨m, s, rfl, ⟨h1, h2, h3, h4⟩, rfl, by simp; omega, fun _ _ _ => rfl⟩

/-- C14: `Grow` panics for n < 0 (and only then, by `grow_spec`; running out of memory is not modelled). -/
theorem grow_panics (z : T) (extra : Nat) (m : Mem T) (s : Hdr) (n : Int) (hn : n < 0) :
    grow z extra m s n = .panic .explicit := by
  simp [grow, hn]

/-- C14: `Clip` keeps the elements and the array and cuts the capacity to the length. -/
theorem clip_spec (m : Mem T) (s : Hdr) (hs : m.Ok s) :
    ∃ r, clip s = .ok r ∧ m.Ok r ∧ m.view r = m.view s ∧ r.cap = s.len ∧ r.len = s.len ∧ r.arr = s.arr := by
  obtain ⟨h1, h2, h3, h4⟩ := hs
  refine ⟨{ s with cap := s.len }, by simp [clip, slice3]; omega, ⟨h1, by simp; omega, by simp, ?_⟩, rfl, rfl, rfl, rfl⟩
  intro h; have := h4 h; simp; omega

/-! ### C15: PushBack and the Insert method -/

/-- C15, what `PushBack` really does: the caller's slice shows exactly what it showed before. -/
theorem pushBack_invisible (z : T) (extra : Nat) (m : Mem T) (s elems : Hdr) (hs : m.Ok s) :
    (pushBack z extra m s elems).view s = m.view s := by
  obtain ⟨h1, h2, h3, h4⟩ := hs
  unfold pushBack Mem.append
  apply view_eq_of (by simp)
  intro k hk
  rw [view_getElem?, if_pos hk]
  by_cases hc : s.len + elems.len ≤ s.cap
  · simp only [hc, if_true, Mem.copy]; grind
  · simp only [hc, if_false, Mem.copy, Mem.make]; grind

/-- C15: hence the claim "after s.PushBack(x), s ends with x" fails for every slice not already ending so:
    the length never changes. -/
theorem pushBack_refuted :
    ¬ ∀ (m : Mem Nat) (extra : Nat) (s e : Hdr), m.Ok s → m.Ok e →
        (pushBack 0 extra m s e).view s = m.view s ++ m.view e := by
  intro h
  have := h { cell := fun _ k => k, size := fun _ => 3, next := 2 } 0 { arr := 0, off := 0, len := 1, cap := 2 }
    { arr := 1, off := 0, len := 1, cap := 1 } ⟨by decide, by decide, by decide, by decide⟩ ⟨by decide, by decide, by decide, by decide⟩
  rw [pushBack_invisible _ _ _ _ _ ⟨by decide, by decide, by decide, by decide⟩] at this
  revert this; decide

/-- C15: what the `Insert` method shows to the caller: with enough capacity the first len(s) elements of the
    splice, otherwise no change. -/
theorem insertMethod_visible (z : T) (m : Mem T) (s v : Hdr) (i : Int) (hs : m.Ok s) (hv : m.Ok v)
    (hav : v.Apart s) (hi : 0 ≤ i ∧ i ≤ s.len) :
    ∃ m', insertMethod z m s i v = .ok m' ∧
      m'.view s = if s.len + v.len ≤ s.cap
        then ((m.view s).take i.toNat ++ m.view v ++ (m.view s).drop i.toNat).take s.len else m.view s := by
  obtain ⟨m', r, h1, h2, h3, h4⟩ := insert_splice z m s v i hs hv hav hi
  refine ⟨m', by simp [insertMethod, h1], ?_⟩
  by_cases hc : s.len + v.len ≤ s.cap
  · rw [if_pos hc, ← h3]
    have hr : r.arr = s.arr ∧ r.off = s.off ∧ r.len = s.len + v.len := by
      have := hs.len_le
      unfold insert at h1
      simp only [hc, if_true, sliceTo, sliceFrom] at h1
      rw [slice_ok (by simp; omega)] at h1
      simp only [Res.bind_ok] at h1
      rw [slice_ok (by simp; omega), slice_ok (by omega), slice_ok (by simp; omega)] at h1
      simp only [Res.bind_ok, Res.pure_eq, Res.ok.injEq, Prod.mk.injEq] at h1
      obtain ⟨_, rfl⟩ := h1
      refine ⟨rfl, by simp, by simp; omega⟩
    apply view_eq_of
    · simp; omega
    · intro k hk
      rw [List.getElem?_take_of_lt hk, view_getElem?, if_pos (by omega), hr.1, hr.2.1]
  · rw [if_neg hc]
    apply view_eq_of (by simp)
    intro k hk
    rw [view_getElem?, if_pos hk]
    by_cases he : m'.cell s.arr (s.off + k) = m.cell s.arr (s.off + k)
    · rw [he]
    · exact absurd (h4 _ _ hs.alloc he).1 hc

end Gds.Slice
