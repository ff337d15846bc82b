import Verif.Slice.Model

namespace Gds.Slice
variable {T : Type _}

@[simp] theorem view_length (m : Mem T) (s : Hdr) : (m.view s).length = s.len := by simp [Mem.view]

theorem view_getElem? (m : Mem T) (s : Hdr) (k : Nat) :
    (m.view s)[k]? = if k < s.len then some (m.cell s.arr (s.off + k)) else none := by
  unfold Mem.view
  by_cases h : k < s.len
  · simp [h]
  · simp [h]

theorem view_eq_of {m : Mem T} {r : Hdr} {L : List T} (hl : L.length = r.len)
    (h : ∀ k, k < r.len → L[k]? = some (m.cell r.arr (r.off + k))) : m.view r = L := by
  apply List.ext_getElem?
  intro k
  rw [view_getElem?]
  by_cases hk : k < r.len
  · simp [hk, h k hk]
  · rw [if_neg hk, List.getElem?_eq_none (by omega)]

/-- The three-piece list `take i a ++ v ++ drop j a` looked up at an index. -/
theorem splice_getElem? (a v : List T) (i j k : Nat) (hi : i ≤ a.length) :
    (a.take i ++ v ++ a.drop j)[k]? =
      if k < i then a[k]? else if k < i + v.length then v[k - i]? else a[j + (k - i - v.length)]? := by
  have h1 : (a.take i).length = i := by simp; omega
  by_cases hk : k < i
  · rw [if_pos hk, List.append_assoc, List.getElem?_append_left (by omega), List.getElem?_take_of_lt hk]
  · rw [if_neg hk]
    by_cases hk2 : k < i + v.length
    · rw [if_pos hk2, List.append_assoc, List.getElem?_append_right (by omega), h1,
        List.getElem?_append_left (by omega)]
    · rw [if_neg hk2, List.append_assoc, List.getElem?_append_right (by omega), h1,
        List.getElem?_append_right (by omega), List.getElem?_drop]

theorem slice_ok {s : Hdr} {i j : Int} (h : 0 ≤ i ∧ i ≤ j ∧ j ≤ s.cap) :
    slice s i j = .ok { isNil := s.isNil, arr := s.arr, off := s.off + i.toNat,
                        len := (j - i).toNat, cap := s.cap - i.toNat } := by
  simp [slice, h]

theorem slice_panic {s : Hdr} {i j : Int} (h : ¬ (0 ≤ i ∧ i ≤ j ∧ j ≤ s.cap)) :
    slice s i j = .panic .sliceBounds := by
  rw [slice, if_neg h]

/-- Cells in the window of `s`. -/
def Hdr.owns (s : Hdr) (a k : Nat) : Prop := a = s.arr ∧ s.off ≤ k ∧ k < s.off + s.cap

/-- The cells visible through `v` are not in the capacity window of `s`. -/
def Hdr.Apart (v s : Hdr) : Prop :=
  v.arr ≠ s.arr ∨ v.off + v.len ≤ s.off ∨ s.off + s.cap ≤ v.off

end Gds.Slice

namespace Gds.Slice
variable {T : Type _}

/-- What Insert/Replace must establish. -/
structure Spliced (m m' : Mem T) (s v r : Hdr) (i j : Nat) (inPlace : Prop) : Prop where
  ok : m'.Ok r
  view : m'.view r = (m.view s).take i ++ m.view v ++ (m.view s).drop j
  frame : ∀ a k, a < m.next → m'.cell a k ≠ m.cell a k → inPlace ∧ s.owns a k ∧ s.off + i ≤ k

theorem spliced_inplace (m : Mem T) (s v d1 b d2 r : Hdr) (i j : Nat) (hs : m.Ok s) (hav : v.Apart s)
    (hij : i ≤ j) (hj : j ≤ s.len) (hc : i + v.len + (s.len - j) ≤ s.cap)
    (d1a : d1.arr = s.arr) (d1o : d1.off = s.off + (i + v.len)) (d1l : d1.len = s.len - j)
    (ba : b.arr = s.arr) (bo : b.off = s.off + j) (bl : b.len = s.len - j)
    (d2a : d2.arr = s.arr) (d2o : d2.off = s.off + i) (d2l : d2.len = v.len + (s.len - j))
    (ra : r.arr = s.arr) (ro : r.off = s.off) (rl : r.len = i + v.len + (s.len - j)) (rc : r.cap = s.cap)
    (rn : r.isNil = s.isNil) :
    Spliced m ((m.copy d1 b).copy d2 v) s v r i j (i + v.len + (s.len - j) ≤ s.cap) := by
  obtain ⟨h1, h2, h3, h4⟩ := hs
  unfold Hdr.Apart at hav
  refine ⟨⟨by simpa [Mem.copy, ra] using h1, by simpa [Mem.copy, ra, ro, rc] using h2, by omega,
    by simpa [rn, rc] using h4⟩, ?_, ?_⟩
  · apply view_eq_of
    · simp; omega
    · intro k hk
      rw [splice_getElem? _ _ _ _ _ (by simp; omega)]
      simp only [view_getElem?, view_length, Mem.copy]
      grind
  · intro a k ha hne
    simp only [Mem.copy] at hne
    unfold Hdr.owns
    grind

theorem spliced_fresh (z : T) (m : Mem T) (s v d0 a d1 d2 b r : Hdr) (i j c : Nat) (hs : m.Ok s) (hv : m.Ok v)
    (hij : i ≤ j) (hj : j ≤ s.len) (P : Prop)
    (hc : i + v.len + (s.len - j) ≤ c) (l : Nat)
    (d0a : d0.arr = m.next) (d0o : d0.off = 0) (d0l : d0.len = i + v.len + (s.len - j))
    (aa : a.arr = s.arr) (ao : a.off = s.off) (al : a.len = i)
    (d1a : d1.arr = m.next) (d1o : d1.off = i) (d1l : v.len ≤ d1.len)
    (d2a : d2.arr = m.next) (d2o : d2.off = i + v.len) (d2l : d2.len = s.len - j)
    (ba : b.arr = s.arr) (bo : b.off = s.off + j) (bl : b.len = s.len - j)
    (ra : r.arr = m.next) (ro : r.off = 0) (rl : r.len = i + v.len + (s.len - j)) (rc : r.cap = c)
    (rn : r.isNil = false) :
    Spliced m (((((m.make z l c).1).copy d0 a).copy d1 v).copy d2 b) s v r i j P := by
  obtain ⟨h1, h2, h3, h4⟩ := hs
  obtain ⟨g1, g2, g3, g4⟩ := hv
  refine ⟨⟨by simp [Mem.copy, Mem.make, ra], by simp [Mem.copy, Mem.make, ra, ro, rc], by omega,
    by simp [rn]⟩, ?_, ?_⟩
  · apply view_eq_of
    · simp; omega
    · intro k hk
      rw [splice_getElem? _ _ _ _ _ (by simp; omega)]
      simp only [view_getElem?, view_length, Mem.copy, Mem.make]
      grind
  · intro a k ha hne
    simp only [Mem.copy, Mem.make] at hne
    grind

end Gds.Slice

namespace Gds.Slice
variable {T : Type _}

/-- Spec: walk a list dropping every element that `eq` identifies with the last kept one. -/
def keepRuns (eq : T → T → Bool) : T → List T → List T
  | _, [] => []
  | last, x :: xs => if eq x last then keepRuns eq last xs else x :: keepRuns eq x xs

theorem keepRuns_length (eq : T → T → Bool) (last : T) (xs : List T) :
    (keepRuns eq last xs).length ≤ xs.length := by
  induction xs generalizing last with
  | nil => simp [keepRuns]
  | cons x xs ih =>
    unfold keepRuns
    split
    · have := ih last; simp; omega
    · have := ih x; simpa using this

/-- Memory with one cell overwritten. -/
def setCell (m : Mem T) (b j : Nat) (v : T) : Mem T :=
  { m with cell := fun a k => if a = b ∧ k = j then v else m.cell a k }

theorem compactLoop_spec (eq : T → T → Bool) (s : Hdr) (n k : Nat) (m : Mem T) (i : Nat) (last : T)
    (hk : k + n = s.len) (hi : i ≤ k) :
    ∃ m', compactLoop eq s n k m i last =
        .ok (m', i + (keepRuns eq last ((List.range n).map (fun t => m.cell s.arr (s.off + k + t)))).length) ∧
      m'.size = m.size ∧ m'.next = m.next ∧
      ∀ a t, m'.cell a t =
        if a = s.arr ∧ s.off + i ≤ t ∧
          t < s.off + i + (keepRuns eq last ((List.range n).map (fun t => m.cell s.arr (s.off + k + t)))).length
        then ((keepRuns eq last ((List.range n).map (fun t => m.cell s.arr (s.off + k + t))))[t - (s.off + i)]?).getD (m.cell a t)
        else m.cell a t := by
  induction n generalizing k m i last with
  | zero => exact ⟨m, by simp [compactLoop, keepRuns], rfl, rfl, by intro a t; simp [keepRuns]⟩
  | succ n ih =>
    rw [List.range_succ_eq_map]
    simp only [List.map_cons, List.map_map, Nat.add_zero]
    have hget : m.get s (k : Int) = .ok (m.cell s.arr (s.off + k)) := by
      simp [Mem.get]; omega
    unfold compactLoop
    simp only [hget, Res.bind_ok]
    unfold keepRuns
    cases he : eq (m.cell s.arr (s.off + k)) last with
    | true =>
      simp only [Bool.not_true, if_true]
      obtain ⟨m', h1, h2, h3, h4⟩ := ih (k + 1) m i last (by omega) (by omega)
      have hfun : (fun t => m.cell s.arr (s.off + (k + 1) + t)) =
          ((fun t => m.cell s.arr (s.off + k + t)) ∘ Nat.succ) := by
        funext t; simp; congr 1; omega
      rw [hfun] at h1 h4
      exact ⟨m', by simpa using h1, h2, h3, h4⟩
    | false =>
      have hset : m.set s (i : Int) (m.cell s.arr (s.off + k)) =
          .ok (setCell m s.arr (s.off + i) (m.cell s.arr (s.off + k))) := by
        simp [Mem.set, setCell]; omega
      simp only [Bool.not_false, if_true, hset, Res.bind_ok]
      obtain ⟨m', h1, h2, h3, h4⟩ := ih (k + 1) (setCell m s.arr (s.off + i) (m.cell s.arr (s.off + k)))
          (i + 1) (m.cell s.arr (s.off + k)) (by omega) (by omega)
      have hfun : (fun t => (setCell m s.arr (s.off + i) (m.cell s.arr (s.off + k))).cell s.arr (s.off + (k + 1) + t)) =
          ((fun t => m.cell s.arr (s.off + k + t)) ∘ Nat.succ) := by
        funext t
        have : ¬ (s.off + (k + 1) + t = s.off + i) := by omega
        simp [this, setCell]; congr 1; omega
      rw [hfun] at h1 h4
      refine ⟨m', ?_, h2, h3, ?_⟩
      · simp [h1]; omega
      · intro a t
        rw [h4]; simp only [setCell]
        generalize keepRuns eq (m.cell s.arr (s.off + k)) _ = L
        simp only [List.length_cons, Bool.false_eq_true, if_false]
        by_cases ha : a = s.arr
        · subst ha
          by_cases ht : t = s.off + i
          · subst ht; simp; omega
          · by_cases hr : s.off + i ≤ t ∧ t < s.off + i + (L.length + 1)
            · have e1 : t - (s.off + i) = (t - (s.off + (i + 1))) + 1 := by omega
              have c1 : s.off + (i + 1) ≤ t ∧ t < s.off + (i + 1) + L.length := by omega
              simp only [c1, hr, ht, and_self, and_false, if_true, if_false, e1, List.getElem?_cons_succ]
            · have c1 : ¬ (s.off + (i + 1) ≤ t ∧ t < s.off + (i + 1) + L.length) := by omega
              simp only [c1, hr, ht, and_false, if_false]
        · simp [ha]

end Gds.Slice
