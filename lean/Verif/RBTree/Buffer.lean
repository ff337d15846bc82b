import Verif.RBTree.Edit

/-! The node buffer. -/

namespace Gds.RBTree

variable {K V : Type}

/-- The `right` pointers from `p` lead through `L` to nil. -/
def Chain (m : Heap K V) : Option Nat → List Nat → Prop
  | p, [] => p = none
  | p, a :: L => p = some a ∧ Chain m (m.right a) L

theorem Chain.congr {m m' : Heap K V} {p : Option Nat} {L : List Nat} (h : Chain m p L) (hs : ∀ i ∈ L, m'.right i = m.right i) : Chain m' p L := by
  induction L generalizing p with
  | nil => exact h
  | cons a L ih => exact ⟨h.1, by rw [hs a (by simp)]; exact ih h.2 (fun i hi => hs i (by simp [hi]))⟩

/-- The buffer's state when the nodes `U` are in use and the nodes `FL` are free. -/
structure BufOK (b : Buf) (m : Heap K V) (U FL : List Nat) : Prop where
  cursor : -1 ≤ b.sliceCursor
  inside : (b.base : Int) + b.sliceCursor + 1 ≤ b.fresh
  base : 2 ≤ b.base
  len : 1 ≤ b.bufferedLength
  chain : Chain m (m.right 1) FL
  nodup : FL.Nodup
  size : b.linkedListSize = FL.length
  used : ∀ u ∈ U, 2 ≤ u ∧ u < b.fresh ∧ (u < b.base ∨ (b.base : Int) + b.sliceCursor < u) ∧ u ∉ FL
  free : ∀ u ∈ FL, 2 ≤ u ∧ u < b.fresh ∧ (u < b.base ∨ (b.base : Int) + b.sliceCursor < u)

theorem BufOK.init (b : Buf) (m : Heap K V) (n : Nat) (hn : 1 ≤ n) (hf : 2 ≤ b.fresh) : BufOK (b.init m n).1 (b.init m n).2 [] [] := by
  refine ⟨?_, ?_, ?_, ?_, ?_, by simp, ?_, by simp, by simp⟩ <;> simp only [Buf.init, Buf.fillNew] <;> try omega
  · simp [Chain]
  · simp

/-- Alloc always returns, and never a node in use. -/
theorem BufOK.alloc {b : Buf} {m : Heap K V} {U FL : List Nat} (h : BufOK b m U FL) :
    ∃ n b' m' FL', b.alloc m = .ok (some n, b', m') ∧ n ∉ U ∧ 2 ≤ n ∧ BufOK b' m' (n :: U) FL' ∧
      m'.color = m.color ∧ m'.kv = m.kv ∧ m'.parent = m.parent ∧ m'.left = m.left ∧ ∀ i, i ≠ 1 → m'.right i = m.right i := by
  have slice : ∀ {b : Buf}, BufOK b m U FL → b.sliceCursor ≠ -1 →
      ∃ n b' m' FL', b.alloc m = .ok (some n, b', m') ∧ n ∉ U ∧ 2 ≤ n ∧ BufOK b' m' (n :: U) FL' ∧
      m'.color = m.color ∧ m'.kv = m.kv ∧ m'.parent = m.parent ∧ m'.left = m.left ∧ ∀ i, i ≠ 1 → m'.right i = m.right i := by
    intro b h hc
    have h1 := h.cursor
    have h2 := h.inside
    have h3 := h.base
    refine ⟨b.base + b.sliceCursor.toNat, { b with sliceCursor := b.sliceCursor - 1 }, m, FL, ?_, ?_, by omega, ?_, rfl, rfl, rfl, rfl, fun _ _ => rfl⟩
    · rw [Buf.alloc, if_pos hc]; rfl
    · intro hu
      have := (h.used _ hu).2.2.1
      omega
    · refine ⟨by simp only; omega, by simp only; omega, h3, h.len, h.chain, h.nodup, h.size, ?_, ?_⟩
      · intro u hu
        rcases List.mem_cons.1 hu with rfl | hu
        · refine ⟨by omega, by simp only; omega, by simp only; omega, ?_⟩
          intro hf
          have := (h.free _ hf).2.2
          omega
        · obtain ⟨a, c, d, e⟩ := h.used u hu
          exact ⟨a, c, by simp only; omega, e⟩
      · intro u hu
        obtain ⟨a, c, d⟩ := h.free u hu
        exact ⟨a, c, by simp only; omega⟩
  by_cases hc : b.sliceCursor = -1
  · by_cases hz : b.linkedListSize = 0
    · have hFL : FL = [] := by have := h.size; rw [hz] at this; cases FL <;> simp at this ⊢; omega
      subst hFL
      have h2 := h.inside
      have h3 := h.base
      have hl := h.len
      have hok : BufOK b.fill m U [] := by
        simp only [Buf.fill, hc, if_true, Buf.fillNew]
        refine ⟨by simp only; omega, by simp only; omega, by simp only; omega, by simp only; omega, h.chain, by simp, h.size, ?_, by simp⟩
        intro u hu
        obtain ⟨a, c, d, e⟩ := h.used u hu
        exact ⟨a, by simp only; omega, by simp only; omega, e⟩
      have := slice hok (by simp only [Buf.fill, hc, if_true, Buf.fillNew]; omega)
      rw [Buf.alloc, if_neg (by simpa using hc), if_pos hz]
      exact this
    · cases FL with
      | nil => exact absurd h.size (by simpa using hz)
      | cons a FL =>
        obtain ⟨e, hch⟩ := h.chain
        have hn := h.nodup
        simp only [List.nodup_cons] at hn
        have ha := h.free a (by simp)
        have hone : ∀ i ∈ FL, i ≠ 1 := fun i hi => by have := h.free i (by simp [hi]); omega
        refine ⟨a, { b with linkedListSize := b.linkedListSize - 1 }, { m with right := fun j => if j = 1 then m.right a else m.right j }, FL, ?_, ?_, ha.1, ?_,
          rfl, rfl, rfl, rfl, fun i hi => by simp [hi]⟩
        · rw [Buf.alloc, if_neg (by simpa using hc), if_neg hz, e]
          simp [Heap.setRight]
        · intro hu; exact (h.used a hu).2.2.2 (by simp)
        · refine ⟨h.cursor, h.inside, h.base, h.len, ?_, hn.2, ?_, ?_, fun u hu => h.free u (by simp [hu])⟩
          · simp only [if_true]
            exact hch.congr (fun i hi => by simp [hone i hi])
          · have := h.size; simp only [List.length_cons] at this ⊢; omega
          · intro u hu
            rcases List.mem_cons.1 hu with rfl | hu
            · exact ⟨ha.1, ha.2.1, ha.2.2, hn.1⟩
            · obtain ⟨x, y, z, w⟩ := h.used u hu
              exact ⟨x, y, z, fun hf => w (by simp [hf])⟩
  · exact slice h hc

/-- Freeing a node in use. -/
theorem BufOK.freeNode {b : Buf} {m : Heap K V} {U FL : List Nat} {n : Nat} (h : BufOK b m U FL) (hn : n ∈ U) :
    ∃ b' m' FL', b.free m (some n) = .ok (b', m') ∧ BufOK b' m' (U.filter (· ≠ n)) FL' ∧
      m'.color = m.color ∧ m'.kv = m.kv ∧ m'.parent = m.parent ∧ m'.left = m.left ∧ ∀ i, i ≠ 1 → i ≠ n → m'.right i = m.right i := by
  rw [Buf.free]
  by_cases hf : b.linkedListSize = b.bufferedLength
  · rw [if_pos hf]
    refine ⟨b, m, FL, rfl, ⟨h.cursor, h.inside, h.base, h.len, h.chain, h.nodup, h.size, ?_, h.free⟩, rfl, rfl, rfl, rfl, fun _ _ _ => rfl⟩
    intro u hu; exact h.used u ((List.mem_filter.1 hu).1)
  · rw [if_neg hf]
    obtain ⟨x, y, z, w⟩ := h.used n hn
    have hone : ∀ i ∈ FL, i ≠ 1 ∧ i ≠ n := fun i hi => ⟨by have := h.free i hi; omega, by rintro rfl; exact w hi⟩
    refine ⟨{ b with linkedListSize := b.linkedListSize + 1 }, { m with right := fun j => if j = 1 then some n else if j = n then m.right 1 else m.right j }, n :: FL, ?_, ?_,
      rfl, rfl, rfl, rfl, fun i h1 h2 => by simp [h1, h2]⟩
    · simp [Heap.setRight]
    · refine ⟨h.cursor, h.inside, h.base, h.len, ?_, by simp [w, h.nodup], ?_, ?_, ?_⟩
      · refine ⟨by simp, ?_⟩
        have : n ≠ 1 := by omega
        simp only [this, if_false, if_true]
        exact h.chain.congr (fun i hi => by simp [(hone i hi).1, (hone i hi).2])
      · have := h.size; simp only [List.length_cons]; omega
      · intro u hu
        have h1 := (List.mem_filter.1 hu).1
        have h2 : u ≠ n := by have := (List.mem_filter.1 hu).2; simpa using this
        obtain ⟨x, y, z, w⟩ := h.used u h1
        exact ⟨x, y, z, by simp [h2, w]⟩
      · intro u hu
        rcases List.mem_cons.1 hu with rfl | hu
        · exact ⟨x, y, z⟩
        · exact h.free u hu

/-- Writing to nodes in use (and to the header) does not disturb the buffer. -/
theorem BufOK.write {b : Buf} {m m' : Heap K V} {U FL : List Nat} (h : BufOK b m U FL) (hs : ∀ i, i ≠ 0 → i ∉ U → m'.right i = m.right i) : BufOK b m' U FL := by
  refine ⟨h.cursor, h.inside, h.base, h.len, ?_, h.nodup, h.size, h.used, h.free⟩
  rw [hs 1 (by omega) (fun hu => by have := h.used 1 hu; omega)]
  refine h.chain.congr (fun i hi => hs i (by have := h.free i hi; omega) ?_)
  intro hu; exact (h.used i hu).2.2.2 hi

end Gds.RBTree
