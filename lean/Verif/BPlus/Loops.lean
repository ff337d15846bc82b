import Verif.BPlus.Model
import Mathlib.Tactic.Common

/-! Closed forms of the array loops, and what each helper of the B+ tree writes. -/

namespace Gds.BPlus
open Tree
variable {K V : Type}

theorem copyValsUp_eq (q s : Nat) : ∀ (n : Nat) (t : Tree K V) (a b : Nat), a + n ≤ 2 * t.degree - 1 → b + n ≤ 2 * t.degree - 1 →
    (q ≠ s ∨ a ≤ b) →
    t.copyValsUp (some q) a (some s) b n = .ok { t with h := { t.h with
      values := fun x j => if x = q ∧ a ≤ j ∧ j < a + n then t.h.values s (j - a + b) else t.h.values x j } } := by
  intro n
  induction n with
  | zero =>
    intro t a b h1 h2 h3
    have : ∀ x j, ¬ (x = q ∧ a ≤ j ∧ j < a + 0) := by intros; omega
    simp only [copyValsUp, this, if_false]
  | succ n ih =>
    intro t a b h1 h2 h3
    have hb : b < 2 * t.degree - 1 := by omega
    have ha : a < 2 * t.degree - 1 := by omega
    rw [copyValsUp]
    simp only [getVal, setVal, hb, ha, if_true, Res.bind_ok]
    rw [ih _ (a + 1) (b + 1) (by simp; omega) (by simp; omega) (by omega)]
    simp only [Res.ok.injEq, Tree.mk.injEq, Heap.mk.injEq, and_true, true_and]
    funext x j
    grind

theorem copyKidsUp_eq (q s : Nat) : ∀ (n : Nat) (t : Tree K V) (a b : Nat), a + n ≤ 2 * t.degree → b + n ≤ 2 * t.degree →
    (q ≠ s ∨ a ≤ b) →
    t.copyKidsUp (some q) a (some s) b n = .ok { t with h := { t.h with
      children := fun x j => if x = q ∧ a ≤ j ∧ j < a + n then t.h.children s (j - a + b) else t.h.children x j } } := by
  intro n
  induction n with
  | zero =>
    intro t a b h1 h2 h3
    have : ∀ x j, ¬ (x = q ∧ a ≤ j ∧ j < a + 0) := by intros; omega
    simp only [copyKidsUp, this, if_false]
  | succ n ih =>
    intro t a b h1 h2 h3
    have hb : b < 2 * t.degree := by omega
    have ha : a < 2 * t.degree := by omega
    rw [copyKidsUp]
    simp only [getKid, setKid, hb, ha, if_true, Res.bind_ok]
    rw [ih _ (a + 1) (b + 1) (by simp; omega) (by simp; omega) (by omega)]
    simp only [Res.ok.injEq, Tree.mk.injEq, Heap.mk.injEq, and_true, true_and]
    funext x j
    grind

theorem shiftValsDown_eq (q : Nat) : ∀ (n : Nat) (t : Tree K V) (a : Nat), a + n < 2 * t.degree - 1 ∨ n = 0 →
    t.shiftValsDown (some q) a n = .ok { t with h := { t.h with
      values := fun x j => if x = q ∧ a < j ∧ j ≤ a + n then t.h.values q (j - 1) else t.h.values x j } } := by
  intro n
  induction n with
  | zero =>
    intro t a h1
    have : ∀ x j, ¬ (x = q ∧ a < j ∧ j ≤ a + 0) := by intros; omega
    simp only [shiftValsDown, this, if_false]
  | succ n ih =>
    intro t a h1
    have hb : a + n < 2 * t.degree - 1 := by omega
    have ha : a + n + 1 < 2 * t.degree - 1 := by omega
    rw [shiftValsDown]
    simp only [getVal, setVal, hb, ha, if_true, Res.bind_ok]
    rw [ih _ a (by simp; omega)]
    simp only [Res.ok.injEq, Tree.mk.injEq, Heap.mk.injEq, and_true, true_and]
    funext x j
    grind

theorem shiftKidsDown_eq (q : Nat) : ∀ (n : Nat) (t : Tree K V) (a : Nat), a + n < 2 * t.degree ∨ n = 0 →
    t.shiftKidsDown (some q) a n = .ok { t with h := { t.h with
      children := fun x j => if x = q ∧ a < j ∧ j ≤ a + n then t.h.children q (j - 1) else t.h.children x j } } := by
  intro n
  induction n with
  | zero =>
    intro t a h1
    have : ∀ x j, ¬ (x = q ∧ a < j ∧ j ≤ a + 0) := by intros; omega
    simp only [shiftKidsDown, this, if_false]
  | succ n ih =>
    intro t a h1
    have hb : a + n < 2 * t.degree := by omega
    have ha : a + n + 1 < 2 * t.degree := by omega
    rw [shiftKidsDown]
    simp only [getKid, setKid, hb, ha, if_true, Res.bind_ok]
    rw [ih _ a (by simp; omega)]
    simp only [Res.ok.injEq, Tree.mk.injEq, Heap.mk.injEq, and_true, true_and]
    funext x j
    grind

variable [Inhabited K] [Inhabited V]

/-- What `splitChild` leaves behind, field by field. -/
structure SplitPost (t t' : Tree K V) (p c pos : Nat) : Prop where
  fresh : t'.fresh = t.fresh + 1
  root : t'.root = t.root
  size : t'.size = t.size
  degree : t'.degree = t.degree
  isLeaf : ∀ q, t'.h.isLeaf q = if q = t.fresh then t.h.isLeaf c else t.h.isLeaf q
  num : ∀ q, t'.h.num q = if q = p then t.h.num p + 1 else if q = c then (if t.h.isLeaf c then t.degree else t.degree - 1)
    else if q = t.fresh then t.degree - 1 else t.h.num q
  values : ∀ q j, t'.h.values q j =
    if q = p then (if j < pos then t.h.values p j else if j = pos then t.h.values c (t.degree - 1) else if j ≤ t.h.num p then t.h.values p (j - 1)
      else t.h.values p j)
    else if q = t.fresh then (if j < t.degree - 1 then t.h.values c (j + t.degree) else default) else t.h.values q j
  children : ∀ q j, t'.h.children q j =
    if q = p then (if j ≤ pos then t.h.children p j else if j = pos + 1 then some t.fresh else if j ≤ t.h.num p + 1 then t.h.children p (j - 1)
      else t.h.children p j)
    else if q = t.fresh then (if t.h.isLeaf c = false ∧ j < t.degree then t.h.children c (j + t.degree) else none)
    else t.h.children q j
  next : ∀ q, t'.h.next q = if t.h.isLeaf c then (if q = c then some t.fresh else if q = t.fresh then t.h.next c else t.h.next q)
    else if q = t.fresh then none else t.h.next q
  prev : ∀ q, t'.h.prev q = if t.h.isLeaf c then (if q = t.fresh then some c else if t.h.next c = some q then some t.fresh else t.h.prev q)
    else if q = t.fresh then none else t.h.prev q

theorem splitChild_post (t : Tree K V) (p c pos : Nat) (hpc : p ≠ c) (hp : p < t.fresh) (hc : c < t.fresh) (hM : 1 ≤ t.degree)
    (hpos : pos ≤ t.h.num p) (hn : t.h.num p < 2 * t.degree - 1) (hl : t.h.isLeaf c = true → ∃ s, t.h.next c = some s ∧ s < t.fresh) :
    ∃ t', splitChild t (some p) (some c) pos = .ok t' ∧ SplitPost t t' p c pos := by
  have hcf : c ≠ t.fresh := by omega
  have hpf : p ≠ t.fresh := by omega
  have e1 : pos + 1 < 2 * t.degree := by omega
  have e2 : pos < 2 * t.degree - 1 := by omega
  have e3 : t.degree - 1 < 2 * t.degree - 1 := by omega
  rcases hlf : t.h.isLeaf c with _ | _
  · simp only [splitChild, newNode, getLeaf, setLeaf, setNum, Res.bind_ok, hcf, if_false, hlf, if_true]
    rw [copyValsUp_eq _ _ _ _ _ _ (by simp; try omega) (by simp; try omega) (by simp; try omega)]
    simp only [Res.bind_ok]
    rw [copyKidsUp_eq _ _ _ _ _ _ (by simp; try omega) (by simp; try omega) (by simp; try omega)]
    simp only [Res.bind_ok, getNum]
    rw [shiftKidsDown_eq _ _ _ _ (by simp; grind)]
    simp only [Res.bind_ok, setKid, e1, if_true]
    rw [shiftValsDown_eq _ _ _ _ (by simp; grind)]
    simp only [Res.bind_ok, getVal, setVal, e2, e3, if_true, Bool.false_eq_true, if_false]
    refine ⟨_, rfl, ?_⟩
    constructor <;> intros <;> simp only [hlf] <;> grind
  · obtain ⟨s, hs, hsf⟩ := hl hlf
    have hsf' : s ≠ t.fresh := by omega
    simp only [splitChild, newNode, getLeaf, setLeaf, setNum, Res.bind_ok, hcf, if_false, hlf, if_true, Bool.true_eq_false]
    rw [copyValsUp_eq _ _ _ _ _ _ (by simp; try omega) (by simp; try omega) (by simp; try omega)]
    simp only [Res.bind_ok, getNum]
    rw [shiftKidsDown_eq _ _ _ _ (by simp; grind)]
    simp only [Res.bind_ok, setKid, e1, if_true]
    rw [shiftValsDown_eq _ _ _ _ (by simp; grind)]
    simp only [Res.bind_ok, getVal, setVal, e2, e3, if_true, getNext, setNext, setPrev, hcf, if_false, hs]
    refine ⟨_, rfl, ?_⟩
    constructor <;> intros <;> simp only [hlf, hs] <;> grind

/-- What `mergeChild` leaves behind. -/
structure MergePost (t t' : Tree K V) (r y z pos : Nat) : Prop where
  fresh : t'.fresh = t.fresh
  root : t'.root = t.root
  size : t'.size = t.size
  degree : t'.degree = t.degree
  isLeaf : t'.h.isLeaf = t.h.isLeaf
  num : ∀ q, t'.h.num q = if q = r then t.h.num r - 1 else if q = y then (if t.h.isLeaf y then 2 * t.degree - 2 else 2 * t.degree - 1)
    else t.h.num q
  values : ∀ q j, t'.h.values q j =
    if q = r then (if pos ≤ j ∧ j < t.h.num r - 1 then t.h.values r (j + 1) else t.h.values r j)
    else if q = y then
      (if t.h.isLeaf y then (if t.degree - 1 ≤ j ∧ j < 2 * t.degree - 2 then t.h.values z (j - (t.degree - 1)) else t.h.values y j)
       else if j = t.degree - 1 then t.h.values r pos
       else if t.degree ≤ j ∧ j < 2 * t.degree - 1 then t.h.values z (j - t.degree) else t.h.values y j)
    else t.h.values q j
  children : ∀ q j, t'.h.children q j =
    if q = r then (if pos + 1 ≤ j ∧ j < t.h.num r then t.h.children r (j + 1) else t.h.children r j)
    else if q = y then (if t.h.isLeaf y = false ∧ t.degree ≤ j ∧ j < 2 * t.degree then t.h.children z (j - t.degree) else t.h.children y j)
    else t.h.children q j
  next : ∀ q, t'.h.next q = if t.h.isLeaf y = true ∧ q = y then t.h.next z else t.h.next q
  prev : ∀ q, t'.h.prev q = if t.h.isLeaf y = true ∧ t.h.next z = some q then some y else t.h.prev q

theorem mergeChild_post (t : Tree K V) (r y z pos : Nat) (hry : r ≠ y) (hrz : r ≠ z) (hyz : y ≠ z) (hM : 1 ≤ t.degree)
    (hpos : pos < t.h.num r) (hn : t.h.num r ≤ 2 * t.degree - 1) (hl : t.h.isLeaf y = true → ∃ s, t.h.next z = some s) :
    ∃ t', mergeChild t (some r) (some y) (some z) pos = .ok t' ∧ MergePost t t' r y z pos := by
  have e1 : pos < 2 * t.degree - 1 := by omega
  have e2 : t.degree - 1 < 2 * t.degree - 1 := by omega
  rcases hlf : t.h.isLeaf y with _ | _
  · simp only [mergeChild, getLeaf, setNum, Res.bind_ok, hlf, Bool.false_eq_true, if_false]
    rw [copyValsUp_eq _ _ _ _ _ _ (by simp; try omega) (by simp; try omega) (by simp; try omega)]
    simp only [Res.bind_ok, getVal, setVal, e1, e2, if_true]
    rw [copyKidsUp_eq _ _ _ _ _ _ (by simp; try omega) (by simp; try omega) (by simp; try omega)]
    simp only [Res.bind_ok, getNum, hry, if_false]
    rw [copyValsUp_eq _ _ _ _ _ _ (by simp; try omega) (by simp; try omega) (by simp; try omega)]
    simp only [Res.bind_ok]
    rw [copyKidsUp_eq _ _ _ _ _ _ (by simp; try omega) (by simp; try omega) (by simp; try omega)]
    simp only [Res.bind_ok]
    refine ⟨_, rfl, ?_⟩
    constructor <;> intros <;> (try simp only [hlf]) <;> grind
  · obtain ⟨s, hs⟩ := hl hlf
    simp only [mergeChild, getLeaf, setNum, Res.bind_ok, hlf, if_true]
    rw [copyValsUp_eq _ _ _ _ _ _ (by simp; try omega) (by simp; try omega) (by simp; try omega)]
    simp only [Res.bind_ok, getNum, hry, if_false]
    rw [copyValsUp_eq _ _ _ _ _ _ (by simp; try omega) (by simp; try omega) (by simp; try omega)]
    simp only [Res.bind_ok]
    rw [copyKidsUp_eq _ _ _ _ _ _ (by simp; try omega) (by simp; try omega) (by simp; try omega)]
    simp only [Res.bind_ok, getNext, setNext, setPrev, hs]
    refine ⟨_, rfl, ?_⟩
    constructor <;> intros <;> (try simp only [hlf, hs]) <;> grind

/-- What `shiftToLeftChild` leaves behind. -/
structure LeftPost (t t' : Tree K V) (r y z pos : Nat) : Prop where
  fresh : t'.fresh = t.fresh
  root : t'.root = t.root
  size : t'.size = t.size
  degree : t'.degree = t.degree
  isLeaf : t'.h.isLeaf = t.h.isLeaf
  next : t'.h.next = t.h.next
  prev : t'.h.prev = t.h.prev
  num : ∀ q, t'.h.num q = if q = y then t.h.num y + 1 else if q = z then t.h.num z - 1 else t.h.num q
  values : ∀ q j, t'.h.values q j =
    if q = r then (if j = pos then t.h.values z 0 else t.h.values r j)
    else if q = y then (if j = t.h.num y then (if t.h.isLeaf z then t.h.values z 0 else t.h.values r pos) else t.h.values y j)
    else if q = z then (if j < t.h.num z - 1 then t.h.values z (j + 1) else t.h.values z j)
    else t.h.values q j
  children : ∀ q j, t'.h.children q j =
    if t.h.isLeaf z then t.h.children q j
    else if q = y then (if j = t.h.num y + 1 then t.h.children z 0 else t.h.children y j)
    else if q = z then (if j < t.h.num z then t.h.children z (j + 1) else t.h.children z j)
    else t.h.children q j

theorem shiftToLeftChild_post (t : Tree K V) (r y z pos : Nat) (hry : r ≠ y) (hrz : r ≠ z) (hyz : y ≠ z) (hM : 1 ≤ t.degree)
    (hpos : pos < 2 * t.degree - 1) (hy : t.h.num y < 2 * t.degree - 1) (hz : 1 ≤ t.h.num z) (hz' : t.h.num z ≤ 2 * t.degree - 1) :
    ∃ t', shiftToLeftChild t (some r) (some y) (some z) pos = .ok t' ∧ LeftPost t t' r y z pos := by
  have e1 : 0 < 2 * t.degree - 1 := by omega
  have e2 : 0 < 2 * t.degree := by omega
  have e3 : t.h.num y + 1 < 2 * t.degree := by omega
  have hzy : z ≠ y := fun e => hyz e.symm
  rcases hlf : t.h.isLeaf z with _ | _
  · simp only [shiftToLeftChild, getNum, getLeaf, setNum, Res.bind_ok, hlf, if_true, getVal, setVal, e1, hpos, hy, hzy, if_false]
    rw [copyValsUp_eq _ _ _ _ _ _ (by simp; try omega) (by simp; try omega) (by simp; try omega)]
    simp only [Res.bind_ok, getKid, setKid, e2, e3, if_true]
    rw [copyKidsUp_eq _ _ _ _ _ _ (by simp; try omega) (by simp; try omega) (by simp; try omega)]
    simp only [Res.bind_ok]
    refine ⟨_, rfl, ?_⟩
    constructor <;> intros <;> (try simp only [hlf]) <;> grind
  · simp only [shiftToLeftChild, getNum, getLeaf, setNum, Res.bind_ok, hlf, Bool.true_eq_false, if_false, if_true, getVal, setVal, e1, hpos, hy, hzy]
    rw [copyValsUp_eq _ _ _ _ _ _ (by simp; try omega) (by simp; try omega) (by simp; try omega)]
    simp only [Res.bind_ok]
    refine ⟨_, rfl, ?_⟩
    constructor <;> intros <;> (try simp only [hlf]) <;> grind

/-- What `shiftToRightChild` leaves behind: slot 0 of the right child is overwritten before its entries move up. -/
structure RightPost (t t' : Tree K V) (r y z pos : Nat) : Prop where
  fresh : t'.fresh = t.fresh
  root : t'.root = t.root
  size : t'.size = t.size
  degree : t'.degree = t.degree
  isLeaf : t'.h.isLeaf = t.h.isLeaf
  next : t'.h.next = t.h.next
  prev : t'.h.prev = t.h.prev
  num : ∀ q, t'.h.num q = if q = y then t.h.num y - 1 else if q = z then t.h.num z + 1 else t.h.num q
  values : ∀ q j, t'.h.values q j =
    if q = r then (if j = pos then (if t.h.isLeaf z then t.h.values y (t.h.num y - 2) else t.h.values y (t.h.num y - 1)) else t.h.values r j)
    else if q = z then
      (if j = 0 ∨ (j = 1 ∧ 1 ≤ t.h.num z) then (if t.h.isLeaf z then t.h.values y (t.h.num y - 1) else t.h.values r pos)
       else if j ≤ t.h.num z then t.h.values z (j - 1) else t.h.values z j)
    else t.h.values q j
  children : ∀ q j, t'.h.children q j =
    if t.h.isLeaf z then t.h.children q j
    else if q = z then (if j = 0 then t.h.children y (t.h.num y) else if j ≤ t.h.num z + 1 then t.h.children z (j - 1) else t.h.children z j)
    else t.h.children q j

theorem shiftToRightChild_post (t : Tree K V) (r y z pos : Nat) (hry : r ≠ y) (hrz : r ≠ z) (hyz : y ≠ z) (hM : 1 ≤ t.degree)
    (hpos : pos < 2 * t.degree - 1) (hy : 2 ≤ t.h.num y) (hy' : t.h.num y ≤ 2 * t.degree - 1) (hz : t.h.num z < 2 * t.degree - 1) :
    ∃ t', shiftToRightChild t (some r) (some y) (some z) pos = .ok t' ∧ RightPost t t' r y z pos := by
  have e1 : 0 < 2 * t.degree - 1 := by omega
  have e2 : 0 < 2 * t.degree := by omega
  have e3 : t.h.num y < 2 * t.degree := by omega
  have e4 : t.h.num y - 1 < 2 * t.degree - 1 := by omega
  have e5 : t.h.num y - 2 < 2 * t.degree - 1 := by omega
  have e6 : ¬ t.h.num y < 2 := by omega
  rcases hlf : t.h.isLeaf z with _ | _
  · simp only [shiftToRightChild, getNum, getLeaf, setNum, Res.bind_ok, hlf, if_true, getVal, setVal, e1, hpos, e4, hyz, if_false]
    rw [shiftValsDown_eq _ _ _ _ (by simp; try omega)]
    simp only [Res.bind_ok]
    rw [shiftKidsDown_eq _ _ _ _ (by simp; try omega)]
    simp only [Res.bind_ok, getKid, setKid, e2, e3, if_true]
    refine ⟨_, rfl, ?_⟩
    constructor <;> intros <;> (try simp only [hlf]) <;> grind
  · simp only [shiftToRightChild, getNum, getLeaf, setNum, Res.bind_ok, hlf, Bool.true_eq_false, if_false, if_true, getVal, setVal, e1, hpos, e4, e5, e6, hyz]
    rw [shiftValsDown_eq _ _ _ _ (by simp; try omega)]
    simp only [Res.bind_ok]
    refine ⟨_, rfl, ?_⟩
    constructor <;> intros <;> (try simp only [hlf]) <;> grind

/-! ### Scans inside a node -/

theorem leafShift_post (cmp : Compare K) (q : Nat) (key : K) : ∀ (n : Nat) (t : Tree K V), n < 2 * t.degree - 1 →
    ∃ pos, pos ≤ n ∧ leafShift cmp t (some q) key n = .ok ({ t with h := { t.h with
        values := fun x j => if x = q ∧ pos < j ∧ j ≤ n then t.h.values q (j - 1) else t.h.values x j } }, pos) ∧
      (∀ j, pos ≤ j → j < n → cmp key (t.h.values q j).1 < 0) ∧ (0 < pos → ¬ cmp key (t.h.values q (pos - 1)).1 < 0) := by
  intro n
  induction n with
  | zero =>
    intro t _
    have : ∀ x j, ¬ (x = q ∧ 0 < j ∧ j ≤ 0) := by intros; omega
    refine ⟨0, Nat.le_refl _, ?_, by intros; omega, by omega⟩
    simp only [leafShift, this, if_false]
  | succ n ih =>
    intro t hn
    have h1 : n < 2 * t.degree - 1 := by omega
    by_cases hc : cmp key (t.h.values q n).1 < 0
    · obtain ⟨pos, h2, h3, h4, h5⟩ := ih { t with h := { t.h with values := fun x j => if x = q ∧ j = n + 1 then t.h.values q n else t.h.values x j } } h1
      refine ⟨pos, by omega, ?_, ?_, ?_⟩
      · rw [leafShift]
        simp only [getVal, setVal, h1, hn, if_true, Res.bind_ok, hc]
        rw [h3]
        simp only [Res.ok.injEq, Prod.mk.injEq, Tree.mk.injEq, Heap.mk.injEq, and_true, true_and]
        funext x j
        grind
      · intro j hj1 hj2
        by_cases hj : j = n
        · subst hj; exact hc
        · have := h4 j hj1 (by omega)
          simpa [show ¬ j = n + 1 by omega] using this
      · intro hp
        have := h5 hp
        simpa [show ¬ pos - 1 = n + 1 by omega] using this
    · refine ⟨n + 1, Nat.le_refl _, ?_, by intros; omega, fun _ => by simpa using hc⟩
      have : ∀ x j, ¬ (x = q ∧ n + 1 < j ∧ j ≤ n + 1) := by intros; omega
      rw [leafShift]
      simp only [getVal, h1, if_true, Res.bind_ok, hc, if_false, this]

theorem descendPos_post (cmp : Compare K) (t : Tree K V) (q : Nat) (key : K) : ∀ (n : Nat), n ≤ 2 * t.degree - 1 →
    ∃ pos, pos ≤ n ∧ descendPos cmp t (some q) key n = .ok pos ∧
      (∀ j, pos ≤ j → j < n → cmp key (t.h.values q j).1 < 0) ∧ (0 < pos → ¬ cmp key (t.h.values q (pos - 1)).1 < 0) := by
  intro n
  induction n with
  | zero => exact fun _ => ⟨0, Nat.le_refl _, rfl, by intros; omega, by omega⟩
  | succ n ih =>
    intro hn
    have h1 : n < 2 * t.degree - 1 := by omega
    by_cases hc : cmp key (t.h.values q n).1 < 0
    · obtain ⟨pos, h2, h3, h4, h5⟩ := ih (by omega)
      refine ⟨pos, by omega, ?_, ?_, h5⟩
      · rw [descendPos]
        simp only [getVal, h1, if_true, Res.bind_ok, hc, h3]
      · intro j hj1 hj2
        by_cases hj : j = n
        · subst hj; exact hc
        · exact h4 j hj1 (by omega)
    · refine ⟨n + 1, Nat.le_refl _, ?_, by intros; omega, fun _ => by simpa using hc⟩
      rw [descendPos]
      simp only [getVal, h1, if_true, Res.bind_ok, hc, if_false]

theorem findSlot_post (cmp : Compare K) (t : Tree K V) (q : Nat) (key : K) : ∀ (k i : Nat), i + k ≤ 2 * t.degree - 1 →
    ∃ r, i ≤ r ∧ r ≤ i + k ∧ findSlot cmp t (some q) key i k = .ok r ∧
      (∀ j, i ≤ j → j < r → cmp (t.h.values q j).1 key < 0) ∧ (r < i + k → ¬ cmp (t.h.values q r).1 key < 0) := by
  intro k
  induction k with
  | zero => exact fun i _ => ⟨i, Nat.le_refl _, Nat.le_refl _, rfl, by intros; omega, by intros; omega⟩
  | succ k ih =>
    intro i hn
    have h1 : i < 2 * t.degree - 1 := by omega
    by_cases hc : cmp (t.h.values q i).1 key < 0
    · obtain ⟨r, h2, h3, h4, h5, h6⟩ := ih (i + 1) (by omega)
      refine ⟨r, by omega, by omega, ?_, ?_, fun h => h6 (by omega)⟩
      · rw [findSlot]
        simp only [getVal, h1, if_true, Res.bind_ok, hc, h4]
      · intro j hj1 hj2
        by_cases hj : j = i
        · subst hj; exact hc
        · exact h5 j (by omega) hj2
    · refine ⟨i, Nat.le_refl _, by omega, ?_, by intros; omega, fun _ => hc⟩
      rw [findSlot]
      simp only [getVal, h1, if_true, Res.bind_ok, hc, if_false]

end Gds.BPlus
