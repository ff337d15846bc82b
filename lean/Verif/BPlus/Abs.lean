import Verif.BPlus.Loops
import Mathlib.Data.List.Chain

/-! Abstract B+ trees: the tree a heap represents.  `BT K V d` is a tree whose leaves are all at depth `d`. -/

namespace Gds.BPlus
variable {K V : Type}

/-- A leaf: its address and its entries. -/
structure LeafT (K V : Type) where
  ptr : Nat
  vals : List (K × V)

/-- An inner node: its address, its separators and its children. -/
structure InnerT (K V α : Type) where
  ptr : Nat
  vals : List (K × V)
  kids : List α

/-- Trees of depth `d`. -/
def BT (K V : Type) : Nat → Type
  | 0 => LeafT K V
  | d + 1 => InnerT K V (BT K V d)

namespace BT

/-- The address of the root. -/
def ptr : {d : Nat} → BT K V d → Nat
  | 0, b => LeafT.ptr b
  | _ + 1, b => InnerT.ptr b

/-- The values of the root. -/
def vals : {d : Nat} → BT K V d → List (K × V)
  | 0, b => LeafT.vals b
  | _ + 1, b => InnerT.vals b

/-- The addresses of all nodes. -/
def ids : {d : Nat} → BT K V d → List Nat
  | 0, b => [LeafT.ptr b]
  | _ + 1, b => InnerT.ptr b :: (InnerT.kids b).flatMap ids

/-- The addresses of the leaves, left to right. -/
def leaves : {d : Nat} → BT K V d → List Nat
  | 0, b => [LeafT.ptr b]
  | _ + 1, b => (InnerT.kids b).flatMap leaves

/-- The entries in the leaves, left to right. -/
def entries : {d : Nat} → BT K V d → List (K × V)
  | 0, b => LeafT.vals b
  | _ + 1, b => (InnerT.kids b).flatMap entries

/-- The entries in the leaves with the separators in between. -/
def inter : {d : Nat} → BT K V d → List (K × V)
  | 0, b => LeafT.vals b
  | _ + 1, b => match InnerT.kids b with
    | [] => []
    | k :: ks => inter k ++ ((InnerT.vals b).zip ks).flatMap (fun x => x.1 :: inter x.2)

/-- Every node below the root has between `M-1` and `2M-1` values. -/
def KidsOcc (M : Nat) : {d : Nat} → BT K V d → Prop
  | 0, _ => True
  | _ + 1, b => ∀ k ∈ InnerT.kids b, (M - 1 ≤ k.vals.length ∧ k.vals.length ≤ 2 * M - 1) ∧ KidsOcc M k

end BT

open BT

/-- The first slots of an array hold the list. -/
def Slots {α : Type} (f : Nat → α) (xs : List α) : Prop := ∀ i (h : i < xs.length), f i = xs[i]

section slots
variable {α : Type} {f g f2 : Nat → α} {xs ys : List α} {m m' : α}

theorem Slots.insert (h : Slots f (xs ++ ys)) (hg : ∀ j, j ≤ xs.length + ys.length → g j = if j < xs.length then f j else
    if j = xs.length then m else f (j - 1)) : Slots g (xs ++ m :: ys) := by
  intro i hi
  simp at hi
  rw [hg i (by omega)]
  rcases Nat.lt_trichotomy i xs.length with h1 | h1 | h1
  · rw [if_pos h1, h i (by simp; omega), List.getElem_append_left h1, List.getElem_append_left h1]
  · subst h1; simp
  · rw [if_neg (by omega), if_neg (by omega), h (i - 1) (by simp; omega), List.getElem_append_right (by omega),
      List.getElem_append_right (by omega)]
    simp only [show i - xs.length = (i - 1 - xs.length) + 1 by omega, List.getElem_cons_succ]

theorem Slots.erase (h : Slots f (xs ++ m :: ys)) (hg : ∀ j, j < xs.length + ys.length → g j = if j < xs.length then f j else f (j + 1)) :
    Slots g (xs ++ ys) := by
  intro i hi
  simp at hi
  rw [hg i (by omega)]
  by_cases h1 : i < xs.length
  · rw [if_pos h1, h i (by simp; omega), List.getElem_append_left h1, List.getElem_append_left h1]
  · rw [if_neg h1, h (i + 1) (by simp; omega), List.getElem_append_right (by omega), List.getElem_append_right (by omega)]
    simp only [show i + 1 - xs.length = (i - xs.length) + 1 by omega, List.getElem_cons_succ]

theorem Slots.set (h : Slots f (xs ++ m :: ys)) (hg : ∀ j, j < xs.length + ys.length + 1 → g j = if j = xs.length then m' else f j) :
    Slots g (xs ++ m' :: ys) := by
  intro i hi
  simp at hi
  rw [hg i (by omega)]
  by_cases h1 : i = xs.length
  · subst h1; simp
  · rw [if_neg h1, h i (by simp; omega)]
    by_cases h2 : i < xs.length
    · rw [List.getElem_append_left h2, List.getElem_append_left h2]
    · rw [List.getElem_append_right (by omega), List.getElem_append_right (by omega)]
      obtain ⟨k, hk⟩ : ∃ k, i - xs.length = k + 1 := ⟨i - xs.length - 1, by omega⟩
      simp only [hk, List.getElem_cons_succ]

theorem Slots.append (h1 : Slots f xs) (h2 : Slots f2 ys) (hg : ∀ j, j < xs.length + ys.length → g j = if j < xs.length then f j else
    f2 (j - xs.length)) : Slots g (xs ++ ys) := by
  intro i hi
  simp at hi
  rw [hg i (by omega)]
  by_cases h3 : i < xs.length
  · rw [if_pos h3, h1 i h3, List.getElem_append_left h3]
  · rw [if_neg h3, h2 _ (by omega), List.getElem_append_right (by omega)]

theorem Slots.left (h : Slots f (xs ++ ys)) : Slots f xs := by
  intro i hi
  rw [h i (by simp; omega), List.getElem_append_left hi]

theorem Slots.right (h : Slots f (xs ++ ys)) : Slots (fun j => f (j + xs.length)) ys := by
  intro i hi
  show f (i + xs.length) = _
  rw [h (i + xs.length) (by simp; omega), List.getElem_append_right (by omega)]
  simp

theorem Slots.at (h : Slots f (xs ++ m :: ys)) : f xs.length = m := by
  rw [h xs.length (by simp)]
  simp

theorem Slots.of_eq (h : Slots f xs) (e : ∀ j, j < xs.length → g j = f j) : Slots g xs := by
  intro i hi
  rw [e i hi, h i hi]

theorem Slots.take (h : Slots f xs) (n : Nat) : Slots f (xs.take n) := by
  intro i hi
  simp at hi
  rw [h i (by omega), List.getElem_take]

theorem Slots.drop (h : Slots f xs) (n : Nat) : Slots (fun j => f (j + n)) (xs.drop n) := by
  intro i hi
  simp at hi
  show f (i + n) = _
  rw [h (i + n) (by omega), List.getElem_drop]
  simp [Nat.add_comm]

end slots

/-- The heap `h` holds the tree `b`. -/
def Rep (h : Heap K V) : {d : Nat} → BT K V d → Prop
  | 0, b => h.isLeaf (LeafT.ptr b) = true ∧ h.num (LeafT.ptr b) = (LeafT.vals b).length ∧ Slots (h.values (LeafT.ptr b)) (LeafT.vals b) ∧
      ∀ j, h.children (LeafT.ptr b) j = none
  | _ + 1, b => h.isLeaf (InnerT.ptr b) = false ∧ h.num (InnerT.ptr b) = (InnerT.vals b).length ∧
      Slots (h.values (InnerT.ptr b)) (InnerT.vals b) ∧ (InnerT.kids b).length = (InnerT.vals b).length + 1 ∧
      Slots (h.children (InnerT.ptr b)) ((InnerT.kids b).map (fun k => some k.ptr)) ∧ ∀ k ∈ InnerT.kids b, Rep h k

/-- Two heaps agree on a node, links aside. -/
structure SameAt (h h' : Heap K V) (q : Nat) : Prop where
  isLeaf : h'.isLeaf q = h.isLeaf q
  num : h'.num q = h.num q
  values : h'.values q = h.values q
  children : h'.children q = h.children q

theorem SameAt.refl (h : Heap K V) (q : Nat) : SameAt h h q := ⟨rfl, rfl, rfl, rfl⟩
theorem SameAt.trans {h h' h'' : Heap K V} {q : Nat} (a : SameAt h h' q) (b : SameAt h' h'' q) : SameAt h h'' q :=
  ⟨b.1.trans a.1, b.2.trans a.2, b.3.trans a.3, b.4.trans a.4⟩

namespace BT

@[simp] theorem ptr_zero (b : LeafT K V) : ptr (d := 0) b = b.ptr := rfl
@[simp] theorem vals_zero (b : LeafT K V) : vals (d := 0) b = b.vals := rfl
@[simp] theorem ids_zero (b : LeafT K V) : ids (d := 0) b = [b.ptr] := rfl
@[simp] theorem leaves_zero (b : LeafT K V) : leaves (d := 0) b = [b.ptr] := rfl
@[simp] theorem entries_zero (b : LeafT K V) : entries (d := 0) b = b.vals := rfl
@[simp] theorem inter_zero (b : LeafT K V) : inter (d := 0) b = b.vals := rfl
variable {d : Nat}
@[simp] theorem ptr_succ (b : InnerT K V (BT K V d)) : ptr (d := d + 1) b = b.ptr := rfl
@[simp] theorem vals_succ (b : InnerT K V (BT K V d)) : vals (d := d + 1) b = b.vals := rfl
@[simp] theorem ids_succ (b : InnerT K V (BT K V d)) : ids (d := d + 1) b = b.ptr :: b.kids.flatMap ids := rfl
@[simp] theorem leaves_succ (b : InnerT K V (BT K V d)) : leaves (d := d + 1) b = b.kids.flatMap leaves := rfl
@[simp] theorem entries_succ (b : InnerT K V (BT K V d)) : entries (d := d + 1) b = b.kids.flatMap entries := rfl
@[simp] theorem kidsOcc_zero (M : Nat) (b : LeafT K V) : KidsOcc M (d := 0) b ↔ True := Iff.rfl
@[simp] theorem kidsOcc_succ (M : Nat) (b : InnerT K V (BT K V d)) : KidsOcc M (d := d + 1) b ↔
  ∀ k ∈ b.kids, (M - 1 ≤ k.vals.length ∧ k.vals.length ≤ 2 * M - 1) ∧ KidsOcc M k := Iff.rfl

theorem inter_succ (p : Nat) (vs : List (K × V)) (k : BT K V d) (ks : List (BT K V d)) :
    inter (d := d + 1) (⟨p, vs, k :: ks⟩ : InnerT K V (BT K V d)) = inter k ++ (vs.zip ks).flatMap (fun x => x.1 :: inter x.2) := rfl

theorem ptr_mem_ids : ∀ {d} (b : BT K V d), b.ptr ∈ b.ids
  | 0, _ => List.mem_singleton_self _
  | _ + 1, _ => List.mem_cons_self

theorem leaves_subset : ∀ {d} (b : BT K V d), ∀ q ∈ b.leaves, q ∈ b.ids
  | 0, _ => fun _ h => h
  | _ + 1, b => by
    intro q hq
    obtain ⟨k, hk, hq⟩ := List.mem_flatMap.1 hq
    exact List.mem_cons_of_mem _ (List.mem_flatMap.2 ⟨k, hk, leaves_subset k q hq⟩)

theorem leaves_sublist : ∀ {d} (b : BT K V d), List.Sublist b.leaves b.ids
  | 0, _ => List.Sublist.refl _
  | _ + 1, b => by
    refine List.Sublist.cons _ ?_
    show List.Sublist ((InnerT.kids b).flatMap leaves) ((InnerT.kids b).flatMap ids)
    generalize InnerT.kids b = ks
    induction ks with
    | nil => exact List.Sublist.refl _
    | cons k ks ih => simpa using List.Sublist.append (leaves_sublist k) ih

theorem inter_split (p : Nat) (va vb : List (K × V)) (A : List (BT K V d)) (k : BT K V d) (B : List (BT K V d)) (h : A.length = va.length) :
    inter (d := d + 1) (⟨p, va ++ vb, A ++ k :: B⟩ : InnerT K V (BT K V d)) =
      (A.zip va).flatMap (fun x => inter x.1 ++ [x.2]) ++ inter k ++ (vb.zip B).flatMap (fun x => x.1 :: inter x.2) := by
  induction A generalizing va k p with
  | nil => cases va with
    | nil => simp [inter_succ]
    | cons => simp at h
  | cons a A ih => cases va with
    | nil => simp at h
    | cons v va =>
      have h' : A.length = va.length := by simpa using h
      cases A with
      | nil => cases va with
        | nil => simp [inter_succ]
        | cons => simp at h'
      | cons a' A =>
        have := ih p va k h'
        simp only [List.cons_append, inter_succ] at this ⊢
        cases va with
        | nil => simp at h'
        | cons v' va =>
          simp only [List.cons_append, List.zip_cons_cons, List.flatMap_cons, List.append_assoc, List.nil_append] at this ⊢
          rw [this]

theorem entries_sublist_inter : ∀ {d} (b : BT K V d), (∃ h : Heap K V, Rep h b) → List.Sublist b.entries b.inter
  | 0, _, _ => List.Sublist.refl _
  | d + 1, b, ⟨h, hr⟩ => by
    obtain ⟨p, vs, ks⟩ := b
    obtain ⟨-, -, -, hlen, -, hk⟩ := hr
    simp only at hlen hk
    cases ks with
    | nil => simp at hlen
    | cons k ks =>
      rw [inter_succ]
      simp only [entries_succ, List.flatMap_cons]
      refine List.Sublist.append (entries_sublist_inter k ⟨h, hk k (by simp)⟩) ?_
      have hl : ks.length = vs.length := by simpa using hlen
      have hk' : ∀ x ∈ ks, Rep h x := fun x hx => hk x (by simp [hx])
      clear hlen hk
      induction ks generalizing vs with
      | nil => simp
      | cons a ks ih => cases vs with
        | nil => simp at hl
        | cons v vs =>
          simp only [List.zip_cons_cons, List.flatMap_cons, List.cons_append]
          exact List.Sublist.cons _ (List.Sublist.append (entries_sublist_inter a ⟨h, hk' a (by simp)⟩)
            (ih vs (by simpa using hl) (fun x hx => hk' x (by simp [hx]))))

end BT

theorem Rep.congr {h h' : Heap K V} : ∀ {d} {b : BT K V d}, (∀ q ∈ b.ids, SameAt h h' q) → Rep h b → Rep h' b
  | 0, b, hs, hr => by
    have := hs b.ptr (by simp [ids, ptr])
    have e : LeafT.ptr b = b.ptr := rfl
    obtain ⟨h1, h2, h3, h4⟩ := hr
    rw [e] at h1 h2 h3 h4
    refine ⟨?_, ?_, ?_, ?_⟩
    · rw [e, this.isLeaf]; exact h1
    · rw [e, this.num]; exact h2
    · rw [e, this.values]; exact h3
    · rw [e, this.children]; exact h4
  | d + 1, b, hs, hr => by
    obtain ⟨p, vs, ks⟩ := b
    have := hs p (by simp)
    obtain ⟨h1, h2, h3, h4, h5, h6⟩ := hr
    simp only at h1 h2 h3 h4 h5 h6
    refine ⟨?_, ?_, ?_, h4, ?_, ?_⟩
    · simpa [this.isLeaf] using h1
    · simpa [this.num] using h2
    · simpa [this.values] using h3
    · simpa [this.children] using h5
    · intro k hk
      exact Rep.congr (fun q hq => hs q (by simp only [ids_succ, List.mem_cons, List.mem_flatMap]; exact Or.inr ⟨k, hk, hq⟩)) (h6 k hk)

theorem Rep.num_eq {h : Heap K V} : ∀ {d} {b : BT K V d}, Rep h b → h.num b.ptr = b.vals.length
  | 0, _, hr => hr.2.1
  | _ + 1, _, hr => hr.2.1

theorem Rep.slots {h : Heap K V} : ∀ {d} {b : BT K V d}, Rep h b → Slots (h.values b.ptr) b.vals
  | 0, _, hr => hr.2.2.1
  | _ + 1, _, hr => hr.2.2.1

theorem Rep.isLeaf_eq {h : Heap K V} : ∀ {d} {b : BT K V d}, Rep h b → h.isLeaf b.ptr = (d == 0)
  | 0, _, hr => hr.1
  | _ + 1, _, hr => hr.1

/-! ### Constructors -/

namespace BT
variable {d : Nat}
/-- A leaf. -/
def leaf (p : Nat) (vs : List (K × V)) : BT K V 0 := (⟨p, vs⟩ : LeafT K V)
/-- An inner node. -/
def inner (p : Nat) (vs : List (K × V)) (ks : List (BT K V d)) : BT K V (d + 1) := (⟨p, vs, ks⟩ : InnerT K V (BT K V d))

theorem exists_leaf (b : BT K V 0) : ∃ p vs, b = leaf p vs := ⟨LeafT.ptr b, LeafT.vals b, rfl⟩
theorem exists_inner (b : BT K V (d + 1)) : ∃ p vs ks, b = inner p vs ks := ⟨InnerT.ptr b, InnerT.vals b, InnerT.kids b, rfl⟩

@[simp] theorem leaf_ptr (p : Nat) (vs : List (K × V)) : (leaf p vs).ptr = p := rfl
@[simp] theorem leaf_vals (p : Nat) (vs : List (K × V)) : (leaf p vs).vals = vs := rfl
@[simp] theorem leaf_ids (p : Nat) (vs : List (K × V)) : (leaf p vs).ids = [p] := rfl
@[simp] theorem leaf_leaves (p : Nat) (vs : List (K × V)) : (leaf p vs).leaves = [p] := rfl
@[simp] theorem leaf_entries (p : Nat) (vs : List (K × V)) : (leaf p vs).entries = vs := rfl
@[simp] theorem leaf_inter (p : Nat) (vs : List (K × V)) : (leaf p vs).inter = vs := rfl
@[simp] theorem leaf_kidsOcc (M p : Nat) (vs : List (K × V)) : (leaf p vs).KidsOcc M ↔ True := Iff.rfl
@[simp] theorem inner_ptr (p : Nat) (vs : List (K × V)) (ks : List (BT K V d)) : (inner p vs ks).ptr = p := rfl
@[simp] theorem inner_vals (p : Nat) (vs : List (K × V)) (ks : List (BT K V d)) : (inner p vs ks).vals = vs := rfl
@[simp] theorem inner_ids (p : Nat) (vs : List (K × V)) (ks : List (BT K V d)) : (inner p vs ks).ids = p :: ks.flatMap ids := rfl
@[simp] theorem inner_leaves (p : Nat) (vs : List (K × V)) (ks : List (BT K V d)) : (inner p vs ks).leaves = ks.flatMap leaves := rfl
@[simp] theorem inner_entries (p : Nat) (vs : List (K × V)) (ks : List (BT K V d)) : (inner p vs ks).entries = ks.flatMap entries := rfl
@[simp] theorem inner_kidsOcc (M p : Nat) (vs : List (K × V)) (ks : List (BT K V d)) : (inner p vs ks).KidsOcc M ↔
    ∀ k ∈ ks, (M - 1 ≤ k.vals.length ∧ k.vals.length ≤ 2 * M - 1) ∧ KidsOcc M k := Iff.rfl

theorem inner_inter (p : Nat) (va vb : List (K × V)) (A : List (BT K V d)) (k : BT K V d) (B : List (BT K V d)) (h : A.length = va.length) :
    (inner p (va ++ vb) (A ++ k :: B)).inter =
      (A.zip va).flatMap (fun x => inter x.1 ++ [x.2]) ++ inter k ++ (vb.zip B).flatMap (fun x => x.1 :: inter x.2) := inter_split p va vb A k B h

end BT

theorem rep_leaf (h : Heap K V) (p : Nat) (vs : List (K × V)) :
    Rep h (leaf p vs) ↔ h.isLeaf p = true ∧ h.num p = vs.length ∧ Slots (h.values p) vs ∧ ∀ j, h.children p j = none := Iff.rfl

theorem rep_inner {d : Nat} (h : Heap K V) (p : Nat) (vs : List (K × V)) (ks : List (BT K V d)) :
    Rep h (inner p vs ks) ↔ h.isLeaf p = false ∧ h.num p = vs.length ∧ Slots (h.values p) vs ∧ ks.length = vs.length + 1 ∧
      Slots (h.children p) (ks.map (fun k => some k.ptr)) ∧ ∀ k ∈ ks, Rep h k := Iff.rfl

/-! ### The ring of leaves -/

/-- `l` is a doubly linked ring. -/
def Ring (h : Heap K V) (l : List Nat) : Prop :=
  List.IsChain (fun a b => h.next a = some b ∧ h.prev b = some a) (l ++ l.head?.toList)

theorem chain_congr {α : Type} {R R' : α → α → Prop} : ∀ {l : List α}, List.IsChain R l →
    (∀ a ∈ l.dropLast, ∀ b ∈ l.tail, R a b → R' a b) → List.IsChain R' l
  | [], _, _ => List.IsChain.nil
  | [_], _, _ => List.IsChain.singleton _
  | a :: b :: l, h, hi => by
    rw [List.isChain_cons_cons] at h ⊢
    refine ⟨hi a (by simp) b (by simp) h.1, chain_congr h.2 ?_⟩
    intro x hx y hy
    exact hi x (by simp [hx]) y (by simp at hy ⊢; exact Or.inr hy)

/-- Linking a new leaf `n` behind `c`. -/
theorem ring_insert {h h' : Heap K V} {A B : List Nat} {c n : Nat} (hr : Ring h (A ++ c :: B)) (hnd : (A ++ c :: B).Nodup)
    (hn : n ∉ A ++ c :: B)
    (e1 : ∀ q, h'.next q = if q = c then some n else if q = n then h.next c else h.next q)
    (e2 : ∀ q, h'.prev q = if q = n then some c else if h.next c = some q then some n else h.prev q) :
    Ring h' (A ++ c :: n :: B) := by
  unfold Ring at *
  obtain ⟨x, hx⟩ : ∃ x, (A ++ [c]).head? = some x := by cases A <;> simp
  have hx1 : (A ++ c :: B).head? = some x := by cases A <;> simpa using hx
  have hx2 : (A ++ c :: n :: B).head? = some x := by cases A <;> simpa using hx
  rw [hx1] at hr; rw [hx2]
  simp only [Option.toList_some, List.append_assoc, List.cons_append] at hr ⊢
  rw [List.isChain_split] at hr ⊢
  obtain ⟨s, R, hs⟩ : ∃ s R, B ++ [x] = s :: R := by cases B <;> simp
  have hxA : x ∈ A ++ [c] := List.mem_of_mem_head? (by simpa using hx)
  rw [hs] at hr ⊢
  rw [List.isChain_cons_cons] at hr
  rw [List.isChain_cons_cons, List.isChain_cons_cons]
  obtain ⟨h1, ⟨h2, h2'⟩, h3⟩ := hr
  have hsB : ∀ b ∈ (A ++ [c]).tail, b ≠ s := by
    intro b hb hbs
    subst hbs
    cases B with
    | nil =>
      simp at hs
      obtain ⟨rfl, rfl⟩ := hs
      cases A with
      | nil => simp at hb
      | cons a A => simp at hx hb hnd; grind
    | cons b' B =>
      simp at hs
      obtain ⟨rfl, rfl⟩ := hs
      have := List.mem_of_mem_tail hb
      simp at this hnd
      grind
  refine ⟨chain_congr h1 ?_, ⟨?_, ?_⟩, ⟨?_, ?_⟩, chain_congr h3 ?_⟩
  · intro a ha b hb ⟨r1, r2⟩
    have hbs := hsB b hb
    have hb' := List.mem_of_mem_tail hb
    simp at ha hb' hnd hn
    grind
  · grind
  · grind
  · simp at hn; grind
  · have : s ≠ n := by
      have : s ∈ B ++ [x] := by rw [hs]; simp
      simp at this hn hxA
      grind
    grind
  · intro a ha b hb ⟨r1, r2⟩
    have ha' : a ∈ B := by rw [← hs] at ha; simpa using ha
    have hb' : b ∈ (B ++ [x]).tail := by rw [hs]; exact hb
    have hb'' := List.mem_of_mem_tail hb'
    have : b ≠ s := by
      cases B with
      | nil => simp at ha'
      | cons b0 B =>
        simp at hs
        obtain ⟨rfl, rfl⟩ := hs
        simp at hb' hxA hnd
        grind
    simp at hb'' hnd hn hxA
    grind

/-- Unlinking leaf `z`, the successor of `y`. -/
theorem ring_remove {h h' : Heap K V} {A B : List Nat} {y z : Nat} (hr : Ring h (A ++ y :: z :: B)) (hnd : (A ++ y :: z :: B).Nodup)
    (e1 : ∀ q, h'.next q = if q = y then h.next z else h.next q)
    (e2 : ∀ q, h'.prev q = if h.next z = some q then some y else h.prev q) :
    Ring h' (A ++ y :: B) := by
  unfold Ring at *
  obtain ⟨x, hx⟩ : ∃ x, (A ++ [y]).head? = some x := by cases A <;> simp
  have hx1 : (A ++ y :: z :: B).head? = some x := by cases A <;> simpa using hx
  have hx2 : (A ++ y :: B).head? = some x := by cases A <;> simpa using hx
  rw [hx1] at hr; rw [hx2]
  simp only [Option.toList_some, List.append_assoc, List.cons_append] at hr ⊢
  rw [List.isChain_split] at hr ⊢
  obtain ⟨s, R, hs⟩ : ∃ s R, B ++ [x] = s :: R := by cases B <;> simp
  have hxA : x ∈ A ++ [y] := List.mem_of_mem_head? (by simpa using hx)
  rw [hs] at hr ⊢
  rw [List.isChain_cons_cons, List.isChain_cons_cons] at hr
  rw [List.isChain_cons_cons]
  obtain ⟨h1, ⟨h2, h2'⟩, ⟨h3, h3'⟩, h4⟩ := hr
  have hsB : ∀ b ∈ (A ++ [y]).tail, b ≠ s := by
    intro b hb hbs
    subst hbs
    cases B with
    | nil =>
      simp at hs
      obtain ⟨rfl, rfl⟩ := hs
      cases A with
      | nil => simp at hb
      | cons a A => simp at hx hb hnd; grind
    | cons b' B =>
      simp at hs
      obtain ⟨rfl, rfl⟩ := hs
      have := List.mem_of_mem_tail hb
      simp at this hnd
      grind
  refine ⟨chain_congr h1 ?_, ⟨?_, ?_⟩, chain_congr h4 ?_⟩
  · intro a ha b hb ⟨r1, r2⟩
    have hbs := hsB b hb
    have hb' := List.mem_of_mem_tail hb
    simp at ha hb' hnd
    grind
  · grind
  · grind
  · intro a ha b hb ⟨r1, r2⟩
    have ha' : a ∈ B := by rw [← hs] at ha; simpa using ha
    have hb' : b ∈ (B ++ [x]).tail := by rw [hs]; exact hb
    have hb'' := List.mem_of_mem_tail hb'
    have : b ≠ s := by
      cases B with
      | nil => simp at ha'
      | cons b0 B =>
        simp at hs
        obtain ⟨rfl, rfl⟩ := hs
        simp at hb' hxA hnd
        grind
    simp at hb'' hnd hxA
    grind

theorem Ring.next_mem {h : Heap K V} {l : List Nat} (hr : Ring h l) {q : Nat} (hq : q ∈ l) : ∃ s, h.next q = some s ∧ s ∈ l := by
  obtain ⟨A, B, rfl⟩ := List.append_of_mem hq
  unfold Ring at hr
  obtain ⟨x, hx⟩ : ∃ x, (A ++ q :: B).head? = some x := by cases A <;> simp
  have hxm : x ∈ A ++ q :: B := List.mem_of_mem_head? (by simpa using hx)
  rw [hx] at hr
  simp only [Option.toList_some, List.append_assoc, List.cons_append] at hr
  rw [List.isChain_split] at hr
  cases B with
  | nil =>
    have := hr.2
    simp at this
    exact ⟨x, this.1, hxm⟩
  | cons s B =>
    have := hr.2
    rw [List.cons_append, List.isChain_cons_cons] at this
    exact ⟨s, this.1.1, by simp⟩

/-- Links of other nodes do not matter. -/
theorem Ring.congr {h h' : Heap K V} {l : List Nat} (hr : Ring h l) (e : ∀ q ∈ l, h'.next q = h.next q ∧ h'.prev q = h.prev q) : Ring h' l := by
  unfold Ring at *
  refine chain_congr hr ?_
  intro a ha b hb ⟨r1, r2⟩
  have hsub : ∀ q ∈ l ++ l.head?.toList, q ∈ l := by
    intro q hq
    rcases List.mem_append.1 hq with h | h
    · exact h
    · rw [Option.mem_toList] at h
      exact List.mem_of_mem_head? h
  have ha' := hsub a (List.dropLast_subset _ ha)
  have hb' := hsub b (List.mem_of_mem_tail hb)
  rw [(e a ha').1, (e b hb').2]
  exact ⟨r1, r2⟩

end Gds.BPlus
