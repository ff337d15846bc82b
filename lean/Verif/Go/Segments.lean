import Mathlib.Data.List.NodupEquivFin

/-! What a segmenter (`SplitableIter()(p)`, p > 0) and its segments do over a sequence that changes between the calls: the specification shared by the
    skip list and the red-black tree, and what follows from it. -/

namespace Gds.Segments
variable {A : Type}

/-! ### Specification

The sequence is a list of elements `(name, entry)`; the name is the node. -/

/-- The names. -/
def names (L : List (Nat × A)) : List Nat := L.map Prod.fst

/-- The element after `e`. -/
def after (L : List (Nat × A)) (e : Nat) : Option Nat := (names L)[(names L).idxOf e + 1]?

/-- `k` elements further. -/
def ahead (L : List (Nat × A)) : Nat → Option Nat → Option Nat
  | 0, n => n
  | _ + 1, none => none
  | k + 1, some e => ahead L k (after L e)

/-- A segment: the element it delivers next, and how many it delivers at most (`none`: all up to the end). -/
structure Part where
  left : Option Nat
  node : Option Nat

/-- The segmenter: how many elements it has handed out, and where the next segment starts; the segments handed out. -/
structure Cursor where
  idx : Nat
  node : Option Nat
  parts : List Part

/-- A segmenter that has just been made. -/
def Cursor.start (L : List (Nat × A)) : Cursor := ⟨0, (names L).head?, []⟩

/-- A pull of a segment delivers the element chosen by the pull before, as it is now, and chooses the one that follows it now. -/
def Part.pull (L : List (Nat × A)) : Part → Option (Nat × A) × Part
  | ⟨none, some e⟩ => ((L.lookup e).map fun x => (e, x), ⟨none, after L e⟩)
  | ⟨some (k + 1), some e⟩ => ((L.lookup e).map fun x => (e, x), ⟨some k, after L e⟩)
  | p => (none, p)

/-- A call of the segmenter. -/
def Cursor.ask (L : List (Nat × A)) (step : Nat) (c : Cursor) : Bool × Cursor :=
  if L.length ≤ c.idx then (false, c)
  else (true, { idx := c.idx + step, node := ahead L step c.node,
                parts := c.parts ++ [⟨if L.length ≤ c.idx + step then none else some step, c.node⟩] })

/-- What happens: the sequence becomes another one, a call of the segmenter, a pull of the segment number `j`. -/
inductive Item (A : Type) where
  | edit (L : List (Nat × A))
  | ask
  | pull (j : Nat)

/-- What is seen: whether there was another segment; what the segment `j` delivered (`none`: its end). -/
inductive Out (A : Type) where
  | part (given : Bool)
  | elem (j : Nat) (o : Option A)

/-- The outcomes. -/
def spec (step : Nat) : List (Nat × A) → Cursor → List (Item A) → List (Out (Nat × A))
  | _, _, [] => []
  | _, c, .edit L' :: is => spec step L' c is
  | L, c, .ask :: is => .part (c.ask L step).1 :: spec step L (c.ask L step).2 is
  | L, c, .pull j :: is =>
    match c.parts[j]? with
    | none => spec step L c is
    | some p => .elem j (p.pull L).1 :: spec step L { c with parts := c.parts.set j (p.pull L).2 } is

/-- The sequence in the end. -/
def final : List (Nat × A) → List (Item A) → List (Nat × A)
  | L, [] => L
  | _, .edit L' :: is => final L' is
  | L, _ :: is => final L is

/-- Every change of the sequence is of the kind `R`. -/
def Edits (R : List (Nat × A) → List (Nat × A) → Prop) : List (Nat × A) → List (Item A) → Prop
  | _, [] => True
  | L, .edit L' :: is => R L L' ∧ Edits R L' is
  | L, _ :: is => Edits R L is

/-- Elements are only inserted, at any places; nodes do not appear twice. (Entries may change.) -/
def Inserts (L L' : List (Nat × A)) : Prop := (names L).Sublist (names L') ∧ (names L').Nodup

/-- Elements are only appended. -/
def Appends (L L' : List (Nat × A)) : Prop := names L <+: names L' ∧ (names L').Nodup

/-- Without the names. -/
def Out.forget : Out (Nat × A) → Out A
  | .part b => .part b
  | .elem j o => .elem j (o.map Prod.snd)

/-- The elements delivered. -/
def delivered {B : Type} : List (Out B) → List B
  | [] => []
  | .elem _ (some x) :: os => x :: delivered os
  | _ :: os => delivered os

/-- The number of segments handed out. -/
def handed {B : Type} : List (Out B) → Nat
  | [] => 0
  | .part true :: os => handed os + 1
  | _ :: os => handed os

/-! ### Lemmas -/

open scoped List

/-- `e` is still to be delivered by the segment. -/
def Part.covers (xs : List Nat) (e : Nat) : Part → Bool
  | ⟨none, some n⟩ => decide (xs.idxOf n ≤ xs.idxOf e)
  | ⟨some k, some n⟩ => decide (xs.idxOf n ≤ xs.idxOf e ∧ xs.idxOf e < xs.idxOf n + k)
  | _ => false

/-- How many are going to deliver `e`. -/
def Cursor.count (xs : List Nat) (e : Nat) (c : Cursor) : Nat :=
  (Part.covers xs e ⟨none, c.node⟩).toNat + c.parts.countP (Part.covers xs e)

/-- The iterators stand in the list. -/
structure Fits (xs : List Nat) (c : Cursor) : Prop where
  node : ∀ n, c.node = some n → n ∈ xs ∧ xs.idxOf n = c.idx
  parts : ∀ p ∈ c.parts, ∀ n, p.node = some n → n ∈ xs ∧ ∀ k, p.left = some k → xs.idxOf n + k ≤ xs.length

theorem idxOf_pre {xs ys : List Nat} {n : Nat} (h : n ∈ xs) : (xs ++ ys).idxOf n = xs.idxOf n := by
  rw [List.idxOf_append, if_pos h]

theorem covers_pre {xs ys : List Nat} {p : Part} (hp : ∀ n, p.node = some n → n ∈ xs ∧ ∀ k, p.left = some k → xs.idxOf n + k ≤ xs.length)
    (e : Nat) : Part.covers (xs ++ ys) e p = Part.covers xs e p := by
  obtain ⟨left, node⟩ := p
  cases node with
  | none => cases left <;> rfl
  | some n =>
    obtain ⟨h1, h2⟩ := hp n rfl
    have hn := List.idxOf_lt_length_of_mem h1
    by_cases he : e ∈ xs
    · cases left <;> simp [Part.covers, idxOf_pre h1, idxOf_pre he]
    · have e1 : xs.idxOf e = xs.length := List.idxOf_eq_length he
      have e2 : (xs ++ ys).idxOf e ≥ xs.length := by rw [List.idxOf_append, if_neg he]; omega
      cases left with
      | none => simp only [Part.covers, idxOf_pre h1, e1, decide_eq_decide]; omega
      | some k =>
        have := h2 k rfl
        simp only [Part.covers, idxOf_pre h1, e1, decide_eq_decide]; omega

theorem count_pre {xs ys : List Nat} {c : Cursor} (h : Fits xs c) (e : Nat) : c.count (xs ++ ys) e = c.count xs e := by
  unfold Cursor.count
  rw [covers_pre (p := ⟨none, c.node⟩) (fun n hn => ⟨(h.node n hn).1, by simp⟩)]
  congr 1
  exact List.countP_congr fun p hp => by rw [covers_pre (h.parts p hp)]

theorem fits_pre {xs ys : List Nat} {c : Cursor} (h : Fits xs c) : Fits (xs ++ ys) c := by
  refine ⟨fun n hn => ?_, fun p hp n hn => ?_⟩
  · obtain ⟨h1, h2⟩ := h.node n hn
    exact ⟨by simp [h1], by rw [idxOf_pre h1, h2]⟩
  · obtain ⟨h1, h2⟩ := h.parts p hp n hn
    refine ⟨by simp [h1], fun k hk => ?_⟩
    rw [idxOf_pre h1, List.length_append]
    have := h2 k hk
    omega

theorem names_length (L : List (Nat × A)) : (names L).length = L.length := List.length_map _

theorem lookup_mem {L : List (Nat × A)} {e : Nat} (h : e ∈ names L) : ∃ x, L.lookup e = some x := by
  induction L with
  | nil => simp [names] at h
  | cons y L ih =>
    obtain ⟨n, x⟩ := y
    rw [List.lookup_cons]
    by_cases hn : e = n
    · exact ⟨x, by simp [hn]⟩
    · rw [beq_false_of_ne hn]
      refine ih ?_
      simp only [names, List.map_cons, List.mem_cons] at h
      exact h.resolve_left hn

theorem mem_of_lookup {L : List (Nat × A)} {e : Nat} {x : A} (h : L.lookup e = some x) : (e, x) ∈ L := by
  induction L with
  | nil => simp at h
  | cons y L ih =>
    obtain ⟨n, z⟩ := y
    rw [List.lookup_cons] at h
    by_cases hn : e = n
    · subst hn; simp at h; simp [h]
    · rw [beq_false_of_ne hn] at h
      exact List.mem_cons_of_mem _ (ih h)

theorem lookup_of_mem {L : List (Nat × A)} (hL : (names L).Nodup) {e : Nat} {x : A} (h : (e, x) ∈ L) : L.lookup e = some x := by
  induction L with
  | nil => simp at h
  | cons y L ih =>
    obtain ⟨n, z⟩ := y
    simp only [names, List.map_cons, List.nodup_cons] at hL
    rw [List.lookup_cons]
    rcases List.mem_cons.1 h with h' | h'
    · cases h'; simp
    · have : e ≠ n := by
        rintro rfl
        exact hL.1 (List.mem_map_of_mem (f := Prod.fst) h')
      rw [beq_false_of_ne this]
      exact ih hL.2 h'

theorem toNat_decide (p : Prop) [Decidable p] : (decide p).toNat = if p then 1 else 0 := by by_cases h : p <;> simp [h]

theorem idx_get {xs : List Nat} (hn : xs.Nodup) {i m : Nat} (h : xs[i]? = some m) : m ∈ xs ∧ xs.idxOf m = i := by
  obtain ⟨hi, rfl⟩ := List.getElem?_eq_some_iff.1 h
  exact ⟨by simp, by rw [hn.idxOf_getElem]⟩

theorem after_idx (L : List (Nat × A)) (n : Nat) : after L n = (names L)[(names L).idxOf n + 1]? := rfl

theorem ahead_idx {L : List (Nat × A)} (h : (names L).Nodup) : ∀ (k n : Nat), n ∈ names L →
    ahead L k (some n) = (names L)[(names L).idxOf n + k]? := by
  intro k
  induction k with
  | zero => intro n hn; simp [ahead, List.getElem?_eq_getElem (List.idxOf_lt_length_of_mem hn)]
  | succ k ih =>
    intro n hn
    rw [ahead, after_idx L n]
    cases hm : (names L)[(names L).idxOf n + 1]? with
    | none =>
      have hn1 : ahead L k none = none := by cases k <;> rfl
      rw [hn1, eq_comm, List.getElem?_eq_none_iff]
      rw [List.getElem?_eq_none_iff] at hm
      omega
    | some m =>
      obtain ⟨h1, h2⟩ := idx_get h hm
      rw [ih m h1, h2]
      congr 1
      omega

theorem ahead_none (L : List (Nat × A)) (k : Nat) : ahead L k none = none := by cases k <;> rfl

theorem idx_inj {xs : List Nat} {e f : Nat} (he : e ∈ xs) (h : xs.idxOf e = xs.idxOf f) : e = f :=
  (List.idxOf_inj he).1 h

/-- What one pull does to the place of a segment. -/
theorem pull_place {L : List (Nat × A)} (h : (names L).Nodup) {p : Part} (hp : ∀ n, p.node = some n → n ∈ (names L)) :
    (p.pull L).2 = p ∨ (p.pull L).2.node = none ∨ ∃ n m, p.node = some n ∧ (p.pull L).2.node = some m ∧ m ∈ (names L) ∧
      (names L).idxOf m = (names L).idxOf n + 1 ∧ ((p.left = none ∧ (p.pull L).2.left = none) ∨ ∃ k, p.left = some (k + 1) ∧ (p.pull L).2.left = some k) := by
  obtain ⟨left, node⟩ := p
  cases node with
  | none => left; cases left with
    | none => rfl
    | some k => cases k <;> rfl
  | some n =>
    have ha := after_idx L n
    cases left with
    | none =>
      right
      cases hm : after L n with
      | none => exact .inl hm
      | some m =>
        rw [hm] at ha
        obtain ⟨i1, i2⟩ := idx_get h ha.symm
        exact .inr ⟨n, m, rfl, hm, i1, i2, .inl ⟨rfl, rfl⟩⟩
    | some k =>
      cases k with
      | zero => exact .inl rfl
      | succ k =>
        right
        cases hm : after L n with
        | none => exact .inl hm
        | some m =>
          rw [hm] at ha
          obtain ⟨i1, i2⟩ := idx_get h ha.symm
          exact .inr ⟨n, m, rfl, hm, i1, i2, .inr ⟨k, rfl, rfl⟩⟩

theorem pull_fits {L : List (Nat × A)} (h : (names L).Nodup) {p : Part}
    (hp : ∀ n, p.node = some n → n ∈ (names L) ∧ ∀ k, p.left = some k → (names L).idxOf n + k ≤ (names L).length) :
    ∀ n, (p.pull L).2.node = some n → n ∈ (names L) ∧ ∀ k, (p.pull L).2.left = some k → (names L).idxOf n + k ≤ (names L).length := by
  intro n' hn'
  rcases pull_place h (fun n hn => (hp n hn).1) with e | e | ⟨n, m, h1, h2, h3, h4, h5⟩
  · rw [e] at hn' ⊢; exact hp n' hn'
  · rw [e] at hn'; simp at hn'
  · rw [h2, Option.some.injEq] at hn'
    subst hn'
    refine ⟨h3, fun k hk => ?_⟩
    rcases h5 with ⟨-, h5⟩ | ⟨k', h5, h6⟩
    · rw [h5] at hk; simp at hk
    · rw [h6, Option.some.injEq] at hk
      have := (hp n h1).2 _ h5
      omega

/-- What one pull does to the count of one segment. -/
theorem pull_count {L : List (Nat × A)} (h : (names L).Nodup) {p : Part} (hp : ∀ n, p.node = some n → n ∈ (names L)) :
    ∀ e, let d := ((p.pull L).1.toList.map Prod.fst).count e + (Part.covers (names L) e (p.pull L).2).toNat
      d ≤ (Part.covers (names L) e p).toNat ∧ (e ∈ (names L) → d = (Part.covers (names L) e p).toNat) := by
  obtain ⟨left, node⟩ := p
  cases node with
  | none => cases left with
    | none => simp [Part.pull, Part.covers]
    | some k => cases k <;> simp [Part.pull, Part.covers]
  | some n =>
    have h1 := hp n rfl
    obtain ⟨x, hx⟩ := lookup_mem h1
    have hlt := List.idxOf_lt_length_of_mem h1
    have ha := after_idx L n
    have hcnt : ∀ e, [n].count e = if (names L).idxOf n = (names L).idxOf e then 1 else 0 := by
      intro e
      by_cases hne : n = e
      · subst hne; simp
      · rw [if_neg (fun hc => hne (idx_inj h1 hc))]
        simp [hne]
    have hmem : ∀ e, e ∈ (names L) → (names L).idxOf e < (names L).length := fun e he => List.idxOf_lt_length_of_mem he
    have hle : ∀ e, (names L).idxOf e ≤ (names L).length := fun e => List.idxOf_le_length
    intro e
    have h5 := hle e
    have h6 := hmem e
    cases left with
    | none =>
      simp only [Part.pull, hx, Option.map_some]
      cases hm : after L n with
      | none =>
        rw [hm, eq_comm, List.getElem?_eq_none_iff] at ha
        simp only [Option.toList_some, List.map_cons, List.map_nil, hcnt, Part.covers, Bool.toNat_false, toNat_decide]
        refine ⟨by split <;> split <;> omega, fun he => ?_⟩
        have := h6 he
        split <;> split <;> omega
      | some m =>
        rw [hm] at ha
        obtain ⟨i1, i2⟩ := idx_get h ha.symm
        simp only [Option.toList_some, List.map_cons, List.map_nil, hcnt, Part.covers, toNat_decide, i2]
        refine ⟨by split <;> split <;> split <;> omega, fun he => by split <;> split <;> split <;> omega⟩
    | some k =>
      cases k with
      | zero => simp [Part.pull, Part.covers]
      | succ k =>
        simp only [Part.pull, hx, Option.map_some]
        cases hm : after L n with
        | none =>
          rw [hm, eq_comm, List.getElem?_eq_none_iff] at ha
          simp only [Option.toList_some, List.map_cons, List.map_nil, hcnt, Part.covers, Bool.toNat_false, toNat_decide]
          refine ⟨by split <;> split <;> omega, fun he => ?_⟩
          have := h6 he
          split <;> split <;> omega
        | some m =>
          rw [hm] at ha
          obtain ⟨i1, i2⟩ := idx_get h ha.symm
          simp only [Option.toList_some, List.map_cons, List.map_nil, hcnt, Part.covers, toNat_decide, i2]
          refine ⟨by split <;> split <;> split <;> omega, fun he => by split <;> split <;> split <;> omega⟩

/-- What a call of the segmenter does to the counts. -/
theorem ask_count {L : List (Nat × A)} (h : (names L).Nodup) {step : Nat} {c : Cursor} (hf : Fits (names L) c) :
    Fits (names L) (c.ask L step).2 ∧ ∀ e, (c.ask L step).2.count (names L) e = c.count (names L) e := by
  have hlen := names_length L
  by_cases hend : L.length ≤ c.idx
  · simp [Cursor.ask, hend, hf]
  simp only [Cursor.ask, hend, if_false]
  cases hn : c.node with
  | none =>
    refine ⟨⟨by simp [ahead_none], ?_⟩, ?_⟩
    · intro p hp n hpn
      rcases List.mem_append.1 hp with hp | hp
      · exact hf.parts p hp n hpn
      · simp at hp; subst hp; simp at hpn
    · intro e
      simp only [Cursor.count, ahead_none, hn, List.countP_append]
      split <;> simp [Part.covers]
  | some n =>
    obtain ⟨h1, h2⟩ := hf.node n hn
    have ha := ahead_idx h step n h1
    by_cases hlast : L.length ≤ c.idx + step
    · have : ahead L step (some n) = none := by rw [ha, List.getElem?_eq_none_iff]; omega
      refine ⟨⟨by simp [this], ?_⟩, ?_⟩
      · intro p hp m hpm
        rcases List.mem_append.1 hp with hp | hp
        · exact hf.parts p hp m hpm
        · simp [hlast] at hp; subst hp; simp at hpm; subst hpm; simp [h1]
      · intro e
        simp only [Cursor.count, this, hn, hlast, if_true, List.countP_append, List.countP_singleton]
        simp [Part.covers]
        split <;> simp_all <;> omega
    · have hlt : (names L).idxOf n + step < (names L).length := by omega
      rw [List.getElem?_eq_getElem hlt] at ha
      obtain ⟨i1, i2⟩ := idx_get h (List.getElem?_eq_getElem hlt)
      refine ⟨⟨?_, ?_⟩, ?_⟩
      · intro m hm
        simp only [ha, Option.some.injEq] at hm
        subst hm
        exact ⟨i1, by rw [i2, h2]⟩
      · intro p hp m hpm
        rcases List.mem_append.1 hp with hp | hp
        · exact hf.parts p hp m hpm
        · simp [hlast] at hp; subst hp; simp at hpm; subst hpm
          refine ⟨h1, fun k hk => ?_⟩
          simp at hk; omega
      · intro e
        simp only [Cursor.count, ha, hn, hlast, if_false, List.countP_append, List.countP_singleton, Part.covers, i2, toNat_decide,
          decide_eq_true_eq]
        split <;> split <;> split <;> omega

/-- Where a history ends. -/
def specEnd (step : Nat) : List (Nat × A) → Cursor → List (Item A) → List (Nat × A) × Cursor
  | L, c, [] => (L, c)
  | _, c, .edit L' :: is => specEnd step L' c is
  | L, c, .ask :: is => specEnd step L (c.ask L step).2 is
  | L, c, .pull j :: is =>
    match c.parts[j]? with
    | none => specEnd step L c is
    | some p => specEnd step L { c with parts := c.parts.set j (p.pull L).2 } is

theorem set_split {A : Type} {xs : List A} {j : Nat} {x : A} (h : xs[j]? = some x) (y : A) :
    ∃ us vs, xs = us ++ x :: vs ∧ xs.set j y = us ++ y :: vs := by
  obtain ⟨hj, rfl⟩ := List.getElem?_eq_some_iff.1 h
  refine ⟨xs.take j, xs.drop (j + 1), by simp, ?_⟩
  rw [List.set_eq_take_append_cons_drop, if_pos hj]

theorem count_set {xs : List Nat} {c : Cursor} {j : Nat} {p q : Part} (h : c.parts[j]? = some p) (e : Nat) :
    Cursor.count xs e { c with parts := c.parts.set j q } + (Part.covers xs e p).toNat = c.count xs e + (Part.covers xs e q).toNat := by
  obtain ⟨us, vs, e1, e2⟩ := set_split h q
  have k1 : c.parts.countP (Part.covers xs e) = (us ++ p :: vs).countP (Part.covers xs e) := by rw [← e1]
  unfold Cursor.count
  simp only [e2, k1, List.countP_append, List.countP_cons]
  cases Part.covers xs e p <;> cases Part.covers xs e q <;> simp <;> omega

theorem delivered_elem {B : Type} (j : Nat) (o : Option B) (os : List (Out B)) : delivered (.elem j o :: os) = o.toList ++ delivered os := by
  cases o <;> rfl

theorem fits_set {xs : List Nat} {c : Cursor} (hf : Fits xs c) {j : Nat} {q : Part}
    (hq : ∀ n, q.node = some n → n ∈ xs ∧ ∀ k, q.left = some k → xs.idxOf n + k ≤ xs.length) :
    Fits xs { c with parts := c.parts.set j q } := by
  refine ⟨hf.node, fun p hp n hn => ?_⟩
  rcases List.mem_or_eq_of_mem_set hp with hp | rfl
  · exact hf.parts p hp n hn
  · exact hq n hn

/-- A segment that has nothing to deliver any more. -/
def Part.dead (p : Part) : Prop := p.node = none ∨ p.left = some 0

theorem Part.pull_dead {L : List (Nat × A)} {p : Part} (h : p.dead) : p.pull L = (none, p) := by
  obtain ⟨left, node⟩ := p
  rcases h with h | h <;> simp only at h <;> subst h
  · cases left with
    | none => rfl
    | some k => cases k <;> rfl
  · cases node <;> rfl

theorem Part.dead_covers {xs : List Nat} {e : Nat} {p : Part} (h : p.dead) : Part.covers xs e p = false := by
  obtain ⟨left, node⟩ := p
  rcases h with h | h <;> simp only at h <;> subst h
  · cases left <;> rfl
  · cases node with
    | none => rfl
    | some n => simp [Part.covers]

theorem count_start (xs : List Nat) (e : Nat) : Cursor.count xs e ⟨0, xs.head?, []⟩ ≤ 1 ∧
    (e ∈ xs → Cursor.count xs e ⟨0, xs.head?, []⟩ = 1) := by
  cases xs with
  | nil => simp [Cursor.count, Part.covers]
  | cons x xs => simp [Cursor.count, Part.covers]

theorem fits_start {xs : List Nat} : Fits xs ⟨0, xs.head?, []⟩ := by
  refine ⟨fun n hn => ?_, by simp⟩
  cases xs with
  | nil => simp at hn
  | cons x xs => simp at hn; subst hn; simp

theorem sub_idx {xs ys : List Nat} (h : xs <+ ys) (hy : ys.Nodup) : ∃ f : Nat → Nat, (∀ i k, f i + k ≤ f (i + k)) ∧
    ∀ n ∈ xs, n ∈ ys ∧ ys.idxOf n = f (xs.idxOf n) := by
  obtain ⟨f, hf⟩ := List.sublist_iff_exists_orderEmbedding_getElem?_eq.1 h
  refine ⟨f, fun i k => ?_, fun n hn => ?_⟩
  · induction k with
    | zero => simp
    | succ k ih =>
      have : f (i + k) < f (i + (k + 1)) := f.lt_iff_lt.2 (by omega)
      omega
  · have h1 := List.idxOf_lt_length_of_mem hn
    have h2 := hf (xs.idxOf n)
    rw [List.getElem?_eq_getElem h1, List.getElem_idxOf] at h2
    exact idx_get hy h2.symm

/-- Distances in the list only grow. -/
theorem sub_far {xs ys : List Nat} (h : xs <+ ys) (hy : ys.Nodup) {n m k : Nat} (hn : n ∈ xs) (hm : m ∈ xs)
    (hk : xs.idxOf n + k ≤ xs.idxOf m) : ys.idxOf n + k ≤ ys.idxOf m := by
  obtain ⟨f, h1, h2⟩ := sub_idx h hy
  rw [(h2 n hn).2, (h2 m hm).2]
  have e1 := h1 (xs.idxOf n) k
  have e2 := h1 (xs.idxOf n + k) (xs.idxOf m - (xs.idxOf n + k))
  rw [show xs.idxOf n + k + (xs.idxOf m - (xs.idxOf n + k)) = xs.idxOf m by omega] at e2
  omega

/-- The first one ends before the second one begins. -/
def Part.before (xs : List Nat) (p q : Part) : Prop :=
  ∀ n m, p.node = some n → q.node = some m → ∃ k, p.left = some k ∧ xs.idxOf n + k ≤ xs.idxOf m

/-- The segments and what is left for the segmenter. -/
def Cursor.all (c : Cursor) : List Part := c.parts ++ [⟨none, c.node⟩]

/-- The iterators stand in the list one after the other, the segmenter at its count or behind it. -/
structure Ordered (xs : List Nat) (c : Cursor) : Prop where
  far : ∀ n, c.node = some n → c.idx ≤ xs.idxOf n
  mem : ∀ p ∈ c.all, ∀ n, p.node = some n → n ∈ xs
  ord : c.all.Pairwise (Part.before xs)

theorem count_all (xs : List Nat) (e : Nat) (c : Cursor) : c.count xs e = c.all.countP (Part.covers xs e) := by
  simp only [Cursor.count, Cursor.all, List.countP_append, List.countP_singleton]
  cases Part.covers xs e ⟨none, c.node⟩ <;> simp <;> omega

theorem before_covers {xs : List Nat} {p q : Part} (h : p.before xs q) (e : Nat) (hp : p.covers xs e = true) : q.covers xs e = false := by
  obtain ⟨pl, pn⟩ := p
  obtain ⟨ql, qn⟩ := q
  cases pn with
  | none => cases pl <;> simp [Part.covers] at hp
  | some n =>
    cases qn with
    | none => cases ql <;> rfl
    | some m =>
      obtain ⟨k, rfl, hk⟩ := h n m rfl rfl
      simp only [Part.covers, decide_eq_true_eq] at hp
      cases ql <;> simp only [Part.covers, decide_eq_false_iff_not] <;> omega

theorem ordered_count {xs : List Nat} {c : Cursor} (h : Ordered xs c) (e : Nat) : c.count xs e ≤ 1 := by
  rw [count_all]
  have := h.ord
  generalize c.all = ps at this
  induction ps with
  | nil => simp
  | cons p ps ih =>
    obtain ⟨h1, h2⟩ := List.pairwise_cons.1 this
    rw [List.countP_cons]
    by_cases hp : p.covers xs e = true
    · rw [if_pos hp, List.countP_eq_zero.2 (fun q hq => by simp [before_covers (h1 q hq) e hp])]
    · rw [if_neg hp]
      exact ih h2

theorem ordered_sub {xs ys : List Nat} (hs : xs <+ ys) (hy : ys.Nodup) {c : Cursor} (h : Ordered xs c) :
    Ordered ys c ∧ ∀ e ∈ xs, c.count ys e ≤ c.count xs e := by
  refine ⟨⟨fun n hn => ?_, fun p hp n hn => hs.subset (h.mem p hp n hn), ?_⟩, fun e he => ?_⟩
  · obtain ⟨f, h1, h2⟩ := sub_idx hs hy
    rw [(h2 n (h.mem ⟨none, c.node⟩ (by simp [Cursor.all]) n hn)).2]
    have := h.far n hn
    have := h1 0 (xs.idxOf n)
    rw [Nat.zero_add] at this
    omega
  · refine h.ord.imp_of_mem fun {p q} hp hq hpq n m hn hm => ?_
    obtain ⟨k, h1, h2⟩ := hpq n m hn hm
    exact ⟨k, h1, sub_far hs hy (h.mem p hp n hn) (h.mem q hq m hm) h2⟩
  · rw [count_all, count_all]
    refine List.countP_mono_left fun p hp hc => ?_
    obtain ⟨left, node⟩ := p
    cases node with
    | none => cases left <;> simp [Part.covers] at hc
    | some n =>
      have hn := h.mem _ hp n rfl
      have k1 : ys.idxOf n ≤ ys.idxOf e → xs.idxOf n ≤ xs.idxOf e := by
        intro h1
        by_contra hc
        have := sub_far hs hy (k := 1) he hn (by omega)
        omega
      cases left with
      | none =>
        simp only [Part.covers, decide_eq_true_eq] at hc ⊢
        exact k1 hc
      | some k =>
        simp only [Part.covers, decide_eq_true_eq] at hc ⊢
        refine ⟨k1 hc.1, ?_⟩
        by_contra hk
        have := sub_far hs hy (k := k) hn he (by omega)
        omega

theorem pairwise_set {A : Type} {R : A → A → Prop} {xs : List A} (h : xs.Pairwise R) {j : Nat} {p q : A} (hj : xs[j]? = some p)
    (h1 : ∀ x, R p x → R q x) (h2 : ∀ x, R x p → R x q) : (xs.set j q).Pairwise R := by
  obtain ⟨us, vs, e1, e2⟩ := set_split hj q
  rw [e2]
  rw [e1] at h
  simp only [List.pairwise_append, List.pairwise_cons, List.mem_cons] at h ⊢
  obtain ⟨a1, ⟨a2, a3⟩, a4⟩ := h
  refine ⟨a1, ⟨fun x hx => h1 x (a2 x hx), a3⟩, fun x hx y hy => ?_⟩
  rcases hy with rfl | hy
  · exact h2 x (a4 x hx p (.inl rfl))
  · exact a4 x hx y (.inr hy)

theorem ordered_pull {L : List (Nat × A)} (h : (names L).Nodup) {c : Cursor} (ho : Ordered (names L) c) {j : Nat} {p : Part}
    (hp : c.parts[j]? = some p) : Ordered (names L) { c with parts := c.parts.set j (p.pull L).2 } := by
  have hj := (List.getElem?_eq_some_iff.1 hp).1
  have hall : Cursor.all { c with parts := c.parts.set j (p.pull L).2 } = c.all.set j (p.pull L).2 := by
    simp only [Cursor.all]
    rw [List.set_append_left _ _ hj]
  have hpa : c.all[j]? = some p := by
    rw [Cursor.all, List.getElem?_append_left hj, hp]
  have hpm : p ∈ c.all := List.mem_of_getElem? hpa
  have hplace := pull_place h (ho.mem p hpm)
  refine ⟨ho.far, fun q hq n hn => ?_, ?_⟩
  · rw [hall] at hq
    rcases List.mem_or_eq_of_mem_set hq with hq | rfl
    · exact ho.mem q hq n hn
    · rcases hplace with e | e | ⟨n', m, k1, k2, k3, k4, k5⟩
      · rw [e] at hn; exact ho.mem p hpm n hn
      · rw [e] at hn; simp at hn
      · rw [k2, Option.some.injEq] at hn; exact hn ▸ k3
  · rw [hall]
    refine pairwise_set ho.ord hpa (fun x hx n m hn hm => ?_) fun x hx n m hn hm => ?_
    · rcases hplace with e | e | ⟨n', m', k1, k2, k3, k4, k5⟩
      · rw [e] at hn ⊢; exact hx n m hn hm
      · rw [e] at hn; simp at hn
      · rw [k2, Option.some.injEq] at hn
        subst hn
        obtain ⟨k, r1, r2⟩ := hx n' m k1 hm
        rcases k5 with ⟨k5, -⟩ | ⟨i, k5, k6⟩
        · rw [k5] at r1; simp at r1
        · rw [k5, Option.some.injEq] at r1
          exact ⟨i, k6, by omega⟩
    · rcases hplace with e | e | ⟨n', m', k1, k2, k3, k4, k5⟩
      · rw [e] at hm; exact hx n m hn hm
      · rw [e] at hm; simp at hm
      · rw [k2, Option.some.injEq] at hm
        subst hm
        obtain ⟨k, r1, r2⟩ := hx n n' hn k1
        exact ⟨k, r1, by omega⟩

theorem ordered_ask {L : List (Nat × A)} (h : (names L).Nodup) {step : Nat} {c : Cursor} (ho : Ordered (names L) c) :
    Ordered (names L) (c.ask L step).2 ∧ ∀ e ∈ (names L), (c.ask L step).2.count (names L) e ≤ c.count (names L) e := by
  have hlen := names_length L
  by_cases hend : L.length ≤ c.idx
  · simp [Cursor.ask, hend, ho]
  simp only [Cursor.ask, hend, if_false]
  have hmem := ho.mem
  have hord := ho.ord
  simp only [Cursor.all, List.mem_append, List.mem_singleton, List.pairwise_append, List.pairwise_cons] at hmem hord
  cases hn : c.node with
  | none =>
    refine ⟨⟨by simp [ahead_none], ?_, ?_⟩, ?_⟩
    · simp only [Cursor.all, ahead_none]
      intro p hp n hpn
      simp only [List.mem_append, List.mem_singleton] at hp
      rcases hp with (hp | rfl) | rfl
      · exact hmem p (.inl hp) n hpn
      · simp at hpn
      · simp at hpn
    · simp only [Cursor.all, ahead_none, List.pairwise_append, List.mem_append, List.mem_singleton]
      refine ⟨⟨hord.1, by simp, ?_⟩, by simp, ?_⟩
      · rintro x hx y rfl n m - hm; simp at hm
      · rintro x hx y rfl n m - hm; simp at hm
    · intro e he
      simp only [Cursor.count, ahead_none, hn, List.countP_append]
      split <;> simp [Part.covers]
  | some n =>
    have h1 := hmem _ (.inr rfl) n hn
    have h2 := ho.far n hn
    have ha := ahead_idx h step n h1
    have old : ∀ p ∈ c.parts, ∀ i, p.node = some i → ∃ k, p.left = some k ∧ (names L).idxOf i + k ≤ (names L).idxOf n :=
      fun p hp i hi => hord.2.2 p hp ⟨none, c.node⟩ rfl i n hi hn
    have key : ∀ m, ahead L step (some n) = some m → m ∈ (names L) ∧ (names L).idxOf m = (names L).idxOf n + step ∧
        ¬ L.length ≤ c.idx + step := by
      intro m hm
      rw [hm] at ha
      obtain ⟨i1, i2⟩ := idx_get h ha.symm
      have := List.idxOf_lt_length_of_mem i1
      exact ⟨i1, i2, by omega⟩
    refine ⟨⟨?_, ?_, ?_⟩, ?_⟩
    · intro m hm
      have := key m hm
      show c.idx + step ≤ _
      omega
    · simp only [Cursor.all]
      intro p hp i hpi
      simp only [List.mem_append, List.mem_singleton] at hp
      rcases hp with (hp | rfl) | rfl
      · exact hmem p (.inl hp) i hpi
      · simp only [Option.some.injEq] at hpi; exact hpi ▸ h1
      · exact (key i hpi).1
    · simp only [Cursor.all, List.pairwise_append, List.mem_append, List.mem_singleton]
      refine ⟨⟨hord.1, by simp, ?_⟩, by simp, ?_⟩
      · rintro x hx y rfl i m hi hm
        simp only [Option.some.injEq] at hm
        subst hm
        exact old x hx i hi
      · rintro x (hx | rfl) y rfl i m hi hm
        · obtain ⟨k, r1, r2⟩ := old x hx i hi
          have := key m hm
          exact ⟨k, r1, by omega⟩
        · simp only [Option.some.injEq] at hi
          subst hi
          have := key m hm
          exact ⟨step, by simp [this.2.2], by omega⟩
    · intro e he
      have he' := List.idxOf_lt_length_of_mem he
      simp only [Cursor.count, hn, List.countP_append, List.countP_singleton]
      by_cases hlast : L.length ≤ c.idx + step
      · have : ahead L step (some n) = none := by
          cases hm : ahead L step (some n) with
          | none => rfl
          | some m => exact absurd hlast (key m hm).2.2
        simp only [this, hlast, if_true, Part.covers, Bool.toNat_false, toNat_decide, decide_eq_true_eq]
        omega
      · simp only [hlast, if_false]
        cases hm : ahead L step (some n) with
        | none =>
          simp only [Part.covers, Bool.toNat_false, toNat_decide, decide_eq_true_eq]
          split <;> split <;> omega
        | some m =>
          have := (key m hm).2.1
          simp only [Part.covers, toNat_decide, decide_eq_true_eq, this]
          split <;> split <;> split <;> omega


theorem Part.dead_of_end {L : List (Nat × A)} {p : Part} (hp : ∀ n, p.node = some n → n ∈ names L) (h : (p.pull L).1 = none) : p.dead := by
  obtain ⟨left, node⟩ := p
  cases node with
  | none => exact .inl rfl
  | some n =>
    obtain ⟨x, hx⟩ := lookup_mem (hp n rfl)
    cases left with
    | none => simp [Part.pull, hx] at h
    | some k => cases k with
      | zero => exact .inr rfl
      | succ k => simp [Part.pull, hx] at h

theorem appends_inserts {L L' : List (Nat × A)} (h : Appends L L') : Inserts L L' := ⟨h.1.sublist, h.2⟩

theorem edits_mono {R S : List (Nat × A) → List (Nat × A) → Prop} (hRS : ∀ L L', R L L' → S L L') : ∀ (is : List (Item A)) (L : List (Nat × A)),
    Edits R L is → Edits S L is := by
  intro is
  induction is with
  | nil => intro L _; trivial
  | cons i is ih =>
    intro L h
    cases i with
    | edit L' => exact ⟨hRS _ _ h.1, ih _ h.2⟩
    | ask => exact ih _ h
    | pull j => exact ih _ h

theorem specEnd_final (step : Nat) : ∀ (is : List (Item A)) (L : List (Nat × A)) (c : Cursor), (specEnd step L c is).1 = final L is := by
  intro is
  induction is with
  | nil => intro L c; rfl
  | cons i is ih =>
    intro L c
    cases i with
    | edit L' => exact ih _ _
    | ask => exact ih _ _
    | pull j =>
      simp only [specEnd, final]
      cases c.parts[j]? with
      | none => exact ih _ _
      | some p => exact ih _ _

theorem start_ordered (L : List (Nat × A)) : Ordered (names L) (Cursor.start L) := by
  refine ⟨fun _ _ => Nat.zero_le _, ?_, by simp [Cursor.all, Cursor.start]⟩
  simpa [Cursor.all, Cursor.start] using fun n hn => List.mem_of_head? hn

/-- What is delivered from here on is at most what is to be delivered now, and what is new is delivered at most once. -/
theorem split_bound (step : Nat) : ∀ (is : List (Item A)) (L : List (Nat × A)) (c : Cursor), (names L).Nodup →
    Ordered (names L) c → Edits Inserts L is →
    ∀ e, ((delivered (spec step L c is)).map Prod.fst).count e ≤ if e ∈ names L then c.count (names L) e else 1 := by
  intro is
  induction is with
  | nil => intro L c h ho _ e; simp [spec, delivered]
  | cons i is ih =>
    intro L c h hf hL e
    cases i with
    | edit L' =>
      obtain ⟨⟨h1, h2⟩, h3⟩ := hL
      obtain ⟨k1, k2⟩ := ordered_sub h1 h2 hf
      have e1 := ih L' c h2 k1 h3 e
      have e2 := ordered_count k1 e
      simp only [spec]
      by_cases he : e ∈ names L
      · rw [if_pos (h1.subset he)] at e1
        rw [if_pos he]
        exact e1.trans (k2 e he)
      · rw [if_neg he]
        refine e1.trans ?_
        split
        · exact e2
        · exact le_rfl
    | ask =>
      obtain ⟨h2, h3⟩ := ordered_ask h (step := step) hf
      refine (ih L _ h h2 hL e).trans ?_
      split
      · exact h3 e (by assumption)
      · exact le_rfl
    | pull j =>
      simp only [spec]
      cases hp : c.parts[j]? with
      | none => exact ih L c h hf hL e
      | some p =>
        have hpm : p ∈ c.all := by simp [Cursor.all, List.mem_of_getElem? hp]
        have e1 := ih L _ h (ordered_pull h hf hp) hL e
        have e2 := (pull_count h (hf.mem p hpm) e).1
        have e3 := count_set (xs := names L) (q := (p.pull L).2) hp e
        simp only [delivered_elem, List.map_append, List.count_append]
        by_cases he : e ∈ names L
        · rw [if_pos he] at e1 ⊢
          omega
        · rw [if_neg he] at e1 ⊢
          have : ((p.pull L).1.toList.map Prod.fst).count e = 0 := by
            rw [List.count_eq_zero]
            intro hc
            refine he ?_
            obtain ⟨left, node⟩ := p
            cases node with
            | none => cases left with
              | none => simp [Part.pull] at hc
              | some k => cases k <;> simp [Part.pull] at hc
            | some n =>
              have hn := hf.mem _ hpm n rfl
              obtain ⟨x, hx⟩ := lookup_mem hn
              cases left with
              | none => simp [Part.pull, hx] at hc; exact hc ▸ hn
              | some k => cases k with
                | zero => simp [Part.pull] at hc
                | succ k => simp [Part.pull, hx] at hc; exact hc ▸ hn
          omega

/-- Conservation: what is delivered from here on, and what is left in the end, is what was to be delivered. -/
theorem split_count (step : Nat) : ∀ (is : List (Item A)) (L : List (Nat × A)) (c : Cursor), (names L).Nodup →
    Fits (names L) c → Edits Appends L is →
    ∀ e ∈ names L, ((delivered (spec step L c is)).map Prod.fst).count e + (specEnd step L c is).2.count (names (specEnd step L c is).1) e =
      c.count (names L) e := by
  intro is
  induction is with
  | nil => intro L c h hf _ e _; simp [spec, specEnd, delivered]
  | cons i is ih =>
    intro L c h hf hL e he
    cases i with
    | edit L' =>
      obtain ⟨⟨⟨ys, hys⟩, h2⟩, h3⟩ := hL
      have := ih L' c h2 (hys ▸ fits_pre hf) h3 e (hys ▸ by simp [he])
      rw [← hys, count_pre hf] at this
      exact this
    | ask =>
      obtain ⟨h2, h3⟩ := ask_count h (step := step) hf
      have := ih L _ h h2 hL e he
      rw [h3 e] at this
      exact this
    | pull j =>
      simp only [spec, specEnd]
      cases hp : c.parts[j]? with
      | none => exact ih L c h hf hL e he
      | some p =>
        have hpp := hf.parts p (List.mem_of_getElem? hp)
        have e1 := ih L _ h (fits_set (j := j) hf (pull_fits h hpp)) hL e he
        have e2 := (pull_count h (fun n hn => (hpp n hn).1) e).2 he
        have e3 := count_set (xs := names L) (q := (p.pull L).2) hp e
        simp only [delivered_elem, List.map_append, List.count_append]
        omega

theorem part_ends (step : Nat) : ∀ (is : List (Item A)) (L : List (Nat × A)) (c : Cursor) (j : Nat), (names L).Nodup → Ordered (names L) c →
    Edits Inserts L is →
    ((∃ p, c.parts[j]? = some p ∧ p.dead) → ∃ p, (specEnd step L c is).2.parts[j]? = some p ∧ p.dead) ∧
    (.elem j none ∈ spec step L c is → ∃ p, (specEnd step L c is).2.parts[j]? = some p ∧ p.dead) ∧
    (specEnd step L c is).2.parts.length = c.parts.length + handed (spec step L c is) := by
  intro is
  induction is with
  | nil => intro L c j _ _ _; simp [spec, specEnd, handed]
  | cons i is ih =>
    intro L c j h ho hL
    cases i with
    | edit L' => exact ih L' c j hL.1.2 (ordered_sub hL.1.1 hL.1.2 ho).1 hL.2
    | ask =>
      obtain ⟨h1, h2, h3⟩ := ih L (c.ask L step).2 j h (ordered_ask h ho).1 hL
      by_cases hend : L.length ≤ c.idx
      · have e : c.ask L step = (false, c) := by simp [Cursor.ask, hend]
        simp only [spec, specEnd, e, List.mem_cons, reduceCtorEq, false_or, handed] at h1 h2 h3 ⊢
        exact ⟨h1, h2, h3⟩
      · have e : (c.ask L step).1 = true := by simp [Cursor.ask, hend]
        have e' : ∃ q, (c.ask L step).2.parts = c.parts ++ [q] := by simp [Cursor.ask, hend]
        obtain ⟨q, e'⟩ := e'
        simp only [spec, specEnd, e, List.mem_cons, reduceCtorEq, false_or, handed]
        refine ⟨fun ⟨p, hp, hd⟩ => h1 ⟨p, ?_, hd⟩, h2, ?_⟩
        · rw [e', List.getElem?_append_left (List.getElem?_eq_some_iff.1 hp).1, hp]
        · rw [h3, e']; simp; omega
    | pull k =>
      simp only [spec, specEnd]
      cases hp : c.parts[k]? with
      | none => exact ih L c j h ho hL
      | some p =>
        have hpm : p ∈ c.all := by simp [Cursor.all, List.mem_of_getElem? hp]
        obtain ⟨h1, h2, h3⟩ := ih L { c with parts := c.parts.set k (p.pull L).2 } j h (ordered_pull h ho hp) hL
        have dead : p.dead → (c.parts.set k (p.pull L).2)[k]? = some p := by
          intro hd
          rw [Part.pull_dead hd, List.getElem?_set_self (List.getElem?_eq_some_iff.1 hp).1]
        refine ⟨fun ⟨q, hq, hd⟩ => h1 ?_, fun hm => ?_, ?_⟩
        · by_cases hjk : k = j
          · subst hjk
            rw [hp] at hq
            cases hq
            exact ⟨p, dead hd, hd⟩
          · exact ⟨q, by simp only; rw [List.getElem?_set_ne hjk, hq], hd⟩
        · simp only [List.mem_cons, Out.elem.injEq] at hm
          rcases hm with ⟨rfl, hm⟩ | hm
          · have hd := Part.dead_of_end (ho.mem p hpm) hm.symm
            exact h1 ⟨p, dead hd, hd⟩
          · exact h2 hm
        · rw [h3]
          simp [handed]

theorem cursor_ends (step : Nat) : ∀ (is : List (Item A)) (L : List (Nat × A)) (c : Cursor), (names L).Nodup →
    Fits (names L) c → Edits Appends L is →
    (c.node = none → (specEnd step L c is).2.node = none) ∧
    (.part false ∈ spec step L c is → (specEnd step L c is).2.node = none) := by
  intro is
  induction is with
  | nil => intro L c _ _ _; simp [spec, specEnd]
  | cons i is ih =>
    intro L c h hf hL
    cases i with
    | edit L' =>
      obtain ⟨⟨⟨ys, hys⟩, h2⟩, h3⟩ := hL
      exact ih L' c h2 (hys ▸ fits_pre hf) h3
    | ask =>
      obtain ⟨r1, r2⟩ := ih L _ h (ask_count h (step := step) hf).1 hL
      have k : c.node = none → (c.ask L step).2.node = none := by
        intro hn
        simp only [Cursor.ask]
        split
        · exact hn
        · simp [hn, ahead_none]
      refine ⟨fun hn => r1 (k hn), fun hmem => ?_⟩
      simp only [spec, List.mem_cons, Out.part.injEq] at hmem
      rcases hmem with hmem | hmem
      · refine r1 (k ?_)
        by_contra hc
        obtain ⟨n, hn⟩ := Option.ne_none_iff_exists'.1 hc
        obtain ⟨i1, i2⟩ := hf.node n hn
        have := List.idxOf_lt_length_of_mem i1
        have := names_length L
        have : ¬ L.length ≤ c.idx := by omega
        simp [Cursor.ask, this] at hmem
      · exact r2 hmem
    | pull j =>
      simp only [spec, specEnd]
      cases hp : c.parts[j]? with
      | none => exact ih L c h hf hL
      | some p =>
        have hpp := hf.parts p (List.mem_of_getElem? hp)
        obtain ⟨r1, r2⟩ := ih L _ h (fits_set (j := j) hf (pull_fits h hpp)) hL
        refine ⟨r1, fun hmem => ?_⟩
        simp only [List.mem_cons, reduceCtorEq, false_or] at hmem
        exact r2 hmem

/-! ### What follows -/

/-- While elements are only inserted, at whatever places, no element is delivered twice. -/
theorem at_most_once (step : Nat) (L : List (Nat × A)) (hL : (names L).Nodup) (is : List (Item A)) (h : Edits Inserts L is) :
    ((delivered (spec step L (Cursor.start L) is)).map Prod.fst).Nodup := by
  rw [List.nodup_iff_count_le_one]
  intro e
  have := split_bound step is L _ hL (start_ordered L) h e
  have := ordered_count (start_ordered L) e
  split at * <;> omega

/-- While elements are only appended (in particular: if nothing is changed): once the segmenter and all its segments have reported their ends,
    everything that was in the sequence in the beginning has been delivered. -/
theorem all_once (step : Nat) (L : List (Nat × A)) (hL : (names L).Nodup) (is : List (Item A)) (h : Edits Appends L is)
    (h1 : .part false ∈ spec step L (Cursor.start L) is)
    (h2 : ∀ j < handed (spec step L (Cursor.start L) is), .elem j none ∈ spec step L (Cursor.start L) is) :
    ∀ e ∈ names L, e ∈ (delivered (spec step L (Cursor.start L) is)).map Prod.fst := by
  intro e he
  have k1 := split_count step is L (Cursor.start L) hL fits_start h e he
  have k2 := (count_start (names L) e).2 he
  obtain ⟨-, c2⟩ := cursor_ends step is L (Cursor.start L) hL fits_start h
  have hz : (specEnd step L (Cursor.start L) is).2.count (names (specEnd step L (Cursor.start L) is).1) e = 0 := by
    unfold Cursor.count
    rw [c2 h1]
    rw [show ∀ xs, Part.covers xs e ⟨none, none⟩ = false from fun _ => rfl, Bool.toNat_false, Nat.zero_add, List.countP_eq_zero]
    intro q hq
    obtain ⟨j, hj, hjq⟩ := List.mem_iff_getElem.1 hq
    obtain ⟨-, p2, p3⟩ := part_ends step is L (Cursor.start L) j hL (start_ordered L) (edits_mono (fun _ _ => appends_inserts) is L h)
    simp only [Cursor.start, List.length_nil, Nat.zero_add] at p3
    obtain ⟨q', e1, e2⟩ := p2 (h2 j (by simp only [Cursor.start]; simp only [Cursor.start] at hj; omega))
    rw [List.getElem?_eq_getElem hj, Option.some.injEq, hjq] at e1
    subst e1
    simp [Part.dead_covers e2]
  rw [hz] at k1
  simp only [Cursor.start] at k1 k2 ⊢
  exact List.count_pos_iff.1 (by omega)

/-- What does not change about the elements is delivered as it is in the end. -/
theorem delivered_image {B : Type} (g : Nat × A → B) (step : Nat) : ∀ (is : List (Item A)) (L : List (Nat × A)) (c : Cursor),
    Edits (fun L L' => L.map g ⊆ L'.map g) L is →
    (∀ x ∈ delivered (spec step L c is), g x ∈ (final L is).map g) ∧ L.map g ⊆ (final L is).map g := by
  intro is
  induction is with
  | nil => intro L c _; simp [spec, delivered, final]
  | cons i is ih =>
    intro L c h
    cases i with
    | edit L' =>
      obtain ⟨k1, k2⟩ := ih L' c h.2
      exact ⟨k1, fun x hx => k2 (h.1 hx)⟩
    | ask => exact ih L _ h
    | pull j =>
      simp only [spec, final]
      cases hp : c.parts[j]? with
      | none => exact ih L c h
      | some p =>
        obtain ⟨k1, k2⟩ := ih L { c with parts := c.parts.set j (p.pull L).2 } h
        refine ⟨fun x hx => ?_, k2⟩
        rw [delivered_elem] at hx
        rcases List.mem_append.1 hx with hx | hx
        · refine k2 (List.mem_map_of_mem ?_)
          have look : ∀ e, (L.lookup e).map (fun y => (e, y)) = some x → x ∈ L := by
            intro e he
            obtain ⟨y, hy, rfl⟩ := Option.map_eq_some_iff.1 he
            exact mem_of_lookup hy
          obtain ⟨left, node⟩ := p
          rw [Option.mem_toList] at hx
          cases node with
          | none => cases left with
            | none => simp [Part.pull] at hx
            | some k => cases k <;> simp [Part.pull] at hx
          | some n =>
            cases left with
            | none => exact look n hx
            | some k => cases k with
              | zero => simp [Part.pull] at hx
              | succ k => exact look n hx
        · exact k1 x hx

/-- If entries do not change either, what is delivered is a part of what is there in the end. -/
theorem delivered_final (step : Nat) : ∀ (is : List (Item A)) (L : List (Nat × A)) (c : Cursor),
    Edits (fun L L' => L.Sublist L') L is → (∀ x ∈ delivered (spec step L c is), x ∈ final L is) ∧ L.Sublist (final L is) := by
  intro is L c h
  refine ⟨?_, ?_⟩
  · have := (delivered_image id step is L c (edits_mono (fun L L' h => by simpa using h.subset) is L h)).1
    simpa using this
  · clear c
    induction is generalizing L with
    | nil => exact .refl _
    | cons i is ih =>
      cases i with
      | edit L' => exact h.1.trans (ih L' h.2)
      | ask => exact ih L h
      | pull j => exact ih L h

theorem final_nodup : ∀ (is : List (Item A)) (L : List (Nat × A)), (names L).Nodup → Edits Inserts L is → (names (final L is)).Nodup := by
  intro is
  induction is with
  | nil => intro L hL _; exact hL
  | cons i is ih =>
    intro L hL h
    cases i with
    | edit L' => exact ih L' h.1.2 h.2
    | ask => exact ih L hL h
    | pull j => exact ih L hL h

/-- Two different elements of a list related in both directions. -/
theorem pairwise_both {B : Type} {R : B → B → Prop} {xs : List B} (h : xs.Pairwise fun a b => R a b ∧ R b a) {a b : B} (ha : a ∈ xs) (hb : b ∈ xs)
    (hab : a ≠ b) : R a b := by
  induction xs with
  | nil => simp at ha
  | cons x xs ih =>
    obtain ⟨h1, h2⟩ := List.pairwise_cons.1 h
    rcases List.mem_cons.1 ha with rfl | ha'
    · rcases List.mem_cons.1 hb with rfl | hb'
      · exact absurd rfl hab
      · exact (h1 b hb').1
    · rcases List.mem_cons.1 hb with rfl | hb'
      · exact (h1 a ha').2
      · exact ih h2 ha' hb'

theorem delivered_forget (os : List (Out (Nat × A))) : delivered (os.map Out.forget) = (delivered os).map Prod.snd := by
  induction os with
  | nil => rfl
  | cons o os ih =>
    cases o with
    | part b => exact ih
    | elem j o =>
      cases o with
      | none => exact ih
      | some x => simp [delivered, Out.forget, ih]

theorem handed_forget (os : List (Out (Nat × A))) : handed (os.map Out.forget) = handed os := by
  induction os with
  | nil => rfl
  | cons o os ih =>
    cases o with
    | part b => cases b <;> simp [handed, Out.forget, ih]
    | elem j o => exact ih

theorem end_forget {j : Nat} {os : List (Out (Nat × A))} (h : .elem j none ∈ os.map Out.forget) : .elem j none ∈ os := by
  obtain ⟨o, ho, e⟩ := List.mem_map.1 h
  cases o with
  | part b => simp [Out.forget] at e
  | elem i x => cases x <;> simp [Out.forget] at e; subst e; exact ho

theorem part_forget {b : Bool} {os : List (Out (Nat × A))} (h : .part b ∈ os.map Out.forget) : .part b ∈ os := by
  obtain ⟨o, ho, e⟩ := List.mem_map.1 h
  cases o with
  | part b => simp [Out.forget] at e; subst e; exact ho
  | elem i x => simp [Out.forget] at e

/-! ### Lists of segments against their specifications -/

theorem forall₂_get {A B : Type} {R : A → B → Prop} {xs : List A} {ys : List B} (h : List.Forall₂ R xs ys) (j : Nat) :
    (xs[j]? = none ∧ ys[j]? = none) ∨ ∃ x y, xs[j]? = some x ∧ ys[j]? = some y ∧ R x y := by
  induction h generalizing j with
  | nil => simp
  | cons h1 _ ih =>
    cases j with
    | zero => simp [h1]
    | succ j => simpa using ih j

theorem forall₂_set {A B : Type} {R : A → B → Prop} {xs : List A} {ys : List B} (h : List.Forall₂ R xs ys) (j : Nat) {x : A} {y : B}
    (hxy : R x y) : List.Forall₂ R (xs.set j x) (ys.set j y) := by
  induction h generalizing j with
  | nil => simp
  | cons h1 h2 ih =>
    cases j with
    | zero => exact .cons hxy h2
    | succ j => exact .cons h1 (ih j)

theorem forall₂_snoc {A B : Type} {R : A → B → Prop} {xs : List A} {ys : List B} (h : List.Forall₂ R xs ys) {x : A} {y : B}
    (hxy : R x y) : List.Forall₂ R (xs ++ [x]) (ys ++ [y]) := by
  induction h with
  | nil => exact .cons hxy .nil
  | cons h1 _ ih => exact .cons h1 ih

end Gds.Segments
