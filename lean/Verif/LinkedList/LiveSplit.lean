import Verif.LinkedList.Live
import Mathlib.Data.List.NodupEquivFin

/-! C134: the segments of `SplitableIter` while the list is edited between the pulls. -/

namespace Gds.LinkedList
variable {T : Type}

/-! ### Model -/

/-- linkedlist.go:124-141 for parallelism > 0: `step` was computed when the segmenter was made, `l.len` is read at every call. -/
def splitAt (s : St T) (l : Nat) (step : Int) : Iter.Next (Int × Option Nat) SegIter := fun (idx, node) =>
  if idx ≥ s.len l then .ok (none, (idx, node))
  else
    let i := idx
    let idx := idx + step
    let n := node
    let node := advance s step.toNat node
    if i + step ≥ s.len l then .ok (some (.rest n), (idx, node))
    else .ok (some (.step step n), (idx, node))

/-- `splitAt` is `splitNext` with the step fixed. -/
theorem splitNext_eq (s : St T) (l : Nat) {p : Int} (hp : 0 < p) : splitNext s l p = splitAt s l (Int.tdiv (s.len l) p) := by
  have : ¬ p ≤ 0 := by omega
  funext ⟨idx, node⟩
  simp only [splitNext, splitAt, if_neg this]

/-- What the goroutine does: an operation on any list, a call of the segmenter, a pull of the segment it got as number `j`. -/
inductive SItem (T : Type) where
  | op (o : Op T)
  | ask
  | pull (j : Nat)

/-- What it sees: whether there was another segment; what the segment `j` delivered (`none`: its end). -/
inductive SOut (A : Type) where
  | part (given : Bool)
  | elem (j : Nat) (o : Option A)

/-- The calls of a history. -/
def opsOf : List (SItem T) → List (Op T)
  | [] => []
  | .op o :: is => o :: opsOf is
  | _ :: is => opsOf is

/-- The results of a segmenter of linkedlist.go:105-142 (captured `idx` and `node` in `c`) and of its segments `gs` (84-103) while operations
    run between the calls. -/
def liveSplit (z : T) (l : Nat) (step : Int) : St T → Int × Option Nat → List SegIter → List (SItem T) → Res (List (SOut T))
  | _, _, _, [] => .ok []
  | s, c, gs, .op o :: is => do
    let r ← LinkedList.step z s o
    liveSplit z l step r.1 c gs is
  | s, c, gs, .ask :: is => do
    let r ← splitAt s l step c
    match r.1 with
    | some g => do
      let os ← liveSplit z l step s r.2 (gs ++ [g]) is
      pure (.part true :: os)
    | none => do
      let os ← liveSplit z l step s r.2 gs is
      pure (.part false :: os)
  | s, c, gs, .pull j :: is =>
    match gs[j]? with
    | none => liveSplit z l step s c gs is
    | some g => do
      let r ← segNext s l g
      let os ← liveSplit z l step s c (gs.set j r.2) is
      pure (.elem j r.1 :: os)

/-! ### Specification -/

/-- The element after `e` in the list `e` is in now; none if it is in no list. -/
def Abs.after (a : Abs T) (e : Nat) : Option Nat := (a.owner e).bind fun l => following e (a.seq l)

/-- `k` elements further. -/
def Abs.ahead (a : Abs T) : Nat → Option Nat → Option Nat
  | 0, n => n
  | _ + 1, none => none
  | k + 1, some e => a.ahead k (a.after e)

/-- A segment: the element it delivers next, and how many it delivers at most (`none`: all up to the end). -/
structure Part where
  left : Option Nat
  node : Option Nat

/-- The segmenter: how many elements it has handed out, and where the next segment starts; the segments handed out. -/
structure Cursor where
  idx : Nat
  node : Option Nat
  parts : List Part

/-- A pull of a segment delivers the element chosen by the pull before, and chooses the one that follows it now. -/
def Part.pull (a : Abs T) : Part → Option (Nat × T) × Part
  | ⟨none, some e⟩ => (some (e, a.value e), ⟨none, a.after e⟩)
  | ⟨some (k + 1), some e⟩ => (some (e, a.value e), ⟨some k, a.after e⟩)
  | p => (none, p)

/-- A call of the segmenter. -/
def Cursor.ask (a : Abs T) (l step : Nat) (c : Cursor) : Bool × Cursor :=
  if (a.seq l).length ≤ c.idx then (false, c)
  else (true, { idx := c.idx + step, node := a.ahead step c.node,
                parts := c.parts ++ [⟨if (a.seq l).length ≤ c.idx + step then none else some step, c.node⟩] })

/-- The outcomes of a history, with the names of the elements delivered. -/
def specSplit (z : T) (l step : Nat) : Abs T → Cursor → List (SItem T) → List (SOut (Nat × T))
  | _, _, [] => []
  | a, c, .op o :: is => specSplit z l step (specStep z a o).1 c is
  | a, c, .ask :: is => .part (c.ask a l step).1 :: specSplit z l step a (c.ask a l step).2 is
  | a, c, .pull j :: is =>
    match c.parts[j]? with
    | none => specSplit z l step a c is
    | some p => .elem j (p.pull a).1 :: specSplit z l step a { c with parts := c.parts.set j (p.pull a).2 } is

/-- The operations are legal, and the element an iterator is to deliver next has not been cleared away when it is asked. -/
def LegalSplit (z : T) (l step : Nat) : Abs T → Cursor → List (SItem T) → Prop
  | _, _, [] => True
  | a, c, .op o :: is => Legal a o ∧ LegalSplit z l step (specStep z a o).1 c is
  | a, c, .ask :: is => (∀ e, c.node = some e → Legal a (.next e)) ∧ LegalSplit z l step a (c.ask a l step).2 is
  | a, c, .pull j :: is =>
    match c.parts[j]? with
    | none => LegalSplit z l step a c is
    | some p => (∀ e, p.node = some e → Legal a (.next e)) ∧ LegalSplit z l step a { c with parts := c.parts.set j (p.pull a).2 } is

/-- Without the names. -/
def SOut.forget : SOut (Nat × T) → SOut T
  | .part b => .part b
  | .elem j o => .elem j (o.map Prod.snd)

/-- The elements delivered. -/
def delivered : List (SOut (Nat × T)) → List Nat
  | [] => []
  | .elem _ (some x) :: os => x.1 :: delivered os
  | _ :: os => delivered os

/-- The number of segments handed out. -/
def handed : List (SOut (Nat × T)) → Nat
  | [] => 0
  | .part true :: os => handed os + 1
  | _ :: os => handed os

/-- The operation does nothing to `l` but append. -/
def appends (l : Nat) : Op T → Bool
  | .pushFront k _ | .insertBefore k _ _ | .insertAfter k _ _ | .remove k _ | .moveToFront k _ | .moveToBack k _ | .moveBefore k _ _
  | .moveAfter k _ _ | .pushFrontList k _ | .clear k | .init k => k != l
  | _ => true

/-- The operation takes nothing out of `l` and moves nothing in it. -/
def inserts (l : Nat) : Op T → Bool
  | .remove k _ | .moveToFront k _ | .moveToBack k _ | .moveBefore k _ _ | .moveAfter k _ _ | .clear k | .init k => k != l
  | _ => true

/-! ### Refinement -/

theorem next_refines {s : St T} {a : Abs T} (h : Inv s a) {e : Nat} (he : Legal a (.next e)) : next s e = a.after e := by
  obtain ⟨s', h1, -⟩ := step_refines (a.value 0) h (.next e) he
  simp only [step, specStep, Res.ok.injEq, Prod.mk.injEq, Out.ptr.injEq] at h1
  exact h1.2

theorem after_mem {s : St T} {a : Abs T} (h : Inv s a) {e f : Nat} (he : a.after e = some f) : ∃ l, f ∈ a.seq l := by
  unfold Abs.after at he
  cases ho : a.owner e with
  | none => simp [ho] at he
  | some l =>
    rw [ho, Option.bind_some] at he
    refine ⟨l, ?_⟩
    have key : ∀ xs : List Nat, following e xs = some f → f ∈ xs := by
      intro xs
      induction xs with
      | nil => simp [following]
      | cons x xs ih =>
        rw [following]
        split
        · intro hx
          exact List.mem_cons_of_mem _ (List.mem_of_head? hx)
        · intro hx; exact List.mem_cons_of_mem _ (ih hx)
    exact key _ he

theorem legal_next {s : St T} {a : Abs T} (h : Inv s a) {l e : Nat} (he : e ∈ a.seq l) : Legal a (.next e) :=
  ⟨(h.mem l e he).2.1, (h.mem l e he).2.2.1, (h.mem l e he).2.2.2.1⟩

theorem ahead_refines {s : St T} {a : Abs T} (h : Inv s a) : ∀ (k : Nat) (n : Option Nat), (∀ e, n = some e → Legal a (.next e)) →
    advance s k n = a.ahead k n := by
  intro k
  induction k with
  | zero => intro n _; rfl
  | succ k ih =>
    intro n hn
    cases n with
    | none => rfl
    | some e =>
      rw [advance, Abs.ahead, next_refines h (hn e rfl)]
      refine ih _ fun f hf => ?_
      obtain ⟨l, hl⟩ := after_mem h hf
      exact legal_next h hl

/-- The captured variables of a segment against its specification. -/
def SegRel : SegIter → Part → Prop
  | .rest n, ⟨none, m⟩ => n = m
  | .step k n, ⟨some j, m⟩ => n = m ∧ (m ≠ none → k.toNat = j)
  | _, _ => False

theorem pull_refines {s : St T} {a : Abs T} (h : Inv s a) {l : Nat} {g : SegIter} {p : Part} (hr : SegRel g p)
    (hp : ∀ e, p.node = some e → Legal a (.next e)) :
    ∃ g', segNext s l g = .ok ((p.pull a).1.map Prod.snd, g') ∧ SegRel g' (p.pull a).2 := by
  obtain ⟨left, node⟩ := p
  cases g with
  | whole n => simp [SegRel] at hr
  | rest n =>
    cases left with
    | some j => simp [SegRel] at hr
    | none =>
      simp only [SegRel] at hr
      subst hr
      cases n with
      | none => exact ⟨_, rfl, rfl⟩
      | some e => exact ⟨_, by simp [segNext, Part.pull, h.val e]; rfl, by simpa [SegRel, Part.pull] using next_refines h (hp e rfl)⟩
  | step k n =>
    cases left with
    | none => simp [SegRel] at hr
    | some j =>
      simp only [SegRel] at hr
      obtain ⟨rfl, hk⟩ := hr
      cases n with
      | none => exact ⟨.step (k - 1) none, by cases j <;> simp [segNext, Part.pull], by
          cases j <;> simp [Part.pull, SegRel]⟩
      | some e =>
        have hk := hk (by simp)
        cases j with
        | zero =>
          have : ¬ 0 < k := by omega
          exact ⟨.step (k - 1) (some e), by simp [segNext, Part.pull, this], by simp [Part.pull, SegRel]; omega⟩
        | succ j =>
          have : 0 < k := by omega
          exact ⟨.step (k - 1) (next s e), by simp [segNext, Part.pull, this, h.val e],
            by simp [Part.pull, SegRel, next_refines h (hp e rfl)]; omega⟩

theorem forall₂_get {A B : Type} {R : A → B → Prop} {xs : List A} {ys : List B} (h : List.Forall₂ R xs ys) (j : Nat) :
    (xs[j]? = none ∧ ys[j]? = none) ∨ ∃ x y, xs[j]? = some x ∧ ys[j]? = some y ∧ R x y := by
  induction h generalizing j with
  | nil => simp
  | cons h1 _ ih =>
    cases j with
    | zero => simp [h1]
    | succ j => simpa using ih j

theorem forall₂_set {A B : Type} {R : A → B → Prop} {xs : List A} {ys : List B} (h : List.Forall₂ R xs ys) (j : Nat) {x : A} {y : B}
    (hxy : R x y) : List.Forall₂ R (xs.set j x) (ys.set j y) := by
  induction h generalizing j with
  | nil => simp
  | cons h1 h2 ih =>
    cases j with
    | zero => exact .cons hxy h2
    | succ j => exact .cons h1 (ih j)

theorem forall₂_snoc {A B : Type} {R : A → B → Prop} {xs : List A} {ys : List B} (h : List.Forall₂ R xs ys) {x : A} {y : B}
    (hxy : R x y) : List.Forall₂ R (xs ++ [x]) (ys ++ [y]) := by
  induction h with
  | nil => exact .cons hxy .nil
  | cons h1 _ ih => exact .cons h1 ih

theorem liveSplit_refines_inv (z : T) (l step : Nat) : ∀ (is : List (SItem T)) (s : St T) (a : Abs T) (c : Cursor) (gs : List SegIter), Inv s a →
    a.isList l = true → List.Forall₂ SegRel gs c.parts → LegalSplit z l step a c is →
    liveSplit z l (step : Int) s ((c.idx : Int), c.node) gs is = .ok ((specSplit z l step a c is).map SOut.forget) := by
  intro is
  induction is with
  | nil => intro s a c gs _ _ _ _; rfl
  | cons i is ih =>
    intro s a c gs h hl hR hL
    cases i with
    | op o =>
      obtain ⟨h2, h3⟩ := hL
      obtain ⟨s', e, h'⟩ := step_refines z h o h2
      simp only [liveSplit, e, Res.bind_ok, specSplit]
      exact ih s' _ c gs h' (isList_step hl o) hR h3
    | ask =>
      obtain ⟨h2, h3⟩ := hL
      have hlen := (h.lst l hl).2.2
      have ha := ahead_refines h step c.node h2
      simp only [liveSplit, splitAt, hlen, specSplit]
      by_cases hend : (a.seq l).length ≤ c.idx
      · have e1 : ((c.idx : Int) ≥ ((a.seq l).length : Int)) := by omega
        have e2 : c.ask a l step = (false, c) := by simp [Cursor.ask, hend]
        rw [e2] at h3
        simp only [e1, if_true, Res.bind_ok, e2, ih s a c gs h hl hR h3]
        rfl
      · have e1 : ¬ ((c.idx : Int) ≥ ((a.seq l).length : Int)) := by omega
        simp only [e1, if_false, Int.toNat_natCast, ha]
        simp only [Cursor.ask, hend, if_false] at h3 ⊢
        by_cases hlast : (a.seq l).length ≤ c.idx + step
        · have e3 : ((c.idx : Int) + (step : Int) ≥ ((a.seq l).length : Int)) := by omega
          simp only [hlast, if_true] at h3 ⊢
          simp only [e3, if_true, Res.bind_ok]
          have := ih s a _ (gs ++ [.rest c.node]) h hl (forall₂_snoc hR (by simp [SegRel])) h3
          simp only [Int.natCast_add] at this
          rw [this]
          rfl
        · have e3 : ¬ ((c.idx : Int) + (step : Int) ≥ ((a.seq l).length : Int)) := by omega
          simp only [hlast, if_false] at h3 ⊢
          simp only [e3, if_false, Res.bind_ok]
          have := ih s a _ (gs ++ [.step (step : Int) c.node]) h hl (forall₂_snoc hR (by simp [SegRel])) h3
          simp only [Int.natCast_add] at this
          rw [this]
          rfl
    | pull j =>
      simp only [LegalSplit] at hL
      simp only [liveSplit, specSplit]
      rcases forall₂_get hR j with ⟨e1, e2⟩ | ⟨g, p, e1, e2, hr⟩
      · rw [e2] at hL
        simp only [e1, e2]
        exact ih s a c gs h hl hR hL
      · rw [e2] at hL
        obtain ⟨h2, h3⟩ := hL
        obtain ⟨g', e3, hr'⟩ := pull_refines h (l := l) hr h2
        simp only [e1, e2, e3, Res.bind_ok]
        have := ih s a _ (gs.set j g') h hl (forall₂_set hR j hr') h3
        simp only at this
        rw [this]
        rfl

/-! ### Appending -/

theorem appends_prefix {z : T} {a : Abs T} {l : Nat} {o : Op T} (ho : appends l o = true) : a.seq l <+: (specStep z a o).1.seq l := by
  cases o with
  | pushBack k v =>
    simp only [specStep, Abs.touch, Abs.setSeq, Abs.alloc]
    split
    · subst_vars; exact List.prefix_append _ _
    · exact List.prefix_rfl
  | pushBackList k o =>
    simp only [specStep, Abs.touch, Abs.setSeq, Abs.alloc]
    split
    · subst_vars; exact List.prefix_append _ _
    · exact List.prefix_rfl
  | newList | zeroList | setValue | len | front | back | next | prev | value | toSlice =>
    simp [specStep, Abs.addList, Abs.alloc]
  | pushFront k v | insertBefore k v m | insertAfter k v m | remove k e | moveToFront k e | moveToBack k e | moveBefore k e m
  | moveAfter k e m | pushFrontList k o | clear k | init k =>
    have : l ≠ k := by
      intro e; subst e; simp [appends] at ho
    simp only [specStep]
    (try split) <;> simp [Abs.setSeq, Abs.touch, Abs.alloc, this]

/-- `e` is still to be delivered by the segment. -/
def Part.covers (xs : List Nat) (e : Nat) : Part → Bool
  | ⟨none, some n⟩ => decide (xs.idxOf n ≤ xs.idxOf e)
  | ⟨some k, some n⟩ => decide (xs.idxOf n ≤ xs.idxOf e ∧ xs.idxOf e < xs.idxOf n + k)
  | _ => false

/-- How many are going to deliver `e`. -/
def Cursor.count (xs : List Nat) (e : Nat) (c : Cursor) : Nat :=
  (Part.covers xs e ⟨none, c.node⟩).toNat + c.parts.countP (Part.covers xs e)

/-- The iterators stand in the list. -/
structure Fits (xs : List Nat) (c : Cursor) : Prop where
  node : ∀ n, c.node = some n → n ∈ xs ∧ xs.idxOf n = c.idx
  parts : ∀ p ∈ c.parts, ∀ n, p.node = some n → n ∈ xs ∧ ∀ k, p.left = some k → xs.idxOf n + k ≤ xs.length

theorem idxOf_pre {xs ys : List Nat} {n : Nat} (h : n ∈ xs) : (xs ++ ys).idxOf n = xs.idxOf n := by
  rw [List.idxOf_append, if_pos h]

theorem covers_pre {xs ys : List Nat} {p : Part} (hp : ∀ n, p.node = some n → n ∈ xs ∧ ∀ k, p.left = some k → xs.idxOf n + k ≤ xs.length)
    (e : Nat) : Part.covers (xs ++ ys) e p = Part.covers xs e p := by
  obtain ⟨left, node⟩ := p
  cases node with
  | none => cases left <;> rfl
  | some n =>
    obtain ⟨h1, h2⟩ := hp n rfl
    have hn := List.idxOf_lt_length_of_mem h1
    by_cases he : e ∈ xs
    · cases left <;> simp [Part.covers, idxOf_pre h1, idxOf_pre he]
    · have e1 : xs.idxOf e = xs.length := List.idxOf_eq_length he
      have e2 : (xs ++ ys).idxOf e ≥ xs.length := by rw [List.idxOf_append, if_neg he]; omega
      cases left with
      | none => simp only [Part.covers, idxOf_pre h1, e1, decide_eq_decide]; omega
      | some k =>
        have := h2 k rfl
        simp only [Part.covers, idxOf_pre h1, e1, decide_eq_decide]; omega

theorem count_pre {xs ys : List Nat} {c : Cursor} (h : Fits xs c) (e : Nat) : c.count (xs ++ ys) e = c.count xs e := by
  unfold Cursor.count
  rw [covers_pre (p := ⟨none, c.node⟩) (fun n hn => ⟨(h.node n hn).1, by simp⟩)]
  congr 1
  exact List.countP_congr fun p hp => by rw [covers_pre (h.parts p hp)]

theorem fits_pre {xs ys : List Nat} {c : Cursor} (h : Fits xs c) : Fits (xs ++ ys) c := by
  refine ⟨fun n hn => ?_, fun p hp n hn => ?_⟩
  · obtain ⟨h1, h2⟩ := h.node n hn
    exact ⟨by simp [h1], by rw [idxOf_pre h1, h2]⟩
  · obtain ⟨h1, h2⟩ := h.parts p hp n hn
    refine ⟨by simp [h1], fun k hk => ?_⟩
    rw [idxOf_pre h1, List.length_append]
    have := h2 k hk
    omega

theorem after_idx {s : St T} {a : Abs T} (h : Inv s a) {l n : Nat} (hn : n ∈ a.seq l) :
    a.after n = (a.seq l)[(a.seq l).idxOf n + 1]? := by
  obtain ⟨p, q, e, hp, -, -⟩ := split_at (h.nodup l) hn
  rw [Abs.after, inv_owner h hn, Option.bind_some, e, following_split hp]
  have : (p ++ n :: q).idxOf n = p.length := by
    rw [List.idxOf_append, if_neg hp]; simp
  rw [this, List.getElem?_append_right (by omega)]
  simp [List.head?_eq_getElem?]

theorem toNat_decide (p : Prop) [Decidable p] : (decide p).toNat = if p then 1 else 0 := by by_cases h : p <;> simp [h]

theorem idx_get {xs : List Nat} (hn : xs.Nodup) {i m : Nat} (h : xs[i]? = some m) : m ∈ xs ∧ xs.idxOf m = i := by
  obtain ⟨hi, rfl⟩ := List.getElem?_eq_some_iff.1 h
  exact ⟨by simp, by rw [hn.idxOf_getElem]⟩

theorem ahead_idx {s : St T} {a : Abs T} (h : Inv s a) {l : Nat} : ∀ (k n : Nat), n ∈ a.seq l →
    a.ahead k (some n) = (a.seq l)[(a.seq l).idxOf n + k]? := by
  intro k
  induction k with
  | zero => intro n hn; simp [Abs.ahead, List.getElem?_eq_getElem (List.idxOf_lt_length_of_mem hn)]
  | succ k ih =>
    intro n hn
    rw [Abs.ahead, after_idx h hn]
    cases hm : (a.seq l)[(a.seq l).idxOf n + 1]? with
    | none =>
      have hn1 : a.ahead k none = none := by cases k <;> rfl
      rw [hn1, eq_comm, List.getElem?_eq_none_iff]
      rw [List.getElem?_eq_none_iff] at hm
      omega
    | some m =>
      obtain ⟨h1, h2⟩ := idx_get (h.nodup l) hm
      rw [ih m h1, h2]
      congr 1
      omega

theorem ahead_none (a : Abs T) (k : Nat) : a.ahead k none = none := by cases k <;> rfl

theorem idx_inj {xs : List Nat} {e f : Nat} (he : e ∈ xs) (h : xs.idxOf e = xs.idxOf f) : e = f :=
  (List.idxOf_inj he).1 h

/-- What one pull does to the place of a segment. -/
theorem pull_place {s : St T} {a : Abs T} (h : Inv s a) {l : Nat} {p : Part} (hp : ∀ n, p.node = some n → n ∈ a.seq l) :
    (p.pull a).2 = p ∨ (p.pull a).2.node = none ∨ ∃ n m, p.node = some n ∧ (p.pull a).2.node = some m ∧ m ∈ a.seq l ∧
      (a.seq l).idxOf m = (a.seq l).idxOf n + 1 ∧ ((p.left = none ∧ (p.pull a).2.left = none) ∨ ∃ k, p.left = some (k + 1) ∧ (p.pull a).2.left = some k) := by
  obtain ⟨left, node⟩ := p
  cases node with
  | none => left; cases left with
    | none => rfl
    | some k => cases k <;> rfl
  | some n =>
    have ha := after_idx h (hp n rfl)
    cases left with
    | none =>
      right
      cases hm : a.after n with
      | none => exact .inl hm
      | some m =>
        rw [hm] at ha
        obtain ⟨i1, i2⟩ := idx_get (h.nodup l) ha.symm
        exact .inr ⟨n, m, rfl, hm, i1, i2, .inl ⟨rfl, rfl⟩⟩
    | some k =>
      cases k with
      | zero => exact .inl rfl
      | succ k =>
        right
        cases hm : a.after n with
        | none => exact .inl hm
        | some m =>
          rw [hm] at ha
          obtain ⟨i1, i2⟩ := idx_get (h.nodup l) ha.symm
          exact .inr ⟨n, m, rfl, hm, i1, i2, .inr ⟨k, rfl, rfl⟩⟩

theorem pull_fits {s : St T} {a : Abs T} (h : Inv s a) {l : Nat} {p : Part}
    (hp : ∀ n, p.node = some n → n ∈ a.seq l ∧ ∀ k, p.left = some k → (a.seq l).idxOf n + k ≤ (a.seq l).length) :
    ∀ n, (p.pull a).2.node = some n → n ∈ a.seq l ∧ ∀ k, (p.pull a).2.left = some k → (a.seq l).idxOf n + k ≤ (a.seq l).length := by
  intro n' hn'
  rcases pull_place h (fun n hn => (hp n hn).1) with e | e | ⟨n, m, h1, h2, h3, h4, h5⟩
  · rw [e] at hn' ⊢; exact hp n' hn'
  · rw [e] at hn'; simp at hn'
  · rw [h2, Option.some.injEq] at hn'
    subst hn'
    refine ⟨h3, fun k hk => ?_⟩
    rcases h5 with ⟨-, h5⟩ | ⟨k', h5, h6⟩
    · rw [h5] at hk; simp at hk
    · rw [h6, Option.some.injEq] at hk
      have := (hp n h1).2 _ h5
      omega

/-- What one pull does to the count of one segment. -/
theorem pull_count {s : St T} {a : Abs T} (h : Inv s a) {l : Nat} {p : Part} (hp : ∀ n, p.node = some n → n ∈ a.seq l) :
    ∀ e, let d := ((p.pull a).1.toList.map Prod.fst).count e + (Part.covers (a.seq l) e (p.pull a).2).toNat
      d ≤ (Part.covers (a.seq l) e p).toNat ∧ (e ∈ a.seq l → d = (Part.covers (a.seq l) e p).toNat) := by
  obtain ⟨left, node⟩ := p
  cases node with
  | none => cases left with
    | none => simp [Part.pull, Part.covers]
    | some k => cases k <;> simp [Part.pull, Part.covers]
  | some n =>
    have h1 := hp n rfl
    have hlt := List.idxOf_lt_length_of_mem h1
    have ha := after_idx h h1
    have hcnt : ∀ e, [n].count e = if (a.seq l).idxOf n = (a.seq l).idxOf e then 1 else 0 := by
      intro e
      by_cases hne : n = e
      · subst hne; simp
      · rw [if_neg (fun hc => hne (idx_inj h1 hc))]
        simp [hne]
    have hmem : ∀ e, e ∈ a.seq l → (a.seq l).idxOf e < (a.seq l).length := fun e he => List.idxOf_lt_length_of_mem he
    have hle : ∀ e, (a.seq l).idxOf e ≤ (a.seq l).length := fun e => List.idxOf_le_length
    intro e
    have h5 := hle e
    have h6 := hmem e
    cases left with
    | none =>
      simp only [Part.pull]
      cases hm : a.after n with
      | none =>
        rw [hm, eq_comm, List.getElem?_eq_none_iff] at ha
        simp only [Option.toList_some, List.map_cons, List.map_nil, hcnt, Part.covers, Bool.toNat_false, toNat_decide]
        refine ⟨by split <;> split <;> omega, fun he => ?_⟩
        have := h6 he
        split <;> split <;> omega
      | some m =>
        rw [hm] at ha
        obtain ⟨i1, i2⟩ := idx_get (h.nodup l) ha.symm
        simp only [Option.toList_some, List.map_cons, List.map_nil, hcnt, Part.covers, toNat_decide, i2]
        refine ⟨by split <;> split <;> split <;> omega, fun he => by split <;> split <;> split <;> omega⟩
    | some k =>
      cases k with
      | zero => simp [Part.pull, Part.covers]
      | succ k =>
        simp only [Part.pull]
        cases hm : a.after n with
        | none =>
          rw [hm, eq_comm, List.getElem?_eq_none_iff] at ha
          simp only [Option.toList_some, List.map_cons, List.map_nil, hcnt, Part.covers, Bool.toNat_false, toNat_decide]
          refine ⟨by split <;> split <;> omega, fun he => ?_⟩
          have := h6 he
          split <;> split <;> omega
        | some m =>
          rw [hm] at ha
          obtain ⟨i1, i2⟩ := idx_get (h.nodup l) ha.symm
          simp only [Option.toList_some, List.map_cons, List.map_nil, hcnt, Part.covers, toNat_decide, i2]
          refine ⟨by split <;> split <;> split <;> omega, fun he => by split <;> split <;> split <;> omega⟩

/-- What a call of the segmenter does to the counts. -/
theorem ask_count {s : St T} {a : Abs T} (h : Inv s a) {l step : Nat} {c : Cursor} (hf : Fits (a.seq l) c) :
    Fits (a.seq l) (c.ask a l step).2 ∧ ∀ e, (c.ask a l step).2.count (a.seq l) e = c.count (a.seq l) e := by
  by_cases hend : (a.seq l).length ≤ c.idx
  · simp [Cursor.ask, hend, hf]
  simp only [Cursor.ask, hend, if_false]
  cases hn : c.node with
  | none =>
    refine ⟨⟨by simp [ahead_none], ?_⟩, ?_⟩
    · intro p hp n hpn
      rcases List.mem_append.1 hp with hp | hp
      · exact hf.parts p hp n hpn
      · simp at hp; subst hp; simp at hpn
    · intro e
      simp only [Cursor.count, ahead_none, hn, List.countP_append]
      split <;> simp [Part.covers]
  | some n =>
    obtain ⟨h1, h2⟩ := hf.node n hn
    have ha := ahead_idx h step n h1
    by_cases hlast : (a.seq l).length ≤ c.idx + step
    · have : a.ahead step (some n) = none := by rw [ha, List.getElem?_eq_none_iff]; omega
      refine ⟨⟨by simp [this], ?_⟩, ?_⟩
      · intro p hp m hpm
        rcases List.mem_append.1 hp with hp | hp
        · exact hf.parts p hp m hpm
        · simp [hlast] at hp; subst hp; simp at hpm; subst hpm; simp [h1]
      · intro e
        simp only [Cursor.count, this, hn, hlast, if_true, List.countP_append, List.countP_singleton]
        simp [Part.covers]
        split <;> simp_all <;> omega
    · have hlt : (a.seq l).idxOf n + step < (a.seq l).length := by omega
      rw [List.getElem?_eq_getElem hlt] at ha
      obtain ⟨i1, i2⟩ := idx_get (h.nodup l) (List.getElem?_eq_getElem hlt)
      refine ⟨⟨?_, ?_⟩, ?_⟩
      · intro m hm
        simp only [ha, Option.some.injEq] at hm
        subst hm
        exact ⟨i1, by rw [i2, h2]⟩
      · intro p hp m hpm
        rcases List.mem_append.1 hp with hp | hp
        · exact hf.parts p hp m hpm
        · simp [hlast] at hp; subst hp; simp at hpm; subst hpm
          refine ⟨h1, fun k hk => ?_⟩
          simp at hk; omega
      · intro e
        simp only [Cursor.count, ha, hn, hlast, if_false, List.countP_append, List.countP_singleton, Part.covers, i2, toNat_decide,
          decide_eq_true_eq]
        split <;> split <;> split <;> omega

/-- Where a history ends. -/
def specEnd (z : T) (l step : Nat) : Abs T → Cursor → List (SItem T) → Abs T × Cursor
  | a, c, [] => (a, c)
  | a, c, .op o :: is => specEnd z l step (specStep z a o).1 c is
  | a, c, .ask :: is => specEnd z l step a (c.ask a l step).2 is
  | a, c, .pull j :: is =>
    match c.parts[j]? with
    | none => specEnd z l step a c is
    | some p => specEnd z l step a { c with parts := c.parts.set j (p.pull a).2 } is

theorem set_split {A : Type} {xs : List A} {j : Nat} {x : A} (h : xs[j]? = some x) (y : A) :
    ∃ us vs, xs = us ++ x :: vs ∧ xs.set j y = us ++ y :: vs := by
  obtain ⟨hj, rfl⟩ := List.getElem?_eq_some_iff.1 h
  refine ⟨xs.take j, xs.drop (j + 1), by simp, ?_⟩
  rw [List.set_eq_take_append_cons_drop, if_pos hj]

theorem count_set {xs : List Nat} {c : Cursor} {j : Nat} {p q : Part} (h : c.parts[j]? = some p) (e : Nat) :
    Cursor.count xs e { c with parts := c.parts.set j q } + (Part.covers xs e p).toNat = c.count xs e + (Part.covers xs e q).toNat := by
  obtain ⟨us, vs, e1, e2⟩ := set_split h q
  have k1 : c.parts.countP (Part.covers xs e) = (us ++ p :: vs).countP (Part.covers xs e) := by rw [← e1]
  unfold Cursor.count
  simp only [e2, k1, List.countP_append, List.countP_cons]
  cases Part.covers xs e p <;> cases Part.covers xs e q <;> simp <;> omega

theorem delivered_elem (j : Nat) (o : Option (Nat × T)) (os : List (SOut (Nat × T))) :
    delivered (.elem j o :: os) = o.toList.map Prod.fst ++ delivered os := by
  cases o <;> rfl

theorem fits_set {xs : List Nat} {c : Cursor} (hf : Fits xs c) {j : Nat} {q : Part}
    (hq : ∀ n, q.node = some n → n ∈ xs ∧ ∀ k, q.left = some k → xs.idxOf n + k ≤ xs.length) :
    Fits xs { c with parts := c.parts.set j q } := by
  refine ⟨hf.node, fun p hp n hn => ?_⟩
  rcases List.mem_or_eq_of_mem_set hp with hp | rfl
  · exact hf.parts p hp n hn
  · exact hq n hn

/-- Conservation: what is delivered from here on, and what is left in the end, is what was to be delivered. -/
theorem split_count (z : T) (l step : Nat) : ∀ (is : List (SItem T)) (s : St T) (a : Abs T) (c : Cursor), Inv s a → a.isList l = true →
    Fits (a.seq l) c → LegalHist z a (opsOf is) → (∀ o, .op o ∈ is → appends l o = true) →
    LegalSplit z l step a c is ∧ (a.seq l <+: (specEnd z l step a c is).1.seq l) ∧
      Fits ((specEnd z l step a c is).1.seq l) (specEnd z l step a c is).2 ∧ ∀ e,
      let d := (delivered (specSplit z l step a c is)).count e + (specEnd z l step a c is).2.count ((specEnd z l step a c is).1.seq l) e
      d ≤ c.count (a.seq l) e ∧ (e ∈ a.seq l → d = c.count (a.seq l) e) := by
  intro is
  induction is with
  | nil => intro s a c h hl hf _ _; exact ⟨trivial, List.prefix_rfl, hf, fun e => ⟨by simp [specSplit, specEnd, delivered], by simp [specSplit, specEnd, delivered]⟩⟩
  | cons i is ih =>
    intro s a c h hl hf hL hm
    cases i with
    | op o =>
      obtain ⟨h2, h3⟩ := hL
      obtain ⟨s', -, h'⟩ := step_refines z h o h2
      have hpre := appends_prefix (z := z) (a := a) (hm o (by simp))
      obtain ⟨ys, hys⟩ := hpre
      obtain ⟨r0, r1, r2, r3⟩ := ih s' _ c h' (isList_step hl o) (hys ▸ fits_pre hf) h3 fun o ho => hm o (by simp [ho])
      refine ⟨⟨h2, r0⟩, (List.prefix_append _ ys).trans (hys ▸ r1), r2, fun e => ?_⟩
      have := r3 e
      rw [← hys, count_pre hf] at this
      exact ⟨this.1, fun he => this.2 (by simp [he])⟩
    | ask =>
      obtain ⟨h2, h3⟩ := ask_count h (step := step) hf
      obtain ⟨r0, r1, r2, r3⟩ := ih s a _ h hl h2 hL fun o ho => hm o (by simp [ho])
      refine ⟨⟨fun e he => legal_next h (hf.node e he).1, r0⟩, r1, r2, fun e => ?_⟩
      have := r3 e
      rw [h3 e] at this
      exact this
    | pull j =>
      simp only [LegalSplit, specSplit, specEnd]
      cases hp : c.parts[j]? with
      | none => exact ih s a c h hl hf hL fun o ho => hm o (by simp [ho])
      | some p =>
        have hpp := hf.parts p (List.mem_of_getElem? hp)
        have h2 := pull_fits h hpp
        have h3 := pull_count h fun n hn => (hpp n hn).1
        obtain ⟨r0, r1, r2, r3⟩ := ih s a _ h hl (fits_set (j := j) hf h2) hL fun o ho => hm o (by simp [ho])
        refine ⟨⟨fun e he => legal_next h (hpp e he).1, r0⟩, r1, r2, fun e => ?_⟩
        have e1 := r3 e
        have e2 := h3 e
        have e3 := count_set (xs := a.seq l) (q := (p.pull a).2) hp e
        simp only [delivered_elem, List.count_append]
        simp only at e1 e2
        refine ⟨by omega, fun he => ?_⟩
        have := e1.2 he
        have := e2.2 he
        omega

/-- A segment that has nothing to deliver any more. -/
def Part.dead (p : Part) : Prop := p.node = none ∨ p.left = some 0

theorem Part.pull_dead {a : Abs T} {p : Part} (h : p.dead) : p.pull a = (none, p) := by
  obtain ⟨left, node⟩ := p
  rcases h with h | h <;> simp only at h <;> subst h
  · cases left with
    | none => rfl
    | some k => cases k <;> rfl
  · cases node <;> rfl

theorem Part.dead_of_end {a : Abs T} {p : Part} (h : (p.pull a).1 = none) : p.dead := by
  obtain ⟨left, node⟩ := p
  cases node with
  | none => exact .inl rfl
  | some n =>
    cases left with
    | none => simp [Part.pull] at h
    | some k => cases k with
      | zero => exact .inr rfl
      | succ k => simp [Part.pull] at h

theorem Part.dead_covers {xs : List Nat} {e : Nat} {p : Part} (h : p.dead) : Part.covers xs e p = false := by
  obtain ⟨left, node⟩ := p
  rcases h with h | h <;> simp only at h <;> subst h
  · cases left <;> rfl
  · cases node with
    | none => rfl
    | some n => simp [Part.covers]

theorem part_ends (z : T) (l step : Nat) : ∀ (is : List (SItem T)) (a : Abs T) (c : Cursor) (j : Nat),
    ((∃ p, c.parts[j]? = some p ∧ p.dead) → ∃ p, (specEnd z l step a c is).2.parts[j]? = some p ∧ p.dead) ∧
    (.elem j none ∈ specSplit z l step a c is → ∃ p, (specEnd z l step a c is).2.parts[j]? = some p ∧ p.dead) ∧
    (specEnd z l step a c is).2.parts.length = c.parts.length + handed (specSplit z l step a c is) := by
  intro is
  induction is with
  | nil => intro a c j; simp [specSplit, specEnd, handed]
  | cons i is ih =>
    intro a c j
    cases i with
    | op o => exact ih _ c j
    | ask =>
      obtain ⟨h1, h2, h3⟩ := ih a (c.ask a l step).2 j
      by_cases hend : (a.seq l).length ≤ c.idx
      · have e : c.ask a l step = (false, c) := by simp [Cursor.ask, hend]
        simp only [specSplit, specEnd, e, List.mem_cons, reduceCtorEq, false_or, handed] at h1 h2 h3 ⊢
        exact ⟨h1, h2, h3⟩
      · have e : (c.ask a l step).1 = true := by simp [Cursor.ask, hend]
        have e' : ∃ q, (c.ask a l step).2.parts = c.parts ++ [q] := by simp [Cursor.ask, hend]
        obtain ⟨q, e'⟩ := e'
        simp only [specSplit, specEnd, e, List.mem_cons, reduceCtorEq, false_or, handed]
        refine ⟨fun ⟨p, hp, hd⟩ => h1 ⟨p, ?_, hd⟩, h2, ?_⟩
        · rw [e', List.getElem?_append_left (List.getElem?_eq_some_iff.1 hp).1, hp]
        · rw [h3, e']; simp; omega
    | pull k =>
      simp only [specSplit, specEnd]
      cases hp : c.parts[k]? with
      | none => exact ih a c j
      | some p =>
        obtain ⟨h1, h2, h3⟩ := ih a { c with parts := c.parts.set k (p.pull a).2 } j
        have dead : p.dead → (c.parts.set k (p.pull a).2)[k]? = some p := by
          intro hd
          rw [Part.pull_dead hd, List.getElem?_set_self (List.getElem?_eq_some_iff.1 hp).1]
        refine ⟨fun ⟨q, hq, hd⟩ => h1 ?_, fun hm => ?_, ?_⟩
        · by_cases hjk : k = j
          · subst hjk
            rw [hp] at hq
            cases hq
            exact ⟨p, dead hd, hd⟩
          · exact ⟨q, by simp only; rw [List.getElem?_set_ne hjk, hq], hd⟩
        · simp only [List.mem_cons, SOut.elem.injEq] at hm
          rcases hm with ⟨rfl, hm⟩ | hm
          · exact h1 ⟨p, dead (Part.dead_of_end hm.symm), Part.dead_of_end hm.symm⟩
          · exact h2 hm
        · rw [h3]
          simp [handed]

theorem cursor_ends (z : T) (l step : Nat) : ∀ (is : List (SItem T)) (s : St T) (a : Abs T) (c : Cursor), Inv s a → a.isList l = true →
    Fits (a.seq l) c → LegalHist z a (opsOf is) → (∀ o, .op o ∈ is → appends l o = true) →
    (c.node = none → (specEnd z l step a c is).2.node = none) ∧
    (.part false ∈ specSplit z l step a c is → (specEnd z l step a c is).2.node = none) := by
  intro is
  induction is with
  | nil => intro s a c _ _ _ _ _; simp [specSplit, specEnd]
  | cons i is ih =>
    intro s a c h hl hf hL hm
    cases i with
    | op o =>
      obtain ⟨h2, h3⟩ := hL
      obtain ⟨s', -, h'⟩ := step_refines z h o h2
      obtain ⟨ys, hys⟩ := appends_prefix (z := z) (a := a) (hm o (by simp))
      exact ih s' _ c h' (isList_step hl o) (hys ▸ fits_pre hf) h3 fun o ho => hm o (by simp [ho])
    | ask =>
      obtain ⟨r1, r2⟩ := ih s a _ h hl (ask_count h (step := step) hf).1 hL fun o ho => hm o (by simp [ho])
      have k : c.node = none → (c.ask a l step).2.node = none := by
        intro hn
        simp only [Cursor.ask]
        split
        · exact hn
        · simp [hn, ahead_none]
      refine ⟨fun hn => r1 (k hn), fun hmem => ?_⟩
      simp only [specSplit, List.mem_cons, SOut.part.injEq] at hmem
      rcases hmem with hmem | hmem
      · refine r1 (k ?_)
        by_contra hc
        obtain ⟨n, hn⟩ := Option.ne_none_iff_exists'.1 hc
        obtain ⟨i1, i2⟩ := hf.node n hn
        have := List.idxOf_lt_length_of_mem i1
        have : ¬ (a.seq l).length ≤ c.idx := by omega
        simp [Cursor.ask, this] at hmem
      · exact r2 hmem
    | pull j =>
      simp only [specSplit, specEnd]
      cases hp : c.parts[j]? with
      | none => exact ih s a c h hl hf hL fun o ho => hm o (by simp [ho])
      | some p =>
        have hpp := hf.parts p (List.mem_of_getElem? hp)
        have h2 := pull_fits h hpp
        obtain ⟨r1, r2⟩ := ih s a _ h hl (fits_set (j := j) hf h2) hL fun o ho => hm o (by simp [ho])
        refine ⟨r1, fun hmem => ?_⟩
        simp only [List.mem_cons, reduceCtorEq, false_or] at hmem
        exact r2 hmem

theorem count_start (xs : List Nat) (e : Nat) : Cursor.count xs e ⟨0, xs.head?, []⟩ ≤ 1 ∧
    (e ∈ xs → Cursor.count xs e ⟨0, xs.head?, []⟩ = 1) := by
  cases xs with
  | nil => simp [Cursor.count, Part.covers]
  | cons x xs => simp [Cursor.count, Part.covers]

theorem fits_start {xs : List Nat} : Fits xs ⟨0, xs.head?, []⟩ := by
  refine ⟨fun n hn => ?_, by simp⟩
  cases xs with
  | nil => simp at hn
  | cons x xs => simp at hn; subst hn; simp

/-! ### Inserting -/

open scoped List

theorem putBefore_sub (m e : Nat) : ∀ xs : List Nat, xs <+ putBefore m e xs := by
  intro xs
  induction xs with
  | nil => exact .slnil
  | cons x xs ih =>
    rw [putBefore]
    split
    · exact .cons _ (List.Sublist.refl _)
    · exact ih.cons₂ _

theorem putAfter_sub (m e : Nat) : ∀ xs : List Nat, xs <+ putAfter m e xs := by
  intro xs
  induction xs with
  | nil => exact .slnil
  | cons x xs ih =>
    rw [putAfter]
    split
    · exact (List.Sublist.cons _ (List.Sublist.refl _)).cons₂ _
    · exact ih.cons₂ _

theorem inserts_sub {z : T} {a : Abs T} {l : Nat} {o : Op T} (ho : inserts l o = true) : a.seq l <+ (specStep z a o).1.seq l := by
  cases o with
  | pushBack k v | pushBackList k o =>
    simp only [specStep, Abs.touch, Abs.setSeq, Abs.alloc]
    split
    · subst_vars; exact List.sublist_append_left _ _
    · exact List.Sublist.refl _
  | pushFront k v =>
    simp only [specStep, Abs.touch, Abs.setSeq, Abs.alloc]
    split
    · subst_vars; exact List.sublist_cons_self _ _
    · exact List.Sublist.refl _
  | pushFrontList k o =>
    simp only [specStep, Abs.touch, Abs.setSeq, Abs.alloc]
    split
    · subst_vars; exact List.sublist_append_right _ _
    · exact List.Sublist.refl _
  | insertBefore k v m =>
    simp only [specStep]
    split
    · simp only [Abs.setSeq, Abs.alloc]
      split
      · subst_vars; exact putBefore_sub _ _ _
      · exact List.Sublist.refl _
    · exact List.Sublist.refl _
  | insertAfter k v m =>
    simp only [specStep]
    split
    · simp only [Abs.setSeq, Abs.alloc]
      split
      · subst_vars; exact putAfter_sub _ _ _
      · exact List.Sublist.refl _
    · exact List.Sublist.refl _
  | newList | zeroList | setValue | len | front | back | next | prev | value | toSlice =>
    simp [specStep, Abs.addList, Abs.alloc]
  | remove k e | moveToFront k e | moveToBack k e | moveBefore k e m | moveAfter k e m | clear k | init k =>
    have : l ≠ k := by
      intro e; subst e; simp [inserts] at ho
    simp only [specStep]
    (try split) <;> simp [Abs.setSeq, this]

theorem sub_idx {xs ys : List Nat} (h : xs <+ ys) (hy : ys.Nodup) : ∃ f : Nat → Nat, (∀ i k, f i + k ≤ f (i + k)) ∧
    ∀ n ∈ xs, n ∈ ys ∧ ys.idxOf n = f (xs.idxOf n) := by
  obtain ⟨f, hf⟩ := List.sublist_iff_exists_orderEmbedding_getElem?_eq.1 h
  refine ⟨f, fun i k => ?_, fun n hn => ?_⟩
  · induction k with
    | zero => simp
    | succ k ih =>
      have : f (i + k) < f (i + (k + 1)) := f.lt_iff_lt.2 (by omega)
      omega
  · have h1 := List.idxOf_lt_length_of_mem hn
    have h2 := hf (xs.idxOf n)
    rw [List.getElem?_eq_getElem h1, List.getElem_idxOf] at h2
    exact idx_get hy h2.symm

/-- Distances in the list only grow. -/
theorem sub_far {xs ys : List Nat} (h : xs <+ ys) (hy : ys.Nodup) {n m k : Nat} (hn : n ∈ xs) (hm : m ∈ xs)
    (hk : xs.idxOf n + k ≤ xs.idxOf m) : ys.idxOf n + k ≤ ys.idxOf m := by
  obtain ⟨f, h1, h2⟩ := sub_idx h hy
  rw [(h2 n hn).2, (h2 m hm).2]
  have e1 := h1 (xs.idxOf n) k
  have e2 := h1 (xs.idxOf n + k) (xs.idxOf m - (xs.idxOf n + k))
  rw [show xs.idxOf n + k + (xs.idxOf m - (xs.idxOf n + k)) = xs.idxOf m by omega] at e2
  omega

/-- The first one ends before the second one begins. -/
def Part.before (xs : List Nat) (p q : Part) : Prop :=
  ∀ n m, p.node = some n → q.node = some m → ∃ k, p.left = some k ∧ xs.idxOf n + k ≤ xs.idxOf m

/-- The segments and what is left for the segmenter. -/
def Cursor.all (c : Cursor) : List Part := c.parts ++ [⟨none, c.node⟩]

/-- The iterators stand in the list one after the other, the segmenter at its count or behind it. -/
structure Ordered (xs : List Nat) (c : Cursor) : Prop where
  far : ∀ n, c.node = some n → c.idx ≤ xs.idxOf n
  mem : ∀ p ∈ c.all, ∀ n, p.node = some n → n ∈ xs
  ord : c.all.Pairwise (Part.before xs)

theorem count_all (xs : List Nat) (e : Nat) (c : Cursor) : c.count xs e = c.all.countP (Part.covers xs e) := by
  simp only [Cursor.count, Cursor.all, List.countP_append, List.countP_singleton]
  cases Part.covers xs e ⟨none, c.node⟩ <;> simp <;> omega

theorem before_covers {xs : List Nat} {p q : Part} (h : p.before xs q) (e : Nat) (hp : p.covers xs e = true) : q.covers xs e = false := by
  obtain ⟨pl, pn⟩ := p
  obtain ⟨ql, qn⟩ := q
  cases pn with
  | none => cases pl <;> simp [Part.covers] at hp
  | some n =>
    cases qn with
    | none => cases ql <;> rfl
    | some m =>
      obtain ⟨k, rfl, hk⟩ := h n m rfl rfl
      simp only [Part.covers, decide_eq_true_eq] at hp
      cases ql <;> simp only [Part.covers, decide_eq_false_iff_not] <;> omega

theorem ordered_count {xs : List Nat} {c : Cursor} (h : Ordered xs c) (e : Nat) : c.count xs e ≤ 1 := by
  rw [count_all]
  have := h.ord
  generalize c.all = ps at this
  induction ps with
  | nil => simp
  | cons p ps ih =>
    obtain ⟨h1, h2⟩ := List.pairwise_cons.1 this
    rw [List.countP_cons]
    by_cases hp : p.covers xs e = true
    · rw [if_pos hp, List.countP_eq_zero.2 (fun q hq => by simp [before_covers (h1 q hq) e hp])]
    · rw [if_neg hp]
      exact ih h2

theorem ordered_sub {xs ys : List Nat} (hs : xs <+ ys) (hy : ys.Nodup) {c : Cursor} (h : Ordered xs c) :
    Ordered ys c ∧ ∀ e ∈ xs, c.count ys e ≤ c.count xs e := by
  refine ⟨⟨fun n hn => ?_, fun p hp n hn => hs.subset (h.mem p hp n hn), ?_⟩, fun e he => ?_⟩
  · obtain ⟨f, h1, h2⟩ := sub_idx hs hy
    rw [(h2 n (h.mem ⟨none, c.node⟩ (by simp [Cursor.all]) n hn)).2]
    have := h.far n hn
    have := h1 0 (xs.idxOf n)
    rw [Nat.zero_add] at this
    omega
  · refine h.ord.imp_of_mem fun {p q} hp hq hpq n m hn hm => ?_
    obtain ⟨k, h1, h2⟩ := hpq n m hn hm
    exact ⟨k, h1, sub_far hs hy (h.mem p hp n hn) (h.mem q hq m hm) h2⟩
  · rw [count_all, count_all]
    refine List.countP_mono_left fun p hp hc => ?_
    obtain ⟨left, node⟩ := p
    cases node with
    | none => cases left <;> simp [Part.covers] at hc
    | some n =>
      have hn := h.mem _ hp n rfl
      have k1 : ys.idxOf n ≤ ys.idxOf e → xs.idxOf n ≤ xs.idxOf e := by
        intro h1
        by_contra hc
        have := sub_far hs hy (k := 1) he hn (by omega)
        omega
      cases left with
      | none =>
        simp only [Part.covers, decide_eq_true_eq] at hc ⊢
        exact k1 hc
      | some k =>
        simp only [Part.covers, decide_eq_true_eq] at hc ⊢
        refine ⟨k1 hc.1, ?_⟩
        by_contra hk
        have := sub_far hs hy (k := k) hn he (by omega)
        omega

theorem pairwise_set {A : Type} {R : A → A → Prop} {xs : List A} (h : xs.Pairwise R) {j : Nat} {p q : A} (hj : xs[j]? = some p)
    (h1 : ∀ x, R p x → R q x) (h2 : ∀ x, R x p → R x q) : (xs.set j q).Pairwise R := by
  obtain ⟨us, vs, e1, e2⟩ := set_split hj q
  rw [e2]
  rw [e1] at h
  simp only [List.pairwise_append, List.pairwise_cons, List.mem_cons] at h ⊢
  obtain ⟨a1, ⟨a2, a3⟩, a4⟩ := h
  refine ⟨a1, ⟨fun x hx => h1 x (a2 x hx), a3⟩, fun x hx y hy => ?_⟩
  rcases hy with rfl | hy
  · exact h2 x (a4 x hx p (.inl rfl))
  · exact a4 x hx y (.inr hy)

theorem ordered_pull {s : St T} {a : Abs T} (h : Inv s a) {l : Nat} {c : Cursor} (ho : Ordered (a.seq l) c) {j : Nat} {p : Part}
    (hp : c.parts[j]? = some p) : Ordered (a.seq l) { c with parts := c.parts.set j (p.pull a).2 } := by
  have hj := (List.getElem?_eq_some_iff.1 hp).1
  have hall : Cursor.all { c with parts := c.parts.set j (p.pull a).2 } = c.all.set j (p.pull a).2 := by
    simp only [Cursor.all]
    rw [List.set_append_left _ _ hj]
  have hpa : c.all[j]? = some p := by
    rw [Cursor.all, List.getElem?_append_left hj, hp]
  have hpm : p ∈ c.all := List.mem_of_getElem? hpa
  have hplace := pull_place h (ho.mem p hpm)
  refine ⟨ho.far, fun q hq n hn => ?_, ?_⟩
  · rw [hall] at hq
    rcases List.mem_or_eq_of_mem_set hq with hq | rfl
    · exact ho.mem q hq n hn
    · rcases hplace with e | e | ⟨n', m, k1, k2, k3, k4, k5⟩
      · rw [e] at hn; exact ho.mem p hpm n hn
      · rw [e] at hn; simp at hn
      · rw [k2, Option.some.injEq] at hn; exact hn ▸ k3
  · rw [hall]
    refine pairwise_set ho.ord hpa (fun x hx n m hn hm => ?_) fun x hx n m hn hm => ?_
    · rcases hplace with e | e | ⟨n', m', k1, k2, k3, k4, k5⟩
      · rw [e] at hn ⊢; exact hx n m hn hm
      · rw [e] at hn; simp at hn
      · rw [k2, Option.some.injEq] at hn
        subst hn
        obtain ⟨k, r1, r2⟩ := hx n' m k1 hm
        rcases k5 with ⟨k5, -⟩ | ⟨i, k5, k6⟩
        · rw [k5] at r1; simp at r1
        · rw [k5, Option.some.injEq] at r1
          exact ⟨i, k6, by omega⟩
    · rcases hplace with e | e | ⟨n', m', k1, k2, k3, k4, k5⟩
      · rw [e] at hm; exact hx n m hn hm
      · rw [e] at hm; simp at hm
      · rw [k2, Option.some.injEq] at hm
        subst hm
        obtain ⟨k, r1, r2⟩ := hx n n' hn k1
        exact ⟨k, r1, by omega⟩

theorem ordered_ask {s : St T} {a : Abs T} (h : Inv s a) {l step : Nat} {c : Cursor} (ho : Ordered (a.seq l) c) :
    Ordered (a.seq l) (c.ask a l step).2 ∧ ∀ e ∈ a.seq l, (c.ask a l step).2.count (a.seq l) e ≤ c.count (a.seq l) e := by
  by_cases hend : (a.seq l).length ≤ c.idx
  · simp [Cursor.ask, hend, ho]
  simp only [Cursor.ask, hend, if_false]
  have hmem := ho.mem
  have hord := ho.ord
  simp only [Cursor.all, List.mem_append, List.mem_singleton, List.pairwise_append, List.pairwise_cons] at hmem hord
  cases hn : c.node with
  | none =>
    refine ⟨⟨by simp [ahead_none], ?_, ?_⟩, ?_⟩
    · simp only [Cursor.all, ahead_none]
      intro p hp n hpn
      simp only [List.mem_append, List.mem_singleton] at hp
      rcases hp with (hp | rfl) | rfl
      · exact hmem p (.inl hp) n hpn
      · simp at hpn
      · simp at hpn
    · simp only [Cursor.all, ahead_none, List.pairwise_append, List.mem_append, List.mem_singleton]
      refine ⟨⟨hord.1, by simp, ?_⟩, by simp, ?_⟩
      · rintro x hx y rfl n m - hm; simp at hm
      · rintro x hx y rfl n m - hm; simp at hm
    · intro e he
      simp only [Cursor.count, ahead_none, hn, List.countP_append]
      split <;> simp [Part.covers]
  | some n =>
    have h1 := hmem _ (.inr rfl) n hn
    have h2 := ho.far n hn
    have ha := ahead_idx h step n h1
    have old : ∀ p ∈ c.parts, ∀ i, p.node = some i → ∃ k, p.left = some k ∧ (a.seq l).idxOf i + k ≤ (a.seq l).idxOf n :=
      fun p hp i hi => hord.2.2 p hp ⟨none, c.node⟩ rfl i n hi hn
    have key : ∀ m, a.ahead step (some n) = some m → m ∈ a.seq l ∧ (a.seq l).idxOf m = (a.seq l).idxOf n + step ∧
        ¬ (a.seq l).length ≤ c.idx + step := by
      intro m hm
      rw [hm] at ha
      obtain ⟨i1, i2⟩ := idx_get (h.nodup l) ha.symm
      have := List.idxOf_lt_length_of_mem i1
      exact ⟨i1, i2, by omega⟩
    refine ⟨⟨?_, ?_, ?_⟩, ?_⟩
    · intro m hm
      have := key m hm
      show c.idx + step ≤ _
      omega
    · simp only [Cursor.all]
      intro p hp i hpi
      simp only [List.mem_append, List.mem_singleton] at hp
      rcases hp with (hp | rfl) | rfl
      · exact hmem p (.inl hp) i hpi
      · simp only [Option.some.injEq] at hpi; exact hpi ▸ h1
      · exact (key i hpi).1
    · simp only [Cursor.all, List.pairwise_append, List.mem_append, List.mem_singleton]
      refine ⟨⟨hord.1, by simp, ?_⟩, by simp, ?_⟩
      · rintro x hx y rfl i m hi hm
        simp only [Option.some.injEq] at hm
        subst hm
        exact old x hx i hi
      · rintro x (hx | rfl) y rfl i m hi hm
        · obtain ⟨k, r1, r2⟩ := old x hx i hi
          have := key m hm
          exact ⟨k, r1, by omega⟩
        · simp only [Option.some.injEq] at hi
          subst hi
          have := key m hm
          exact ⟨step, by simp [this.2.2], by omega⟩
    · intro e he
      have he' := List.idxOf_lt_length_of_mem he
      simp only [Cursor.count, hn, List.countP_append, List.countP_singleton]
      by_cases hlast : (a.seq l).length ≤ c.idx + step
      · have : a.ahead step (some n) = none := by
          cases hm : a.ahead step (some n) with
          | none => rfl
          | some m => exact absurd hlast (key m hm).2.2
        simp only [this, hlast, if_true, Part.covers, Bool.toNat_false, toNat_decide, decide_eq_true_eq]
        omega
      · simp only [hlast, if_false]
        cases hm : a.ahead step (some n) with
        | none =>
          simp only [Part.covers, Bool.toNat_false, toNat_decide, decide_eq_true_eq]
          split <;> split <;> omega
        | some m =>
          have := (key m hm).2.1
          simp only [Part.covers, toNat_decide, decide_eq_true_eq, this]
          split <;> split <;> split <;> omega

/-- What is delivered from here on is at most what is to be delivered now, and what is new is delivered at most once. -/
theorem split_bound (z : T) (l step : Nat) : ∀ (is : List (SItem T)) (s : St T) (a : Abs T) (c : Cursor), Inv s a → a.isList l = true →
    Ordered (a.seq l) c → LegalHist z a (opsOf is) → (∀ o, .op o ∈ is → inserts l o = true) →
    LegalSplit z l step a c is ∧ ∀ e, (delivered (specSplit z l step a c is)).count e ≤ if e ∈ a.seq l then c.count (a.seq l) e else 1 := by
  intro is
  induction is with
  | nil => intro s a c h hl ho _ _; exact ⟨trivial, fun e => by simp [specSplit, delivered]⟩
  | cons i is ih =>
    intro s a c h hl hf hL hm
    cases i with
    | op o =>
      obtain ⟨h2, h3⟩ := hL
      obtain ⟨s', -, h'⟩ := step_refines z h o h2
      have hs := inserts_sub (z := z) (a := a) (hm o (by simp))
      obtain ⟨k1, k2⟩ := ordered_sub hs (h'.nodup l) hf
      obtain ⟨r0, r1⟩ := ih s' _ c h' (isList_step hl o) k1 h3 fun o ho => hm o (by simp [ho])
      refine ⟨⟨h2, r0⟩, fun e => ?_⟩
      have e1 := r1 e
      have e2 := ordered_count k1 e
      simp only [specSplit]
      by_cases he : e ∈ a.seq l
      · rw [if_pos (hs.subset he)] at e1
        rw [if_pos he]
        exact e1.trans (k2 e he)
      · rw [if_neg he]
        refine e1.trans ?_
        split
        · exact e2
        · exact le_rfl
    | ask =>
      obtain ⟨h2, h3⟩ := ordered_ask h (step := step) hf
      obtain ⟨r0, r1⟩ := ih s a _ h hl h2 hL fun o ho => hm o (by simp [ho])
      refine ⟨⟨fun e he => legal_next h (hf.mem ⟨none, c.node⟩ (by simp [Cursor.all]) e he), r0⟩, fun e => (r1 e).trans ?_⟩
      split
      · exact h3 e (by assumption)
      · exact le_rfl
    | pull j =>
      simp only [LegalSplit, specSplit]
      cases hp : c.parts[j]? with
      | none => exact ih s a c h hl hf hL fun o ho => hm o (by simp [ho])
      | some p =>
        have hpm : p ∈ c.all := by simp [Cursor.all, List.mem_of_getElem? hp]
        have h3 := pull_count h (hf.mem p hpm)
        obtain ⟨r0, r1⟩ := ih s a _ h hl (ordered_pull h hf hp) hL fun o ho => hm o (by simp [ho])
        refine ⟨⟨fun e he => legal_next h (hf.mem p hpm e he), r0⟩, fun e => ?_⟩
        have e1 := r1 e
        have e2 := (h3 e).1
        have e3 := count_set (xs := a.seq l) (q := (p.pull a).2) hp e
        simp only [delivered_elem, List.count_append]
        by_cases he : e ∈ a.seq l
        · rw [if_pos he] at e1 ⊢
          omega
        · rw [if_neg he] at e1 ⊢
          have : ((p.pull a).1.toList.map Prod.fst).count e = 0 := by
            rw [List.count_eq_zero]
            intro hc
            refine he ?_
            obtain ⟨left, node⟩ := p
            cases node with
            | none => cases left with
              | none => simp [Part.pull] at hc
              | some k => cases k <;> simp [Part.pull] at hc
            | some n =>
              have hn := hf.mem _ hpm n rfl
              cases left with
              | none => simp [Part.pull] at hc; exact hc ▸ hn
              | some k => cases k with
                | zero => simp [Part.pull] at hc
                | succ k => simp [Part.pull] at hc; exact hc ▸ hn
          omega

/-! ### C134 -/

/-- C134: in every history of calls on any lists, calls of the segmenter and pulls of its segments, as long as no element an iterator
    is to deliver next has been cleared away: the segmenter hands out a segment of `Len / p` elements, starting where the last one
    ended, until it has handed out as many as the list has now, and the last one has no limit; a pull delivers the element chosen by
    the pull before, as it is now, and chooses the one that follows it now. -/
theorem live_split_refines {z : T} {ops : List (Op T)} {s : St T} {a : Abs T} (h : After z ops s a) {l : Nat} (hl : a.isList l = true)
    (p : Nat) (hp : 0 < p) (is : List (SItem T)) (hL : LegalSplit z l ((a.seq l).length / p) a ⟨0, (a.seq l).head?, []⟩ is) :
    liveSplit z l (Int.tdiv (s.len l) p) s (0, front s l) [] is =
      .ok ((specSplit z l ((a.seq l).length / p) a ⟨0, (a.seq l).head?, []⟩ is).map SOut.forget) := by
  have hlen := (h.inv.lst l hl).2.2
  have _ := hp
  rw [(inv_front h.inv hl).1, hlen, show Int.tdiv ((a.seq l).length : Int) (p : Int) = (((a.seq l).length / p : Nat) : Int) from rfl]
  exact liveSplit_refines_inv z l _ is s a _ [] h.inv hl .nil hL

/-- C134: while elements are only appended to the list, no element is delivered twice, whatever the order in which the segments are
    asked for and pulled; and once the segmenter and all its segments have reported their ends, every element that was in the list
    when the segmenter was made has been delivered. -/
theorem live_split_once {z : T} {ops : List (Op T)} {s : St T} {a : Abs T} (h : After z ops s a) {l : Nat} (hl : a.isList l = true)
    (p : Nat) (hp : 0 < p) (is : List (SItem T)) (hL : LegalHist z a (opsOf is)) (hm : ∀ o, .op o ∈ is → appends l o = true) :
    ∃ os : List (SOut (Nat × T)), liveSplit z l (Int.tdiv (s.len l) p) s (0, front s l) [] is = .ok (os.map SOut.forget) ∧
      os = specSplit z l ((a.seq l).length / p) a ⟨0, (a.seq l).head?, []⟩ is ∧ (delivered os).Nodup ∧
      (.part false ∈ os → (∀ j < handed os, .elem j none ∈ os) → ∀ e ∈ a.seq l, e ∈ delivered os) := by
  obtain ⟨r0, r1, r2, r3⟩ := split_count z l ((a.seq l).length / p) is s a _ h.inv hl fits_start hL hm
  refine ⟨_, live_split_refines h hl p hp is r0, rfl, ?_, fun h1 h2 e he => ?_⟩
  · rw [List.nodup_iff_count_le_one]
    intro e
    have := (r3 e).1
    have := (count_start (a.seq l) e).1
    omega
  · obtain ⟨-, c2⟩ := cursor_ends z l ((a.seq l).length / p) is s a _ h.inv hl fits_start hL hm
    have hz : (specEnd z l ((a.seq l).length / p) a ⟨0, (a.seq l).head?, []⟩ is).2.count
        ((specEnd z l ((a.seq l).length / p) a ⟨0, (a.seq l).head?, []⟩ is).1.seq l) e = 0 := by
      unfold Cursor.count
      rw [c2 h1]
      rw [show ∀ xs, Part.covers xs e ⟨none, none⟩ = false from fun _ => rfl, Bool.toNat_false, Nat.zero_add, List.countP_eq_zero]
      intro q hq
      obtain ⟨j, hj, hjq⟩ := List.mem_iff_getElem.1 hq
      obtain ⟨-, p2, p3⟩ := part_ends z l ((a.seq l).length / p) is a ⟨0, (a.seq l).head?, []⟩ j
      simp only [List.length_nil, Nat.zero_add] at p3
      obtain ⟨q', e1, e2⟩ := p2 (h2 j (by omega))
      rw [List.getElem?_eq_getElem hj, Option.some.injEq, hjq] at e1
      subst e1
      simp [Part.dead_covers e2]
    have k1 := (r3 e).2 he
    have k2 := (count_start (a.seq l) e).2 he
    rw [k2, hz] at k1
    exact List.count_pos_iff.1 (by omega)

/-- C134: while nothing is taken out of the list and nothing is moved in it, no element is delivered twice, wherever and however often
    elements are inserted between the calls, whatever the order in which the segments are asked for and pulled. -/
theorem live_split_at_most_once {z : T} {ops : List (Op T)} {s : St T} {a : Abs T} (h : After z ops s a) {l : Nat} (hl : a.isList l = true)
    (p : Nat) (hp : 0 < p) (is : List (SItem T)) (hL : LegalHist z a (opsOf is)) (hm : ∀ o, .op o ∈ is → inserts l o = true) :
    ∃ os : List (SOut (Nat × T)), liveSplit z l (Int.tdiv (s.len l) p) s (0, front s l) [] is = .ok (os.map SOut.forget) ∧
      os = specSplit z l ((a.seq l).length / p) a ⟨0, (a.seq l).head?, []⟩ is ∧ (delivered os).Nodup := by
  have hs : Ordered (a.seq l) ⟨0, (a.seq l).head?, []⟩ :=
    ⟨fun _ _ => Nat.zero_le _, by simpa [Cursor.all] using fun n hn => List.mem_of_head? hn, by simp [Cursor.all]⟩
  obtain ⟨r0, r1⟩ := split_bound z l ((a.seq l).length / p) is s a _ h.inv hl hs hL hm
  refine ⟨_, live_split_refines h hl p hp is r0, rfl, ?_⟩
  rw [List.nodup_iff_count_le_one]
  intro e
  have := r1 e
  have := ordered_count hs e
  split at * <;> omega

/-- C134: neither the segmenter nor a segment panics, whatever is done to the lists in between (also `Clear`), if the calls do not. -/
theorem live_split_no_panic (z : T) (l : Nat) (step : Int) : ∀ (is : List (SItem T)) (s : St T) (c : Int × Option Nat) (gs : List SegIter),
    (∀ g ∈ gs, ∀ n, g ≠ .whole n) → (∃ r, run z s (opsOf is) = .ok r) → ∃ os, liveSplit z l step s c gs is = .ok os := by
  intro is
  induction is with
  | nil => intro s c gs _ _; exact ⟨_, rfl⟩
  | cons i is ih =>
    intro s c gs hg ⟨r, hr⟩
    cases i with
    | op o =>
      simp only [opsOf, run] at hr
      cases hs : LinkedList.step z s o with
      | ok x =>
        rw [hs, Res.bind_ok] at hr
        cases h2 : run z x.1 (opsOf is) with
        | ok y =>
          obtain ⟨os, e⟩ := ih x.1 c gs hg ⟨y, h2⟩
          exact ⟨os, by simp [liveSplit, hs, e]⟩
        | panic p => simp [h2] at hr
        | hang => simp [h2] at hr
      | panic p => simp [hs] at hr
      | hang => simp [hs] at hr
    | ask =>
      simp only [liveSplit]
      have key : ∃ g c', splitAt s l step c = .ok (g, c') ∧ ∀ x, g = some x → ∀ n, x ≠ .whole n := by
        unfold splitAt
        obtain ⟨idx, node⟩ := c
        simp only
        split
        · exact ⟨_, _, rfl, by simp⟩
        · split
          · exact ⟨_, _, rfl, by simp⟩
          · exact ⟨_, _, rfl, by simp⟩
      obtain ⟨g, c', e, hg'⟩ := key
      rw [e, Res.bind_ok]
      cases g with
      | none =>
        obtain ⟨os, e⟩ := ih s c' gs hg ⟨r, hr⟩
        exact ⟨_, by simp only [e, Res.bind_ok]; rfl⟩
      | some g =>
        obtain ⟨os, e⟩ := ih s c' (gs ++ [g]) (by
          intro x hx
          rcases List.mem_append.1 hx with hx | hx
          · exact hg x hx
          · simp at hx; subst hx; exact hg' _ rfl) ⟨r, hr⟩
        exact ⟨_, by simp only [e, Res.bind_ok]; rfl⟩
    | pull j =>
      simp only [liveSplit]
      cases hj : gs[j]? with
      | none => exact ih s c gs hg ⟨r, hr⟩
      | some g =>
        have key : ∃ v g', segNext s l g = .ok (v, g') ∧ ∀ n, g' ≠ .whole n := by
          cases g with
          | whole n => exact absurd rfl (hg _ (List.mem_of_getElem? hj) n)
          | rest n => cases n <;> exact ⟨_, _, rfl, by simp⟩
          | step k n =>
            cases n with
            | none => exact ⟨_, _, rfl, by simp⟩
            | some e =>
              by_cases hk : 0 < k
              · exact ⟨_, _, by simp only [segNext, hk, if_true]; rfl, by simp⟩
              · exact ⟨_, _, by simp only [segNext, hk, if_false]; rfl, by simp⟩
        obtain ⟨v, g', e, hg'⟩ := key
        obtain ⟨os, e2⟩ := ih s c (gs.set j g') (by
          intro x hx
          rcases List.mem_or_eq_of_mem_set hx with hx | rfl
          · exact hg x hx
          · exact hg') ⟨r, hr⟩
        exact ⟨_, by simp only [e, e2, Res.bind_ok]; rfl⟩

/-- C134: an element that is removed when a segment is about to deliver it is still delivered, and the segment ends there. -/
theorem live_split_removed {z : T} {ops : List (Op T)} {s : St T} {a : Abs T} (h : After z ops s a) {l e : Nat} (he : e ∈ a.seq l)
    (step : Int) (c : Int × Option Nat) :
    liveSplit z l step s c [.rest (some e)] [.op (.remove l e), .pull 0, .pull 0] = .ok [.elem 0 (some (a.value e)), .elem 0 none] := by
  have hi := h.inv
  have hl := (hi.mem l e he).1
  have hleg : Legal a (.remove l e) := ⟨hl, (hi.mem l e he).2.1, (hi.mem l e he).2.2.1, (hi.mem l e he).2.2.2.1⟩
  obtain ⟨s', e1, hi'⟩ := step_refines z hi _ hleg
  have hnx : next s' e = none := by
    rw [next_refines hi' (e := e) ⟨(hi.mem l e he).2.1, (hi.mem l e he).2.2.1, (hi.mem l e he).2.2.2.1⟩, Abs.after,
      inv_not_owner hi' (e := e) (fun k hk => ?_)]
    · rfl
    · simp only [specStep, Abs.setSeq] at hk
      split at hk
      · rw [(hi.nodup l).mem_erase_iff] at hk; exact hk.1 rfl
      · have h1 := (hi.mem l e he).2.2.2.2
        have h2 := (hi.mem k e hk).2.2.2.2
        rw [h1, Option.some.injEq] at h2
        exact absurd h2.symm (by assumption)
  have hv : (s'.heap e).value = a.value e := hi'.val e
  simp [liveSplit, e1, segNext, hnx, hv]

theorem four {T : Type} (z : T) (w1 w2 w3 w4 : T) : ∃ s, After z [.newList, .pushBack 0 w1, .pushBack 0 w2, .pushBack 0 w3, .pushBack 0 w4] s
    (specRun z (Abs.empty z) [.newList, .pushBack 0 w1, .pushBack 0 w2, .pushBack 0 w3, .pushBack 0 w4]).1 := by
  have hleg : LegalHist z (Abs.empty z) [.newList, .pushBack 0 w1, .pushBack 0 w2, .pushBack 0 w3, .pushBack 0 w4] := by
    simp [LegalHist, Legal, specStep, Abs.empty, Abs.addList, Abs.alloc, Abs.setSeq, Abs.touch]
  obtain ⟨s', e, -⟩ := run_refines z _ _ _ (inv_empty z) hleg
  exact ⟨s', hleg, ⟨_, e⟩, rfl⟩

/-- C134 is false when an element is inserted into a segment: 10, 20, 30, 40 in two segments; 15 is inserted after 10; the segments deliver
    10, 15 and 30, 40, and 20 is never delivered although it is in the list all the time. -/
theorem live_split_insert_refuted : ∃ s a, After (0 : Int) [.newList, .pushBack 0 10, .pushBack 0 20, .pushBack 0 30, .pushBack 0 40] s a ∧
    a.seq 0 = [1, 2, 3, 4] ∧ a.value 2 = 20 ∧
    liveSplit 0 0 (Int.tdiv (s.len 0) 2) s (0, front s 0) []
      [.ask, .op (.insertAfter 0 15 1), .pull 0, .pull 0, .pull 0, .ask, .pull 1, .pull 1, .pull 1, .ask, .pull 2, .ask] =
      .ok [.part true, .elem 0 (some 10), .elem 0 (some 15), .elem 0 none, .part true, .elem 1 (some 30), .elem 1 (some 40), .elem 1 none,
        .part true, .elem 2 none, .part false] := by
  obtain ⟨s, h⟩ := four (0 : Int) 10 20 30 40
  refine ⟨s, _, h, ?_, ?_, ?_⟩
  · simp [specRun, specStep, Abs.empty, Abs.addList, Abs.alloc, Abs.setSeq, Abs.touch]
  · simp [specRun, specStep, Abs.empty, Abs.addList, Abs.alloc, Abs.setSeq, Abs.touch]
  · have := live_split_refines h (l := 0) rfl 2 (by omega)
      [.ask, .op (.insertAfter 0 15 1), .pull 0, .pull 0, .pull 0, .ask, .pull 1, .pull 1, .pull 1, .ask, .pull 2, .ask] (by
        simp [LegalSplit, Legal, specRun, specStep, Abs.empty, Abs.addList, Abs.alloc, Abs.setSeq, Abs.touch, Cursor.ask, Part.pull, Abs.ahead,
          Abs.after, Abs.owner, following, putAfter, List.range_succ, List.find?])
    refine this.trans ?_
    simp [specSplit, specRun, specStep, Abs.empty, Abs.addList, Abs.alloc, Abs.setSeq, Abs.touch, Cursor.ask, Part.pull, Abs.ahead,
      Abs.after, Abs.owner, following, putAfter, SOut.forget, List.range_succ, List.find?]

/-- C134 is false when an element is removed from a segment: of 10, 20, 30, 40 in two segments, 20 is removed; the first segment delivers
    10 and 30, the second one 30 and 40. -/
theorem live_split_remove_refuted : ∃ s a, After (0 : Int) [.newList, .pushBack 0 10, .pushBack 0 20, .pushBack 0 30, .pushBack 0 40] s a ∧
    a.seq 0 = [1, 2, 3, 4] ∧
    liveSplit 0 0 (Int.tdiv (s.len 0) 2) s (0, front s 0) []
      [.ask, .ask, .op (.remove 0 2), .pull 0, .pull 0, .pull 0, .pull 1, .pull 1, .pull 1, .ask] =
      .ok [.part true, .part true, .elem 0 (some 10), .elem 0 (some 30), .elem 0 none, .elem 1 (some 30), .elem 1 (some 40), .elem 1 none,
        .part false] := by
  obtain ⟨s, h⟩ := four (0 : Int) 10 20 30 40
  refine ⟨s, _, h, ?_, ?_⟩
  · simp [specRun, specStep, Abs.empty, Abs.addList, Abs.alloc, Abs.setSeq, Abs.touch]
  · have := live_split_refines h (l := 0) rfl 2 (by omega)
      [.ask, .ask, .op (.remove 0 2), .pull 0, .pull 0, .pull 0, .pull 1, .pull 1, .pull 1, .ask] (by
        simp [LegalSplit, Legal, specRun, specStep, Abs.empty, Abs.addList, Abs.alloc, Abs.setSeq, Abs.touch, Cursor.ask, Part.pull, Abs.ahead,
          Abs.after, Abs.owner, following, List.range_succ, List.find?])
    refine this.trans ?_
    simp [specSplit, specRun, specStep, Abs.empty, Abs.addList, Abs.alloc, Abs.setSeq, Abs.touch, Cursor.ask, Part.pull, Abs.ahead,
      Abs.after, Abs.owner, following, SOut.forget, List.range_succ, List.find?]

/-- C134 is false when delivered elements are removed: of 10, 20, 30, 40 in two segments, 10 and 20 are removed after the first segment has
    delivered them; the segmenter, which has counted two elements, then reports its end, and 30 and 40 are never handed out. -/
theorem live_split_lost_refuted : ∃ s a, After (0 : Int) [.newList, .pushBack 0 10, .pushBack 0 20, .pushBack 0 30, .pushBack 0 40] s a ∧
    a.seq 0 = [1, 2, 3, 4] ∧
    liveSplit 0 0 (Int.tdiv (s.len 0) 2) s (0, front s 0) []
      [.ask, .pull 0, .pull 0, .pull 0, .op (.remove 0 1), .op (.remove 0 2), .op (.toSlice 0), .ask] =
      .ok [.part true, .elem 0 (some 10), .elem 0 (some 20), .elem 0 none, .part false] := by
  obtain ⟨s, h⟩ := four (0 : Int) 10 20 30 40
  refine ⟨s, _, h, ?_, ?_⟩
  · simp [specRun, specStep, Abs.empty, Abs.addList, Abs.alloc, Abs.setSeq, Abs.touch]
  · have := live_split_refines h (l := 0) rfl 2 (by omega)
      [.ask, .pull 0, .pull 0, .pull 0, .op (.remove 0 1), .op (.remove 0 2), .op (.toSlice 0), .ask] (by
        simp [LegalSplit, Legal, specRun, specStep, Abs.empty, Abs.addList, Abs.alloc, Abs.setSeq, Abs.touch, Cursor.ask, Part.pull, Abs.ahead,
          Abs.after, Abs.owner, following, List.range_succ, List.find?])
    refine this.trans ?_
    simp [specSplit, specRun, specStep, Abs.empty, Abs.addList, Abs.alloc, Abs.setSeq, Abs.touch, Cursor.ask, Part.pull, Abs.ahead,
      Abs.after, Abs.owner, following, SOut.forget, List.range_succ, List.find?]

/-- The hypotheses of `live_split_at_most_once` are met: 15 is inserted after 10 while the first of two segments is open, 5 in front of it. -/
example : ∃ s a, After (0 : Int) [.newList, .pushBack 0 10, .pushBack 0 20, .pushBack 0 30, .pushBack 0 40] s a ∧
    let is : List (SItem Int) := [.ask, .pull 0, .op (.insertAfter 0 15 1), .op (.pushFront 0 5), .ask, .pull 0, .pull 1, .pull 1, .pull 1, .ask, .pull 2]
    LegalHist 0 a (opsOf is) ∧ (∀ o, .op o ∈ is → inserts 0 o = true) ∧
    specSplit 0 0 ((a.seq 0).length / 2) a ⟨0, (a.seq 0).head?, []⟩ is = [.part true, .elem 0 (some (1, 10)), .part true, .elem 0 (some (2, 20)),
      .elem 1 (some (3, 30)), .elem 1 (some (4, 40)), .elem 1 none, .part true, .elem 2 none] := by
  obtain ⟨s, h⟩ := four (0 : Int) 10 20 30 40
  refine ⟨s, _, h, ?_, ?_, ?_⟩
  · simp [LegalHist, opsOf, Legal, specRun, specStep, Abs.empty, Abs.addList, Abs.alloc, Abs.setSeq, Abs.touch]
  · simp [inserts]
  · simp [specSplit, specRun, specStep, Abs.empty, Abs.addList, Abs.alloc, Abs.setSeq, Abs.touch, Cursor.ask, Part.pull, Abs.ahead,
      Abs.after, Abs.owner, following, putAfter, List.range_succ, List.find?]

/-- The hypotheses of `live_split_once` are met: 10, 20, 30, 40 in two segments; 50 is appended while the second one is open and is delivered
    as well. -/
example : ∃ s a, After (0 : Int) [.newList, .pushBack 0 10, .pushBack 0 20, .pushBack 0 30, .pushBack 0 40] s a ∧
    let is : List (SItem Int) := [.ask, .ask, .pull 1, .op (.pushBack 0 50), .pull 0, .pull 1, .pull 1, .pull 1, .pull 0, .pull 0, .ask, .pull 2, .ask]
    LegalHist 0 a (opsOf is) ∧ (∀ o, .op o ∈ is → appends 0 o = true) ∧
    specSplit 0 0 ((a.seq 0).length / 2) a ⟨0, (a.seq 0).head?, []⟩ is = [.part true, .part true, .elem 1 (some (3, 30)), .elem 0 (some (1, 10)),
      .elem 1 (some (4, 40)), .elem 1 (some (5, 50)), .elem 1 none, .elem 0 (some (2, 20)), .elem 0 none, .part true, .elem 2 none, .part false] := by
  obtain ⟨s, h⟩ := four (0 : Int) 10 20 30 40
  refine ⟨s, _, h, ?_, ?_, ?_⟩
  · simp [LegalHist, opsOf, Legal, specRun, specStep, Abs.empty, Abs.addList, Abs.alloc, Abs.setSeq, Abs.touch]
  · simp [appends]
  · simp [specSplit, specRun, specStep, Abs.empty, Abs.addList, Abs.alloc, Abs.setSeq, Abs.touch, Cursor.ask, Part.pull, Abs.ahead,
      Abs.after, Abs.owner, following, List.range_succ, List.find?]

end Gds.LinkedList
