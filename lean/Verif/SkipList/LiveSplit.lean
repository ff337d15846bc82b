import Verif.SkipList.IterEdit
import Verif.SkipList.RangeProps
import Verif.Go.Segments

/-! C135: the segments of a skip list's `SplitableIter` pulled while entries are inserted. -/

namespace Gds.SkipList
open Segments (Part Cursor Item Out names forall₂_get forall₂_set forall₂_snoc)
variable {K V : Type}

/-! ### Model -/

/-- skiplist.go:246-262 for parallelism > 0: `step` was computed when the segmenter was made, `sl.size` is read at every call. -/
def splitAt (s : St K V) (step : Int) : Iter.Next (Int × Option Nat) SegIter := fun (idx, node) =>
  if idx ≥ s.size then pure (none, (idx, node))
  else do
    let node' ← advance s step.toNat node
    if idx + step ≥ s.size then pure (some (.whole node), (idx + step, node'))
    else pure (some (.step step node), (idx + step, node'))

/-- `splitAt` is `splitNext` with the step fixed. -/
theorem splitNext_eq (s : St K V) {p : Int} (hp : 0 < p) : splitNext s p = splitAt s (Int.tdiv s.size p) := by
  have h1 : ¬ p ≤ 0 := by omega
  have h2 : ¬ p = 0 := by omega
  funext ⟨idx, node⟩
  simp only [splitNext, splitAt, if_neg h1, if_neg h2]

/-- What the goroutine does: an operation on the list, a call of the segmenter, a pull of the segment it got as number `j`. -/
inductive SItem (K V : Type) where
  | op (o : Op K V)
  | ask
  | pull (j : Nat)

/-- The operations of a history. -/
def opsOf : List (SItem K V) → List (Op K V)
  | [] => []
  | .op o :: is => o :: opsOf is
  | _ :: is => opsOf is

/-- The results of a segmenter of skiplist.go:227-264 (captured `idx` and `node` in `c`) and of its segments `gs` (206-225) while operations run
    between the calls, and the list in the end. -/
def liveSplit (comp : Compare K) (zk : K) (zv : V) (step : Int) : St K V → Int × Option Nat → List SegIter → List (SItem K V) →
    Res (List (Out (K × V)) × St K V)
  | s, _, _, [] => pure ([], s)
  | s, c, gs, .op o :: is => do
    let s ← SkipList.step comp zk zv s o
    liveSplit comp zk zv step s c gs is
  | s, c, gs, .ask :: is => do
    let r ← splitAt s step c
    match r.1 with
    | some g => do
      let os ← liveSplit comp zk zv step s r.2 (gs ++ [g]) is
      pure (.part true :: os.1, os.2)
    | none => do
      let os ← liveSplit comp zk zv step s r.2 gs is
      pure (.part false :: os.1, os.2)
  | s, c, gs, .pull j :: is =>
    match gs[j]? with
    | none => liveSplit comp zk zv step s c gs is
    | some g => do
      let r ← segNext s g
      let os ← liveSplit comp zk zv step s c (gs.set j r.2) is
      pure (.elem j r.1 :: os.1, os.2)

/-! ### Specification -/

/-- What an operation does to the list of nodes and entries: an insertion puts a new node behind entries equal to its key, or at the front; the
    other ones do nothing. -/
def Change (comp : Compare K) (M M' : List (Nat × (K × V))) : Op K V → Prop
  | .put k v _ | .insertUnique k v _ | .insertEquals k v _ =>
    ∃ n pre post, n ∉ names M ∧ M = pre ++ post ∧ M' = pre ++ (n, (k, v)) :: post ∧
      (∀ e, pre.getLast? = some e → comp e.2.1 k = 0) ∧ (∀ e, post.head? = some e → comp e.2.1 k ≠ 0)
  | _ => M' = M

/-- The history as seen by the segmenter and the segments. -/
def Follows (comp : Compare K) : List (Nat × (K × V)) → List (SItem K V) → List (Item (K × V)) → Prop
  | _, [], [] => True
  | M, .op o :: is, .edit M' :: js => Change comp M M' o ∧ Follows comp M' is js
  | M, .ask :: is, .ask :: js => Follows comp M is js
  | M, .pull i :: is, .pull j :: js => i = j ∧ Follows comp M is js
  | _, _, _ => False

/-! ### Refinement -/

/-- The nodes with their entries. -/
def named (s : St K V) (n : Nat) (P : Nat → Nat) : List (Nat × (K × V)) :=
  (List.range n).map fun j => (P (j + 1), (s.key (P (j + 1)), s.val (P (j + 1))))

section
variable {s : St K V} {n : Nat} {P : Nat → Nat}

theorem named_length : (named s n P).length = n := by simp [named]

theorem named_snd : (named s n P).map Prod.snd = entries s n P := by
  simp [named, entries]

theorem named_get (i : Nat) : (names (named s n P))[i]? = if i < n then some (P (i + 1)) else none := by
  by_cases h : i < n <;> simp [names, named, h]

theorem named_nodup (R : Rep s n P) : (names (named s n P)).Nodup := by
  simp only [names, named, List.map_map]
  refine List.Nodup.map_on (fun i hi j hj h => ?_) List.nodup_range
  have := R.inj (i + 1) (j + 1) (List.mem_range.1 hi) (List.mem_range.1 hj) h
  omega

theorem named_mem {m : Nat} (h : m ∈ names (named s n P)) : ∃ p, 1 ≤ p ∧ p ≤ n ∧ m = P p ∧ (m, (s.key m, s.val m)) ∈ named s n P := by
  simp only [names, named, List.map_map, List.mem_map, List.mem_range, Function.comp] at h
  obtain ⟨i, hi, rfl⟩ := h
  exact ⟨i + 1, by omega, by omega, rfl, List.mem_map.2 ⟨i, List.mem_range.2 hi, rfl⟩⟩

theorem named_idx (R : Rep s n P) {p : Nat} (h1 : 1 ≤ p) (h2 : p ≤ n) : (names (named s n P)).idxOf (P p) = p - 1 := by
  refine (Segments.idx_get (named_nodup R) ?_).2
  rw [named_get, if_pos (by omega), show p - 1 + 1 = p by omega]

theorem named_next (R : Rep s n P) {m : Nat} (h : m ∈ names (named s n P)) : next s m = .ok (Segments.after (named s n P) m) := by
  obtain ⟨p, h1, h2, rfl, -⟩ := named_mem h
  rw [next, R.fwd0 p h2, Segments.after, named_idx R h1 h2, named_get]
  congr 1
  rw [show p - 1 + 1 = p by omega]
  by_cases h : p < n
  · rw [if_pos h, if_pos (by omega)]
  · rw [if_neg h, if_neg (by omega)]

theorem named_after (R : Rep s n P) {m m' : Nat} (h : Segments.after (named s n P) m = some m') : m' ∈ names (named s n P) :=
  List.mem_of_getElem? h

theorem advance_refines (R : Rep s n P) : ∀ (k : Nat) (m : Option Nat), (∀ e, m = some e → e ∈ names (named s n P)) →
    advance s k m = .ok (Segments.ahead (named s n P) k m) := by
  intro k
  induction k with
  | zero => intro m _; rfl
  | succ k ih =>
    intro m hm
    cases m with
    | none => rfl
    | some e =>
      rw [advance, named_next R (hm e rfl), Res.bind_ok, Segments.ahead]
      exact ih _ fun f hf => named_after R hf

end

/-- The captured variables of a segment against its specification. -/
def SegRel : SegIter → Part → Prop
  | .whole n, ⟨none, m⟩ => n = m
  | .step k n, ⟨some j, m⟩ => n = m ∧ (m ≠ none → k.toNat = j)
  | _, _ => False

theorem pull_refines {s : St K V} {n : Nat} {P : Nat → Nat} (R : Rep s n P) {g : SegIter} {p : Part} (hr : SegRel g p)
    (hp : ∀ e, p.node = some e → e ∈ names (named s n P)) :
    ∃ g', segNext s g = .ok ((p.pull (named s n P)).1.map Prod.snd, g') ∧ SegRel g' (p.pull (named s n P)).2 := by
  have look : ∀ e, e ∈ names (named s n P) → (named s n P).lookup e = some (s.key e, s.val e) := by
    intro e he
    obtain ⟨_, -, -, -, h⟩ := named_mem he
    exact Segments.lookup_of_mem (named_nodup R) h
  obtain ⟨left, node⟩ := p
  cases g with
  | whole m =>
    cases left with
    | some j => simp [SegRel] at hr
    | none =>
      simp only [SegRel] at hr
      subst hr
      cases m with
      | none => exact ⟨_, rfl, rfl⟩
      | some e =>
        have he := hp e rfl
        exact ⟨.whole (Segments.after (named s n P) e), by simp [segNext, SkipList.iter, Part.pull, named_next R he, look e he], by simp [SegRel, Part.pull]⟩
  | step k m =>
    cases left with
    | none => simp [SegRel] at hr
    | some j =>
      simp only [SegRel] at hr
      obtain ⟨rfl, hk⟩ := hr
      cases m with
      | none => exact ⟨.step (k - 1) none, by cases j <;> simp [segNext, Part.pull], by cases j <;> simp [Part.pull, SegRel]⟩
      | some e =>
        have he := hp e rfl
        have hk := hk (by simp)
        cases j with
        | zero =>
          have : ¬ 0 < k := by omega
          exact ⟨.step (k - 1) (some e), by simp [segNext, Part.pull, this], by simp [Part.pull, SegRel]; omega⟩
        | succ j =>
          have : 0 < k := by omega
          exact ⟨.step (k - 1) (Segments.after (named s n P) e), by simp [segNext, Part.pull, this, named_next R he, look e he],
            by simp [Part.pull, SegRel]; omega⟩

theorem named_ins {s s' : St K V} {n : Nat} {P : Nat → Nat} (k : Nat) (hk : k ≤ n) (A : Nat) (key : K) (val : V) (hA : ∀ p, p ≤ n → P p ≠ A)
    (h1 : s'.key = fun y => if y = A then key else s.key y) (h2 : s'.val = fun y => if y = A then val else s.val y) :
    named s' (n + 1) (insPos P k A) = (named s n P).take k ++ (A, (key, val)) :: (named s n P).drop k := by
  have get : ∀ (s : St K V) (n : Nat) (P : Nat → Nat) (i : Nat), (named s n P)[i]? =
      if i < n then some (P (i + 1), (s.key (P (i + 1)), s.val (P (i + 1)))) else none := by
    intro s n P i
    by_cases h : i < n <;> simp [named, h]
  apply List.ext_getElem?
  intro i
  rw [get, List.getElem?_append, List.length_take, named_length, Nat.min_eq_left hk, h1, h2]
  by_cases h : i < k
  · have := hA (i + 1) (by omega)
    rw [if_pos h, List.getElem?_take, if_pos h, get]
    have e : insPos P k A (i + 1) = P (i + 1) := by simp [insPos]; omega
    simp only [e, if_pos (show i < n + 1 by omega), if_pos (show i < n by omega), if_neg this]
  · rw [if_neg h]
    by_cases h' : i = k
    · subst h'
      have e : insPos P i A (i + 1) = A := by simp [insPos]
      simp [e, show i < n + 1 by omega]
    · have hm : i - k = (i - k - 1) + 1 := by omega
      rw [hm, List.getElem?_cons_succ, List.getElem?_drop, get, show k + (i - k - 1) = i - 1 by omega]
      have e : insPos P k A (i + 1) = P i := by
        simp only [insPos]
        rw [if_neg (by omega), if_neg (by omega), show i + 1 - 1 = i by omega]
      by_cases hi : i < n + 1
      · have := hA i (by omega)
        simp only [e, if_pos hi, if_pos (show i - 1 < n by omega), if_neg this, show i - 1 + 1 = i by omega]
      · simp only [if_neg hi, if_neg (show ¬ i - 1 < n by omega)]

/-- An insertion, or an operation that leaves the list as it is. -/
theorem effect_step {comp : Compare K} (hs : ∀ a b, comp a b = 0 → comp b a = 0) {zk : K} {zv : V} {s : St K V} {n : Nat} {P : Nat → Nat}
    (R : Rep s n P) (hz1 : s.key s.header = zk) (hz2 : s.val s.header = zv) {o : Op K V} (hk : o.keeps = true) :
    ∃ s' n' P', step comp zk zv s o = .ok s' ∧ Rep s' n' P' ∧ Change comp (named s n P) (named s' n' P') o ∧
      s'.key s'.header = zk ∧ s'.val s'.header = zv := by
  have ins : ∀ k v u d, ∃ s' n' P', insert comp s k v u d = .ok (s', true) ∧ Rep s' n' P' ∧
      Change comp (named s n P) (named s' n' P') (.put k v d) ∧ s'.key s'.header = zk ∧ s'.val s'.header = zv := by
    intro k v u d
    obtain ⟨s', p, e, hp, R', b2, b3, b4, c1, c2⟩ := insert_ok (comp := comp) R k v u d
    have hA : ∀ q, q ≤ n → P q ≠ s.alloc := fun q hq => by have := R.old q hq; omega
    have hhd : s.header ≠ s.alloc := by have := hA 0 (by omega); rwa [R.head] at this
    refine ⟨s', _, _, e, R', ⟨s.alloc, (named s n P).take p, (named s n P).drop p, ?_, by simp, named_ins p hp s.alloc k v hA b3 b4, ?_, ?_⟩,
      by rw [b2, b3]; simp [hhd, hz1], by rw [b2, b4]; simp [hhd, hz2]⟩
    · intro hm
      obtain ⟨q, -, q2, q3, -⟩ := named_mem hm
      exact hA q q2 q3.symm
    · intro x hx
      rcases c1 with rfl | c1
      · simp at hx
      · rcases Nat.eq_zero_or_pos p with rfl | hp0
        · simp at hx
        rw [List.getLast?_eq_getElem?, List.length_take, named_length, Nat.min_eq_left hp, List.getElem?_take, if_pos (by omega)] at hx
        simp only [named, List.getElem?_map, List.getElem?_range (show p - 1 < n by omega), Option.map_some, Option.some.injEq] at hx
        subst hx
        rwa [show p - 1 + 1 = p by omega]
    · intro x hx
      rw [List.head?_drop] at hx
      by_cases hpn : p < n
      · simp only [named, List.getElem?_map, List.getElem?_range hpn, Option.map_some, Option.some.injEq] at hx
        subst hx
        exact c2 (by omega)
      · rw [List.getElem?_eq_none (by rw [named_length]; omega)] at hx
        simp at hx
  have H : Holds zk zv s (entries s n P) := ⟨n, P, R, rfl, hz1, hz2⟩
  have del : ∀ k, ∃ b, delete comp s k = .ok (s, b) := by
    intro k
    obtain ⟨s', L', b, e, -, D, i⟩ := delete_holds (comp := comp) H k
    rw [i (D.same hs).1] at e; exact ⟨b, e⟩
  cases o with
  | put k v d =>
    obtain ⟨s', n', P', e, h⟩ := ins k v true d
    exact ⟨s', n', P', by simp [step, insertUnique, e], h⟩
  | insertUnique k v d =>
    obtain ⟨s', n', P', e, h⟩ := ins k v true d
    exact ⟨s', n', P', by simp [step, insertUnique, e], h⟩
  | insertEquals k v d =>
    obtain ⟨s', n', P', e, h⟩ := ins k v false d
    exact ⟨s', n', P', by simp [step, insertEquals, e], h⟩
  | delete k =>
    obtain ⟨b, e⟩ := del k
    exact ⟨s, n, P, by simp [step, e], R, rfl, hz1, hz2⟩
  | deleteByWholeMapping k v c =>
    refine ⟨s, n, P, ?_, R, rfl, hz1, hz2⟩
    simp only [step, deleteByWholeMapping]
    obtain ⟨b, e⟩ := del k
    rcases search_ok comp k R with ⟨q, e1, -, -⟩ | ⟨e1, -⟩
    · rw [e1, Res.bind_ok]
      simp only
      by_cases hv : c v (s.val (P q)) = 0
      · simp [hv, e]
      · simp [hv]
    · rw [e1, Res.bind_ok]; rfl
  | deleteKeys ks =>
    obtain ⟨s', L', m, e, -, D, i⟩ := deleteKeys_holds (comp := comp) ks 0 H
    rw [i (D.same hs).1] at e
    exact ⟨s, n, P, by simp [step, e], R, rfl, hz1, hz2⟩
  | deleteRange mn mx => simp [Op.keeps] at hk
  | clear => simp [Op.keeps] at hk
  | setAt i v => simp [Op.keeps] at hk

theorem Change.inserts {comp : Compare K} {M M' : List (Nat × (K × V))} {o : Op K V} (h : Change comp M M' o) (hn : (names M').Nodup) :
    Segments.Inserts M M' ∧ M.Sublist M' := by
  have key : ∀ x pre post, M = pre ++ post → M' = pre ++ x :: post → M.Sublist M' := by
    rintro x pre post rfl rfl
    exact (List.Sublist.refl _).append (List.sublist_cons_self _ _)
  have sub : M.Sublist M' := by
    cases o with
    | put k v d | insertUnique k v d | insertEquals k v d =>
      obtain ⟨n, pre, post, -, e1, e2, -⟩ := h
      exact key _ pre post e1 e2
    | delete | deleteByWholeMapping | deleteKeys | deleteRange | clear | setAt => rw [show M' = M from h]
  exact ⟨⟨sub.map _, hn⟩, sub⟩

theorem Change.nodup {comp : Compare K} {M M' : List (Nat × (K × V))} {o : Op K V} (h : Change comp M M' o) (hn : (names M).Nodup) :
    (names M').Nodup := by
  cases o with
  | put k v d | insertUnique k v d | insertEquals k v d =>
    obtain ⟨n, pre, post, h1, rfl, rfl, -⟩ := h
    simp only [names, List.map_append, List.map_cons] at h1 hn ⊢
    rw [List.nodup_middle, List.nodup_cons]
    exact ⟨h1, hn⟩
  | delete | deleteByWholeMapping | deleteKeys | deleteRange | clear | setAt => rw [show M' = M from h]; exact hn

theorem follows_edits {comp : Compare K} : ∀ (is : List (SItem K V)) (its : List (Item (K × V))) (M : List (Nat × (K × V))), (names M).Nodup →
    Follows comp M is its → Segments.Edits Segments.Inserts M its ∧ Segments.Edits (fun L L' => L.Sublist L') M its := by
  intro is
  induction is with
  | nil =>
    intro its M _ h
    cases its with
    | nil => exact ⟨trivial, trivial⟩
    | cons _ _ => exact h.elim
  | cons i is ih =>
    intro its M hM h
    cases its with
    | nil => cases i <;> exact h.elim
    | cons j js =>
      cases i with
      | op o =>
        cases j with
        | edit M' =>
          obtain ⟨h1, h2⟩ := h
          have hn : (names M').Nodup := h1.nodup hM
          obtain ⟨k1, k2⟩ := ih js M' hn h2
          obtain ⟨k3, k4⟩ := h1.inserts hn
          exact ⟨⟨k3, k1⟩, k4, k2⟩
        | ask => exact h.elim
        | pull => exact h.elim
      | ask =>
        cases j with
        | ask => exact ih js M hM h
        | edit M' => exact h.elim
        | pull => exact h.elim
      | pull i =>
        cases j with
        | pull => exact ih js M hM h.2
        | edit M' => exact h.elim
        | ask => exact h.elim

theorem live_run {comp : Compare K} (hs : ∀ a b, comp a b = 0 → comp b a = 0) {zk : K} {zv : V} (k : Nat) : ∀ (is : List (SItem K V)) (s : St K V)
    (n : Nat) (P : Nat → Nat) (c : Cursor) (gs : List SegIter), (∀ o, .op o ∈ is → o.keeps = true) → Rep s n P → s.key s.header = zk →
    s.val s.header = zv → List.Forall₂ SegRel gs c.parts → Segments.Ordered (names (named s n P)) c →
    ∃ its s' n' P', liveSplit comp zk zv k s ((c.idx : Int), c.node) gs is = .ok ((Segments.spec k (named s n P) c its).map Out.forget, s') ∧
      Follows comp (named s n P) is its ∧ Segments.final (named s n P) its = named s' n' P' ∧ Rep s' n' P' ∧ s'.key s'.header = zk ∧
      s'.val s'.header = zv ∧ run comp zk zv s (opsOf is) = .ok s' := by
  intro is
  induction is with
  | nil => intro s n P c gs _ R h1 h2 _ _; exact ⟨[], s, n, P, rfl, trivial, rfl, R, h1, h2, rfl⟩
  | cons i is ih =>
    intro s n P c gs hk R h1 h2 hR ho
    have hk' : ∀ o, .op o ∈ is → o.keeps = true := fun o ho => hk o (by simp [ho])
    have hn := named_nodup R
    cases i with
    | op o =>
      obtain ⟨s1, n1, P1, e, R1, he, z1, z2⟩ := effect_step hs R h1 h2 (hk o (by simp))
      obtain ⟨⟨i1, i2⟩, -⟩ := he.inserts (named_nodup R1)
      obtain ⟨its, s', n', P', a1, a2, a3, a4, a5, a6, a7⟩ := ih s1 n1 P1 c gs hk' R1 z1 z2 hR (Segments.ordered_sub i1 i2 ho).1
      exact ⟨.edit (named s1 n1 P1) :: its, s', n', P', by simp only [liveSplit, e, Res.bind_ok, a1, Segments.spec], ⟨he, a2⟩, a3, a4, a5, a6,
        by simp only [opsOf, run, e, Res.bind_ok, a7]⟩
    | ask =>
      have hnode : ∀ e, c.node = some e → e ∈ names (named s n P) := fun e he => ho.mem ⟨none, c.node⟩ (by simp [Cursor.all]) e he
      have ha := advance_refines R k c.node hnode
      simp only [liveSplit, splitAt, R.size, opsOf]
      by_cases hend : n ≤ c.idx
      · have e1 : ((c.idx : Int) ≥ (n : Int)) := by omega
        obtain ⟨its, s', n', P', a1, a2, a3, a4, a5, a6, a7⟩ := ih s n P c gs hk' R h1 h2 hR ho
        have e2 : c.ask (named s n P) k = (false, c) := by simp [Cursor.ask, named_length, hend]
        refine ⟨.ask :: its, s', n', P', ?_, a2, a3, a4, a5, a6, a7⟩
        simp only [e1, if_true, Res.pure_eq, Res.bind_ok, a1, Segments.spec, e2, List.map_cons]
        rfl
      · have e1 : ¬ ((c.idx : Int) ≥ (n : Int)) := by omega
        have oa := (Segments.ordered_ask hn (step := k) ho).1
        simp only [e1, if_false, Int.toNat_natCast, ha, Res.bind_ok]
        have e0 : (c.ask (named s n P) k) = (true, ⟨c.idx + k, Segments.ahead (named s n P) k c.node,
            c.parts ++ [⟨if n ≤ c.idx + k then none else some k, c.node⟩]⟩) := by simp [Cursor.ask, named_length, hend]
        rw [e0] at oa
        by_cases hlast : n ≤ c.idx + k
        · have e3 : ((c.idx : Int) + (k : Int) ≥ (n : Int)) := by omega
          obtain ⟨its, s', n', P', a1, a2, a3, a4, a5, a6, a7⟩ := ih s n P _ (gs ++ [.whole c.node]) hk' R h1 h2
            (forall₂_snoc hR (by simp [SegRel, hlast])) oa
          simp only [Int.natCast_add] at a1
          refine ⟨.ask :: its, s', n', P', ?_, a2, a3, a4, a5, a6, a7⟩
          simp only [e3, if_true, Res.pure_eq, Res.bind_ok, a1, Segments.spec, e0, List.map_cons]
          rfl
        · have e3 : ¬ ((c.idx : Int) + (k : Int) ≥ (n : Int)) := by omega
          obtain ⟨its, s', n', P', a1, a2, a3, a4, a5, a6, a7⟩ := ih s n P _ (gs ++ [.step (k : Int) c.node]) hk' R h1 h2
            (forall₂_snoc hR (by simp [SegRel, hlast])) oa
          simp only [Int.natCast_add] at a1
          refine ⟨.ask :: its, s', n', P', ?_, a2, a3, a4, a5, a6, a7⟩
          simp only [e3, if_false, Res.pure_eq, Res.bind_ok, a1, Segments.spec, e0, List.map_cons]
          rfl
    | pull j =>
      simp only [liveSplit, opsOf]
      rcases forall₂_get hR j with ⟨e1, e2⟩ | ⟨g, p, e1, e2, hr⟩
      · obtain ⟨its, s', n', P', a1, a2, a3, a4, a5, a6, a7⟩ := ih s n P c gs hk' R h1 h2 hR ho
        refine ⟨.pull j :: its, s', n', P', ?_, ⟨rfl, a2⟩, a3, a4, a5, a6, a7⟩
        simp only [e1, Segments.spec, e2]
        exact a1
      · have hpm : p ∈ c.all := by simp [Cursor.all, List.mem_of_getElem? e2]
        obtain ⟨g', e3, hr'⟩ := pull_refines R hr (ho.mem p hpm)
        obtain ⟨its, s', n', P', a1, a2, a3, a4, a5, a6, a7⟩ := ih s n P { c with parts := c.parts.set j (p.pull (named s n P)).2 } (gs.set j g') hk' R h1 h2
          (forall₂_set hR j hr') (Segments.ordered_pull hn ho e2)
        refine ⟨.pull j :: its, s', n', P', ?_, ⟨rfl, a2⟩, a3, a4, a5, a6, a7⟩
        simp only at a1
        simp only [e1, e3, Res.bind_ok, a1, Segments.spec, e2, List.map_cons]
        rfl

theorem still {comp : Compare K} : ∀ (is : List (SItem K V)) (its : List (Item (K × V))) (M : List (Nat × (K × V))), (∀ o, .op o ∉ is) →
    Follows comp M is its → opsOf is = [] ∧ Segments.final M its = M ∧ Segments.Edits Segments.Appends M its := by
  intro is
  induction is with
  | nil =>
    intro its M _ h
    cases its with
    | nil => exact ⟨rfl, rfl, trivial⟩
    | cons _ _ => exact h.elim
  | cons i is ih =>
    intro its M hk h
    have hk' : ∀ o, .op o ∉ is := fun o ho => hk o (by simp [ho])
    cases its with
    | nil => cases i <;> exact h.elim
    | cons j js =>
      cases i with
      | op o => exact absurd (by simp) (hk o)
      | ask =>
        cases j with
        | ask => exact ih js M hk' h
        | edit M' => exact h.elim
        | pull => exact h.elim
      | pull i =>
        cases j with
        | pull => exact ih js M hk' h.2
        | edit M' => exact h.elim
        | ask => exact h.elim

/-! ### C135 -/

/-- C135, call by call: in every history of insertions (and of `Delete`, `DeleteKeys`, `DeleteByWholeMapping`), calls of a segmenter made over a
    list showing `L`, and pulls of its segments, nothing panics, and the segmenter and the segments do what the specification says of the list as
    it is at each call. -/
theorem live_split_refines {comp : Compare K} (hs : ∀ a b, comp a b = 0 → comp b a = 0) {zk : K} {zv : V} {s : St K V} {L : List (K × V)}
    (h : Reaches comp zk zv s L) (p : Nat) (hp : 0 < p) (is : List (SItem K V)) (hk : ∀ o, .op o ∈ is → o.keeps = true) {f : Option Nat}
    (hf : first s = .ok f) :
    ∃ M its s', M.map Prod.snd = L ∧ (names M).Nodup ∧ Follows comp M is its ∧
      liveSplit comp zk zv (Int.tdiv s.size p) s (0, f) [] is = .ok ((Segments.spec (L.length / p) M (Cursor.start M) its).map Out.forget, s') ∧
      run comp zk zv s (opsOf is) = .ok s' ∧ Reaches comp zk zv s' ((Segments.final M its).map Prod.snd) := by
  obtain ⟨⟨ops, hr⟩, -⟩ := id h
  obtain ⟨n, P, R, rfl, hz1, hz2⟩ := h.holds
  have _ := hp
  have hf' : f = (names (named s n P)).head? := by
    unfold first at hf
    rw [← R.head, R.fwd0 0 (by omega)] at hf
    rw [List.head?_eq_getElem?, named_get]
    cases hf
    by_cases hn : 0 < n
    · rw [if_pos (by omega), if_pos hn]
    · rw [if_neg (by omega), if_neg hn]
  subst hf'
  obtain ⟨its, s', n', P', a1, a2, a3, a4, a5, a6, a7⟩ := live_run hs (zk := zk) (zv := zv) (n / p) is s n P (Cursor.start (named s n P)) [] hk R hz1 hz2
    .nil (Segments.start_ordered _)
  refine ⟨named s n P, its, s', named_snd, named_nodup R, a2, ?_, a7, ⟨_, run_append hr a7⟩, ?_⟩
  · rw [R.size, entries_length]
    exact a1
  · rw [a3, named_snd]
    exact holds_shows ⟨n', P', a4, rfl, a5, a6⟩

/-- C135: nothing is delivered twice: what the segments deliver, in whatever order they are asked for and pulled and whatever is inserted in between,
    is a part of what is in the list in the end. -/
theorem live_split_at_most_once {comp : Compare K} (hs : ∀ a b, comp a b = 0 → comp b a = 0) {zk : K} {zv : V} {s : St K V} {L : List (K × V)}
    (h : Reaches comp zk zv s L) (p : Nat) (hp : 0 < p) (is : List (SItem K V)) (hk : ∀ o, .op o ∈ is → o.keeps = true) {f : Option Nat}
    (hf : first s = .ok f) :
    ∃ outs s' L', liveSplit comp zk zv (Int.tdiv s.size p) s (0, f) [] is = .ok (outs, s') ∧ Reaches comp zk zv s' L' ∧ L.Sublist L' ∧
      (Segments.delivered outs).Subperm L' := by
  obtain ⟨M, its, s', h1, h2, h3, h4, h6, h5⟩ := live_split_refines hs h p hp is hk hf
  obtain ⟨k1, k2⟩ := follows_edits is its M h2 h3
  obtain ⟨k3, k4⟩ := Segments.delivered_final (L.length / p) its M (Cursor.start M) k2
  refine ⟨_, s', _, h4, h5, h1 ▸ k4.map _, ?_⟩
  rw [Segments.delivered_forget]
  obtain ⟨l, q1, q2⟩ := List.subperm_of_subset ((Segments.at_most_once _ M h2 its k1).of_map _) k3
  exact ⟨l.map Prod.snd, q1.map _, q2.map _⟩

/-- C135: if nothing is inserted, then once the segmenter and all its segments have reported their ends, exactly the entries of the list have been
    delivered, each one once, whatever the order of the calls. -/
theorem live_split_all {comp : Compare K} (hs : ∀ a b, comp a b = 0 → comp b a = 0) {zk : K} {zv : V} {s : St K V} {L : List (K × V)}
    (h : Reaches comp zk zv s L) (p : Nat) (hp : 0 < p) (is : List (SItem K V)) (hk : ∀ o, .op o ∉ is) {f : Option Nat}
    (hf : first s = .ok f) :
    ∃ outs, liveSplit comp zk zv (Int.tdiv s.size p) s (0, f) [] is = .ok (outs, s) ∧
      (.part false ∈ outs → (∀ j < Segments.handed outs, .elem j none ∈ outs) → (Segments.delivered outs).Perm L) := by
  obtain ⟨M, its, s', h1, h2, h3, h4, h6, h5⟩ := live_split_refines hs h p hp is (fun o ho => absurd ho (hk o)) hf
  obtain ⟨k1, k2⟩ := follows_edits is its M h2 h3
  obtain ⟨k3, -⟩ := Segments.delivered_final (L.length / p) its M (Cursor.start M) k2
  obtain ⟨e0, e1, e2⟩ := still is its M hk h3
  rw [e0] at h6
  cases h6
  refine ⟨_, h4, fun g1 g2 => ?_⟩
  rw [Segments.handed_forget] at g2
  rw [Segments.delivered_forget]
  have all := Segments.all_once (L.length / p) M h2 its e2 (Segments.part_forget g1) fun j hj => Segments.end_forget (g2 j hj)
  have once := Segments.at_most_once (L.length / p) M h2 its k1
  rw [e1] at k3
  refine .trans (.map _ ((List.perm_ext_iff_of_nodup (once.of_map _) (h2.of_map _)).2 fun x => ⟨k3 x, fun hx => ?_⟩)) (h1 ▸ .refl _)
  obtain ⟨y, hy, hxy⟩ := List.mem_map.1 (all x.1 (List.mem_map_of_mem (f := Prod.fst) hx))
  have := List.inj_on_of_nodup_map h2 (k3 y hy) hx hxy
  exact this ▸ hy

/-! ### What insertions do, and the hypotheses are met -/

theorem follows_ask {comp : Compare K} {M : List (Nat × (K × V))} {is : List (SItem K V)} {its : List (Item (K × V))}
    (h : Follows comp M (.ask :: is) its) : ∃ js, its = .ask :: js ∧ Follows comp M is js := by
  rcases its with _ | ⟨_ | _ | _, js⟩
  · exact h.elim
  · exact h.elim
  · exact ⟨js, rfl, h⟩
  · exact h.elim

theorem follows_pull {comp : Compare K} {M : List (Nat × (K × V))} {i : Nat} {is : List (SItem K V)} {its : List (Item (K × V))}
    (h : Follows comp M (.pull i :: is) its) : ∃ js, its = .pull i :: js ∧ Follows comp M is js := by
  rcases its with _ | ⟨_ | _ | _, js⟩
  · exact h.elim
  · exact h.elim
  · exact h.elim
  · obtain ⟨rfl, h⟩ := h
    exact ⟨js, rfl, h⟩

theorem follows_op {comp : Compare K} {M : List (Nat × (K × V))} {o : Op K V} {is : List (SItem K V)} {its : List (Item (K × V))}
    (h : Follows comp M (.op o :: is) its) : ∃ M' js, its = .edit M' :: js ∧ Change comp M M' o ∧ Follows comp M' is js := by
  rcases its with _ | ⟨M' | _ | _, js⟩
  · exact h.elim
  · exact ⟨M', js, rfl, h⟩
  · exact h.elim
  · exact h.elim

theorem follows_nil {comp : Compare K} {M : List (Nat × (K × V))} {its : List (Item (K × V))} (h : Follows comp M [] its) : its = [] := by
  cases its with
  | nil => rfl
  | cons _ _ => exact h.elim

theorem four_entries : ∃ s : St Int Int, Reaches cmpInt 0 0 s [(1, 10), (2, 20), (3, 30), (4, 40)] := by
  obtain ⟨s, e, S, -⟩ := sorted_map_partial cmpInt cmpInt_threeWay 0 (0 : Int) [(4, 40), (3, 30), (2, 20), (1, 10)] (fun _ => 7) (by simp [cmpInt])
  exact ⟨s, ⟨_, e⟩, S⟩

/-- C135: what one would also expect, that an entry that stays in the list is delivered, is false: of 1, 2, 3, 4 in two segments, another 1 is
    inserted behind the first one after the first segment has been handed out; the segments deliver 1, 1 and 3, 4, and 2 is lost. -/
theorem live_split_insert_refuted : ∃ (s s' : St Int Int) (f : Option Nat) (L' : List (Int × Int)), Reaches cmpInt 0 0 s [(1, 10), (2, 20), (3, 30), (4, 40)] ∧
    first s = .ok f ∧ liveSplit cmpInt 0 0 (Int.tdiv s.size 2) s (0, f) []
      [.ask, .op (.put 1 11 9), .pull 0, .pull 0, .pull 0, .ask, .pull 1, .pull 1, .pull 1, .ask, .pull 2, .ask] =
      .ok ([.part true, .elem 0 (some (1, 10)), .elem 0 (some (1, 11)), .elem 0 none, .part true, .elem 1 (some (3, 30)), .elem 1 (some (4, 40)),
        .elem 1 none, .part true, .elem 2 none, .part false], s') ∧
    Reaches cmpInt 0 0 s' L' ∧ L' = [(1, 10), (1, 11), (2, 20), (3, 30), (4, 40)] := by
  obtain ⟨s, hr⟩ := four_entries
  obtain ⟨f, hf, -⟩ := hr.2.iter
  obtain ⟨M, its, s', h1, h2, h3, h4, -, h5⟩ := live_split_refines (fun _ _ h => cmpInt_threeWay.zero_symm h) hr 2 (by omega)
    [.ask, .op (.put 1 11 9), .pull 0, .pull 0, .pull 0, .ask, .pull 1, .pull 1, .pull 1, .ask, .pull 2, .ask] (by simp [Op.keeps]) hf
  obtain ⟨j1, rfl, g1⟩ := follows_ask h3
  obtain ⟨M', j2, rfl, hc, g2⟩ := follows_op g1
  obtain ⟨j3, rfl, g3⟩ := follows_pull g2
  obtain ⟨j4, rfl, g4⟩ := follows_pull g3
  obtain ⟨j5, rfl, g5⟩ := follows_pull g4
  obtain ⟨j6, rfl, g6⟩ := follows_ask g5
  obtain ⟨j7, rfl, g7⟩ := follows_pull g6
  obtain ⟨j8, rfl, g8⟩ := follows_pull g7
  obtain ⟨j9, rfl, g9⟩ := follows_pull g8
  obtain ⟨j10, rfl, g10⟩ := follows_ask g9
  obtain ⟨j11, rfl, g11⟩ := follows_pull g10
  obtain ⟨j12, rfl, g12⟩ := follows_ask g11
  obtain rfl := follows_nil g12
  obtain ⟨a, b, c, d, rfl⟩ : ∃ a b c d, M = [(a, (1, 10)), (b, (2, 20)), (c, (3, 30)), (d, (4, 40))] := by
    match M, h1 with
    | [(a, _), (b, _), (c, _), (d, _)], h1 =>
      simp only [List.map_cons, List.map_nil, List.cons.injEq, and_true] at h1
      obtain ⟨rfl, rfl, rfl, rfl⟩ := h1
      exact ⟨a, b, c, d, rfl⟩
  obtain ⟨n, pre, post, q0, q1, rfl, q2, q3⟩ := hc
  obtain ⟨rfl, rfl⟩ : pre = [(a, (1, 10))] ∧ post = [(b, (2, 20)), (c, (3, 30)), (d, (4, 40))] := by
    match pre, q1 with
    | [], q1 =>
      simp only [List.nil_append] at q1
      subst q1
      exact absurd rfl (q3 _ rfl)
    | [_], q1 => simpa using q1.symm
    | [_, _], q1 =>
      simp only [List.cons_append, List.nil_append, List.cons.injEq] at q1
      obtain ⟨-, rfl, -⟩ := q1
      have := q2 _ rfl
      simp [cmpInt] at this
    | [_, _, _], q1 =>
      simp only [List.cons_append, List.nil_append, List.cons.injEq] at q1
      obtain ⟨-, -, rfl, -⟩ := q1
      have := q2 _ rfl
      simp [cmpInt] at this
    | [_, _, _, _], q1 =>
      simp only [List.cons_append, List.nil_append, List.cons.injEq] at q1
      obtain ⟨-, -, -, rfl, -⟩ := q1
      have := q2 _ rfl
      simp [cmpInt] at this
    | _ :: _ :: _ :: _ :: _ :: _, q1 => simp at q1
  simp only [names, List.map_cons, List.map_nil, List.mem_cons, List.not_mem_nil, or_false, not_or, List.nodup_cons, not_false_eq_true,
    List.nodup_nil, and_true] at q0 h2
  refine ⟨s, s', f, _, hr, hf, h4.trans ?_, h5, rfl⟩
  obtain ⟨⟨ab, ac, ad⟩, ⟨bc, bd⟩, cd⟩ := h2
  obtain ⟨na, nb, nc, nd⟩ := q0
  simp [Segments.spec, Cursor.start, Cursor.ask, Part.pull, Segments.ahead, Segments.after, names, List.idxOf_cons, List.lookup_cons, Out.forget,
    ab, ac, ad, bc, bd, cd, na, nb, nc, nd, Ne.symm ab, Ne.symm ac, Ne.symm ad, Ne.symm bc, Ne.symm bd, Ne.symm cd,
    Ne.symm na, Ne.symm nb, Ne.symm nc, Ne.symm nd,
    beq_false_of_ne ab, beq_false_of_ne (Ne.symm ab), beq_false_of_ne ac, beq_false_of_ne (Ne.symm ac), beq_false_of_ne ad, beq_false_of_ne (Ne.symm ad), beq_false_of_ne bc, beq_false_of_ne (Ne.symm bc), beq_false_of_ne bd, beq_false_of_ne (Ne.symm bd), beq_false_of_ne cd, beq_false_of_ne (Ne.symm cd),
    beq_false_of_ne na, beq_false_of_ne (Ne.symm na), beq_false_of_ne nb, beq_false_of_ne (Ne.symm nb), beq_false_of_ne nc, beq_false_of_ne (Ne.symm nc), beq_false_of_ne nd, beq_false_of_ne (Ne.symm nd)]

/-- The hypotheses of `live_split_all` are met, and all ends are reported: two segments pulled alternately. -/
example : ∃ (s : St Int Int) (f : Option Nat) (outs : List (Out (Int × Int))), Reaches cmpInt 0 0 s [(1, 10), (2, 20), (3, 30), (4, 40)] ∧ first s = .ok f ∧
    liveSplit cmpInt 0 0 (Int.tdiv s.size 2) s (0, f) [] [.ask, .ask, .pull 1, .pull 0, .pull 1, .pull 0, .pull 0, .pull 1, .ask] = .ok (outs, s) ∧
    outs = [.part true, .part true, .elem 1 (some (3, 30)), .elem 0 (some (1, 10)), .elem 1 (some (4, 40)), .elem 0 (some (2, 20)), .elem 0 none,
      .elem 1 none, .part false] ∧ (Segments.delivered outs).Perm [(1, 10), (2, 20), (3, 30), (4, 40)] := by
  obtain ⟨s, hr⟩ := four_entries
  obtain ⟨f, hf, -⟩ := hr.2.iter
  have hs : ∀ a b, cmpInt a b = 0 → cmpInt b a = 0 := fun _ _ h => cmpInt_threeWay.zero_symm h
  obtain ⟨outs, e, hall⟩ := live_split_all hs hr 2 (by omega) [.ask, .ask, .pull 1, .pull 0, .pull 1, .pull 0, .pull 0, .pull 1, .ask] (by simp) hf
  obtain ⟨M, its, s', h1, h2, h3, h4, -, h5⟩ := live_split_refines hs hr 2 (by omega)
    [.ask, .ask, .pull 1, .pull 0, .pull 1, .pull 0, .pull 0, .pull 1, .ask] (by simp) hf
  obtain ⟨j13, rfl, g13⟩ := follows_ask h3
  obtain ⟨j14, rfl, g14⟩ := follows_ask g13
  obtain ⟨j15, rfl, g15⟩ := follows_pull g14
  obtain ⟨j16, rfl, g16⟩ := follows_pull g15
  obtain ⟨j17, rfl, g17⟩ := follows_pull g16
  obtain ⟨j18, rfl, g18⟩ := follows_pull g17
  obtain ⟨j19, rfl, g19⟩ := follows_pull g18
  obtain ⟨j20, rfl, g20⟩ := follows_pull g19
  obtain ⟨j21, rfl, g21⟩ := follows_ask g20
  obtain rfl := follows_nil g21
  obtain ⟨a, b, c, d, rfl⟩ : ∃ a b c d, M = [(a, (1, 10)), (b, (2, 20)), (c, (3, 30)), (d, (4, 40))] := by
    match M, h1 with
    | [(a, _), (b, _), (c, _), (d, _)], h1 =>
      simp only [List.map_cons, List.map_nil, List.cons.injEq, and_true] at h1
      obtain ⟨rfl, rfl, rfl, rfl⟩ := h1
      exact ⟨a, b, c, d, rfl⟩
  simp only [names, List.map_cons, List.map_nil, List.mem_cons, List.not_mem_nil, or_false, not_or, List.nodup_cons, not_false_eq_true,
    List.nodup_nil, and_true] at h2
  obtain ⟨⟨ab, ac, ad⟩, ⟨bc, bd⟩, cd⟩ := h2
  have ho : outs = [.part true, .part true, .elem 1 (some (3, 30)), .elem 0 (some (1, 10)), .elem 1 (some (4, 40)), .elem 0 (some (2, 20)), .elem 0 none,
      .elem 1 none, .part false] := by
    rw [e, Res.ok.injEq, Prod.mk.injEq] at h4
    rw [h4.1]
    simp [Segments.spec, Cursor.start, Cursor.ask, Part.pull, Segments.ahead, Segments.after, names, List.idxOf_cons, List.lookup_cons, Out.forget,
      ab, ac, ad, bc, bd, cd, Ne.symm ab, Ne.symm ac, Ne.symm ad, Ne.symm bc, Ne.symm bd, Ne.symm cd,
      beq_false_of_ne ab, beq_false_of_ne (Ne.symm ab), beq_false_of_ne ac, beq_false_of_ne (Ne.symm ac), beq_false_of_ne ad, beq_false_of_ne (Ne.symm ad), beq_false_of_ne bc, beq_false_of_ne (Ne.symm bc), beq_false_of_ne bd, beq_false_of_ne (Ne.symm bd), beq_false_of_ne cd, beq_false_of_ne (Ne.symm cd)]
  refine ⟨s, f, outs, hr, hf, e, ho, hall ?_ ?_⟩
  · simp [ho]
  · intro j hj
    rw [ho] at hj ⊢
    simp only [Segments.handed] at hj
    have : j = 0 ∨ j = 1 := by omega
    rcases this with rfl | rfl <;> simp

end Gds.SkipList
