import Verif.RBTree.Effect
import Verif.RBTree.Split
import Verif.RBTree.Sound

/-! C106: where `LeftMost` and `RightMost` point after every call, and what `Iter`, `String` and `SplitableIter` then deliver, for keys put in
any order. -/

namespace Gds.RBTree

variable {K V : Type}

/-! ### One call -/

/-- C106: `Put`, after any history and with any comparator.  An overwriting `Put` moves neither end; the first entry becomes both ends; a new
node behind `i` never moves `LeftMost`, and becomes `RightMost` if `i` was. -/
theorem put_ends (cmp : Compare K) (z : K × V) (ops : List (Op K V)) {s : Tree K V × List Nat} (e : run cmp (new z, []) ops = .ok s)
    {L : List Nat} (hL : Navigable s.1.heap (s.1.heap.parent 0) L) (k : K) (v : V) :
    ∃ b t' L', put cmp s.1 k v = .ok (b, t') ∧ Navigable t'.heap (t'.heap.parent 0) L' ∧
      ((b = false ∧ L' = L ∧ leftMost t' = leftMost s.1 ∧ rightMost t' = rightMost s.1) ∨
       (b = true ∧ L = [] ∧ ∃ n, L' = [n] ∧ leftMost t' = some n ∧ rightMost t' = some n) ∨
       (b = true ∧ ∃ as i D n bs, L = as ++ i :: (D ++ bs) ∧ D.length ≤ 1 ∧ L' = as ++ i :: n :: bs ∧ n ∉ L ∧ leftMost t' = leftMost s.1 ∧
        rightMost t' = if rightMost s.1 = some i then some n else rightMost s.1)) := by
  obtain ⟨tr, U, h, -, -⟩ := run_inv cmp ops (inv_new z) e
  obtain rfl := hL.unique h.holds.navigable
  have hroot := h.holds.root
  rcases descend_exact cmp k tr .top h.holds with ⟨i, hi, e, es⟩ | ⟨es, ⟨rfl, e⟩ | ⟨c, l, r, i, rfl, hlr, -, e⟩⟩
  · refine ⟨false, { s.1 with heap := rekv s.1.heap i ((s.1.heap.kv i).1, v) }, tr.ids, ?_, (h.rekv (h.holds.pos i hi) _).holds.navigable,
      .inl ⟨rfl, rfl, rfl, rfl⟩⟩
    rw [put, putInner, hroot]; simp only [Ctx.par] at e; rw [e]; rfl
  · obtain ⟨n, t', e', hn, ok', hsz, hkv, hl, hr⟩ := insertAt_empty h k v
    refine ⟨true, { t' with size := t'.size + 1 }, [n], ?_, ok'.holds.navigable, .inr (.inl ⟨rfl, rfl, n, rfl, hl, hr⟩)⟩
    have : putInner cmp s.1 k v = .ok (true, t') := by rw [putInner, hroot]; simp only [Ctx.par] at e; rw [e]; exact e'
    rw [put, this]; rfl
  · have hlr' : l = .nil ∨ r = .nil := by rcases hlr with h | h <;> [exact .inl h.1; exact .inr h.1]
    obtain ⟨n, t', tr', e', hn, ok', hsz, hids, hkv, hl, hr, -⟩ := insertAt_spec h hlr' k v
    refine ⟨true, { t' with size := t'.size + 1 }, tr'.ids, ?_, ok'.holds.navigable,
      .inr (.inr ⟨rfl, c.before ++ l.ids, i, r.ids, n, c.after, ?_, ?_, ?_, fun hh => hn (h.sub n hh), hl, hr⟩)⟩
    · have : putInner cmp s.1 k v = .ok (true, t') := by rw [putInner, hroot]; simp only [Ctx.par, Ctx.plug] at e; rw [e]; exact e'
      rw [put, this]; rfl
    · rw [ids_plug]; simp [T.ids]
    · rcases hlr with ⟨rfl, -⟩ | ⟨rfl, -⟩
      · rw [right_small h.rb]; cases r.root <;> simp
      · simp [T.ids]
    · rw [hids]

/-- C106: `Delete` of a key that is found in node `i`, after any history and with any comparator, if the deletion returns.  A key not below the
zero key moves `RightMost` to the node before it, wherever that is, and leaves `LeftMost`; a key below the zero key leaves `RightMost`, and moves
`LeftMost` to the node behind it if the key of `LeftMost` is not below it.  When `Size` gets 0 both are nil. -/
theorem delete_ends (cmp : Compare K) (z : K × V) (ops : List (Op K V)) {s : Tree K V × List Nat} (e : run cmp (new z, []) ops = .ok s)
    {P S : List Nat} {i : Nat} (hL : Navigable s.1.heap (s.1.heap.parent 0) (P ++ i :: S)) {k : K} (hk : search cmp s.1.heap k = .ok (some i))
    {r : Option Nat} {t' : Tree K V} (e' : delete cmp s.1 k = .ok (r, t')) :
    (sizeOf s.1 = 1 → leftMost t' = none ∧ rightMost t' = none) ∧
    (sizeOf s.1 ≠ 1 → 0 ≤ cmp (s.1.heap.kv i).1 z.1 → leftMost t' = leftMost s.1 ∧ rightMost t' = P.getLast?) ∧
    (sizeOf s.1 ≠ 1 → cmp (s.1.heap.kv i).1 z.1 < 0 → rightMost t' = rightMost s.1 ∧
      ∃ q, leftMost s.1 = some q ∧ leftMost t' = if cmp (s.1.heap.kv q).1 (s.1.heap.kv i).1 < 0 then some q else S.head?) := by
  obtain ⟨tr, U, h, -, -⟩ := run_inv cmp ops (inv_new z) e
  have hids := hL.unique h.holds.navigable
  rw [delete, hk] at e'
  simp only [Res.bind_ok] at e'
  rcases removeNode_spec h hids.symm cmp with ⟨-, -, e2⟩ | ⟨h0, rm, t2, tr', e2, R⟩
  · rw [e2] at e'; cases e'
  rw [e2] at e'; cases e'
  have hl := R.left
  have hr := R.right
  rw [R.size] at hl hr
  simp only [leftMost, rightMost, sizeOf]
  refine ⟨fun h1 => ?_, fun h1 h2 => ?_, fun h1 h2 => ?_⟩
  · rw [hl, hr, h1]; simp
  · rw [if_neg (by omega)] at hl hr
    rw [hl, hr, leftAfter, h.zero, if_pos (by omega), if_pos (by omega)]; simp
  · rw [if_neg (by omega)] at hl hr
    rw [hr, if_neg (by omega)]
    refine ⟨rfl, ?_⟩
    rw [hl, leftAfter, h.zero, if_neg (by omega)]
    cases hq : s.1.heap.left 0 with
    | none => have := h0 hq; omega
    | some q =>
      refine ⟨q, rfl, ?_⟩
      by_cases hh : cmp (s.1.heap.kv q).1 (s.1.heap.kv i).1 < 0
      · rw [if_pos hh]; simp only; rw [if_neg (by omega)]
      · rw [if_neg hh]; simp only; rw [if_pos (by omega)]

/-! ### `LeftMost` is the first node -/

/-- Removing `e` from between `P` and `S` leaves the tree knowing its first node. -/
def Safe (cmp : Compare K) (zk : K) : List (K × V) → K × V → List (K × V) → Prop
  | [], e, S => S = [] ∨ cmp e.1 zk < 0 ∧ 0 ≤ cmp e.1 e.1
  | f :: _, e, _ => 0 ≤ cmp e.1 zk ∨ cmp f.1 e.1 < 0

/-- The first node is known, and there are at most `Size` nodes. -/
structure Anchored (t : Tree K V) (tr : T) : Prop where
  first : tr.ids ≠ [] → t.heap.left 0 = tr.ids.head?
  len : (tr.ids.length : Int) ≤ t.size

theorem Removed.anchored {z : K × V} {cmp : Compare K} {t t' : Tree K V} {tr tr' : T} {U as bs : List Nat} {i rm : Nat}
    (R : Removed z cmp t t' tr tr' U as i bs rm) (ok : OK z t tr U) (e : tr.ids = as ++ i :: bs) (h : Anchored t tr) :
    Anchored t' tr' ↔ Safe cmp z.1 (as.map t.heap.kv) (t.heap.kv i) (bs.map t.heap.kv) := by
  have hlen := R.len e
  have hn := ok.holds.nodup
  have hf := h.first (by rw [e]; simp)
  have hsz : tr'.ids ≠ [] → t'.heap.left 0 = leftAfter cmp t.heap i bs := by
    intro hne
    rw [R.left, if_neg]
    have := List.length_pos_iff.2 hne
    have := h.len
    rw [R.size]; omega
  have hlen' : (tr'.ids.length : Int) ≤ t'.size := by
    have := h.len; rw [R.size]; omega
  have hA : Anchored t' tr' ↔ (tr'.ids ≠ [] → leftAfter cmp t.heap i bs = tr'.ids.head?) :=
    ⟨fun q hne => by rw [← hsz hne]; exact q.first hne, fun q => ⟨fun hne => by rw [hsz hne]; exact q hne, hlen'⟩⟩
  rw [hA, leftAfter, ok.zero, hf, e]
  cases as with
  | nil =>
    have hi : tr'.ids = bs := by
      rcases R.ids with ⟨_, hi⟩ | ⟨hh, _⟩
      · simpa using hi
      · exact absurd rfl hh
    rw [hi]
    simp only [List.nil_append, List.head?_cons, List.map_nil, Safe, List.map_eq_nil_iff]
    cases bs with
    | nil => simp
    | cons b bs =>
      have hib : i ≠ b := by rw [e] at hn; simp at hn; exact hn.1.1
      by_cases h1 : cmp (t.heap.kv i).1 z.1 > -1
      · rw [if_pos h1]
        simp only [ne_eq, reduceCtorEq, not_false_eq_true, List.head?_cons, Option.some.injEq, forall_const, false_or]
        exact ⟨fun q => absurd q hib, fun q => by omega⟩
      · rw [if_neg h1]
        by_cases h2 : cmp (t.heap.kv i).1 (t.heap.kv i).1 > -1
        · rw [if_pos h2]; simp; omega
        · rw [if_neg h2]; simp [hib]; omega
  | cons a as =>
    have hi : tr'.ids.head? = some a := by rcases R.ids with ⟨_, hi⟩ | ⟨_, bs', _, hi⟩ <;> rw [hi] <;> rfl
    have hne : tr'.ids ≠ [] := by intro hh; rw [hh] at hi; cases hi
    have hab : bs.head? ≠ some a := by
      rw [e] at hn
      intro hb
      have : a ∈ bs := List.mem_of_mem_head? (by rw [hb]; rfl)
      simp at hn; exact hn.1.2.2 this
    rw [hi]
    simp only [ne_eq, hne, not_false_eq_true, forall_const, List.cons_append, List.head?_cons, List.map_cons, Safe]
    by_cases h1 : cmp (t.heap.kv i).1 z.1 > -1
    · rw [if_pos h1]; simp; omega
    · rw [if_neg h1]
      by_cases h2 : cmp (t.heap.kv a).1 (t.heap.kv i).1 > -1
      · rw [if_pos h2]; simp only [hab, false_iff]; omega
      · rw [if_neg h2]; simp; omega

/-- C106: exactly which deletions make `LeftMost` forget the first node (an `iff`): if `LeftMost` was the first node and `Size` did not fall
below the number of nodes, then after the deletion it is (or nothing is left) if and only if the removal was `Safe`. -/
theorem delete_first_iff (cmp : Compare K) (z : K × V) (ops : List (Op K V)) {s : Tree K V × List Nat} (e : run cmp (new z, []) ops = .ok s)
    (hp : NoPutNode ops) {P S : List Nat} {i : Nat} (hL : Navigable s.1.heap (s.1.heap.parent 0) (P ++ i :: S)) {k : K}
    (hk : search cmp s.1.heap k = .ok (some i)) (hfirst : leftMost s.1 = (P ++ i :: S).head?)
    {r : Option Nat} {t' : Tree K V} (e' : delete cmp s.1 k = .ok (r, t')) :
    ∃ L', Navigable t'.heap (t'.heap.parent 0) L' ∧
      ((L' = [] ∨ leftMost t' = L'.head?) ↔ Safe cmp z.1 (P.map s.1.heap.kv) (s.1.heap.kv i) (S.map s.1.heap.kv)) := by
  have hsz := (size_gap cmp z ops hp e hL).1
  obtain ⟨tr, U, h, -, -⟩ := run_inv cmp ops (inv_new z) e
  have hids := hL.unique h.holds.navigable
  rw [delete, hk] at e'
  simp only [Res.bind_ok] at e'
  rcases removeNode_spec h hids.symm cmp with ⟨-, -, e2⟩ | ⟨h0, rm, t2, tr', e2, R⟩
  · rw [e2] at e'; cases e'
  rw [e2] at e'; cases e'
  refine ⟨tr'.ids, R.ok.holds.navigable, ?_⟩
  rw [hids] at hsz hfirst
  have han : Anchored s.1 tr := ⟨fun _ => hfirst, hsz⟩
  rw [← R.anchored h hids.symm han]
  refine ⟨fun q => ⟨fun hne => q.resolve_left hne, ?_⟩, fun q => ?_⟩
  · have := R.len hids.symm; have := han.len; rw [R.size]; omega
  · by_cases hne : tr'.ids = []
    · exact .inl hne
    · exact .inr (q.first hne)

/-! ### Histories -/

/-- Deleting `k` now is safe. -/
def SafeDel (cmp : Compare K) (zk : K) (t : Tree K V) (k : K) : Prop :=
  ∀ P i S, Navigable t.heap (t.heap.parent 0) (P ++ i :: S) → search cmp t.heap k = .ok (some i) →
    Safe cmp zk (P.map t.heap.kv) (t.heap.kv i) (S.map t.heap.kv)

/-- Deleting these keys one after the other is safe. -/
def SafeDels (cmp : Compare K) (zk : K) : Tree K V → List K → Prop
  | _, [] => True
  | t, k :: ks => SafeDel cmp zk t k ∧ ∀ n t', deleteKeys cmp t [k] = .ok (n, t') → SafeDels cmp zk t' ks

/-- This call is safe. -/
def SafeOp (cmp : Compare K) (zk : K) (s : Tree K V × List Nat) : Op K V → Prop
  | .delete k => SafeDel cmp zk s.1 k
  | .deleteKeys ks => SafeDels cmp zk s.1 ks
  | .deleteMapping k v vc => ∀ i, search cmp s.1.heap k = .ok (some i) → vc v (s.1.heap.kv i).2 = 0 → SafeDel cmp zk s.1 k
  | _ => True

/-- Every call of the history that starts in `s` is safe. -/
def SafeOps (cmp : Compare K) (zk : K) : Tree K V × List Nat → List (Op K V) → Prop
  | _, [] => True
  | s, op :: ops => SafeOp cmp zk s op ∧ ∀ s', step cmp s op = .ok s' → SafeOps cmp zk s' ops

/-- What a user sees of a tree whose first node is known: `LeftMost`, `Iter`, `String` and `SplitableIter(p ≤ 0)` show the nodes in `Next` order. -/
structure Shows (t : Tree K V) (L : List Nat) : Prop where
  leftMost : leftMost t = L.head?
  iter : toList t = .ok (L.map t.heap.kv)
  string : ∀ fmt, toString fmt t = .ok (specString fmt (L.map t.heap.kv))
  split0 : ∀ (p : Int) (node : Option Nat), p ≤ 0 → ∃ g st, Iter.Yields (splitNext t p) (0, node) [g] st ∧ splitNext t p st = .ok (none, st) ∧
    SegYields t.heap g (L.map t.heap.kv)
  /-- `SplitableIter(p)`, if `Size` tells the number of entries. -/
  split : sizeOf t = L.length → ∀ p : Nat, 1 ≤ p → p ≤ L.length → ∃ (segs : List (SegIter × List (K × V))) (st : Int × Option Nat),
      Iter.Yields (splitNext t p) (0, RBTree.leftMost t) (segs.map (·.1)) st ∧ splitNext t p st = .ok (none, st) ∧
      (∀ g ∈ segs, SegYields t.heap g.1 g.2 ∧ 0 < g.2.length) ∧ segs.map (·.2) = Slice.cuts (L.length / p) (L.map t.heap.kv)

theorem Anchored.shows {z : K × V} {t : Tree K V} {tr : T} {U : List Nat} (h : Anchored t tr) (ok : OK z t tr U) (hne : tr.ids ≠ []) : Shows t tr.ids := by
  have hf := h.first hne
  refine ⟨hf, ?_, fun fmt => ?_, fun p node hp => ?_, fun hsz p hp hle => ?_⟩
  · rw [toList, hf]; exact drain_spec ok.holds tr.ids [] rfl
  · rw [toString, hf, stringLoop_spec fmt ok.holds tr.ids [] _ rfl, specString, List.map_map]; rfl
  · refine ⟨.whole (t.heap.left 0), (1, node), .cons (s₁ := (1, node)) ?_ (.nil _), ?_, ?_⟩
    · simp [splitNext, hp]
    · simp [splitNext, hp]
    · rw [hf]; exact seg_whole ok.holds tr.ids [] rfl
  · have hq : Int.tdiv (tr.ids.length : Int) (p : Int) = ((tr.ids.length / p : Nat) : Int) := by
      rw [Int.tdiv_eq_ediv_of_nonneg (by omega)]; simp
    obtain ⟨segs, st, h1, h2, -, h4, -, h6⟩ := split_from ok.holds hsz (p : Int) (by omega) _ hq (Nat.div_pos (by omega) (by omega)) 0
    refine ⟨segs, st, ?_, h2, h4, by rw [h6]; rfl⟩
    rw [leftMost, hf]; exact h1

theorem put_anchored {z : K × V} {cmp : Compare K} {t : Tree K V} {tr : T} {U : List Nat} (h : OK z t tr U) (ha : Anchored t tr) (k : K) (v : V) :
    ∃ b t' tr' U', put cmp t k v = .ok (b, t') ∧ OK z t' tr' U' ∧ Anchored t' tr' ∧ (∀ u ∈ U, u ∈ U') ∧ (∀ u ∈ U, u ∉ tr.ids → u ∉ tr'.ids) ∧
      (∀ f, tr.ids.head? = some f → tr'.ids.head? = some f ∧ (t'.heap.kv f).1 = (t.heap.kv f).1) ∧
      (tr.ids = [] → ∃ f, tr'.ids.head? = some f ∧ (t'.heap.kv f).1 = k) := by
  have hroot := h.holds.root
  rcases descend_exact cmp k tr .top h.holds with ⟨i, hi, e, es⟩ | ⟨es, ⟨rfl, e⟩ | ⟨c, l, r, i, rfl, hlr, -, e⟩⟩
  · refine ⟨false, { t with heap := rekv t.heap i ((t.heap.kv i).1, v) }, tr, U, ?_, h.rekv (h.holds.pos i hi) _, ⟨ha.first, ha.len⟩, fun _ q => q,
      fun _ _ q => q, fun f hf => ⟨hf, ?_⟩, fun hh => by rw [hh] at hi; cases hi⟩
    · rw [put, putInner, hroot]; simp only [Ctx.par] at e; rw [e]; rfl
    · show (if f = i then ((t.heap.kv i).1, v) else t.heap.kv f).1 = _
      split
      next hfi => rw [hfi]
      next => rfl
  · obtain ⟨n, t', e', hn, ok', hsz, hkv, hl, -⟩ := insertAt_empty h k v
    refine ⟨true, { t' with size := t'.size + 1 }, .node .nil n .nil, n :: U, ?_, ⟨ok'.holds, ok'.rb, ok'.buf, ok'.sub, ok'.zero⟩, ⟨fun _ => hl, ?_⟩,
      fun u hu => by simp [hu], fun u hu _ => ?_, by simp [T.ids], fun _ => ⟨n, rfl, ?_⟩⟩
    · have : putInner cmp t k v = .ok (true, t') := by rw [putInner, hroot]; simp only [Ctx.par] at e; rw [e]; exact e'
      rw [put, this]; rfl
    · have := ha.len; simp only [T.ids, List.nil_append, List.length_singleton, List.length_nil] at this ⊢; rw [hsz]; omega
    · simp only [T.ids, List.nil_append, List.mem_singleton]; rintro rfl; exact hn hu
    · show (t'.heap.kv n).1 = k; rw [hkv, if_pos rfl]
  · have hlr' : l = .nil ∨ r = .nil := by rcases hlr with h | h <;> [exact .inl h.1; exact .inr h.1]
    obtain ⟨n, t', tr', e', hn, ok', hsz, hids, hkv, hl, -⟩ := insertAt_spec h hlr' k v
    have hd : tr'.ids.head? = (c.plug (.node l i r)).ids.head? := by
      rw [hids, ids_plug]
      simp only [T.ids]
      cases c.before with
      | cons => rfl
      | nil => cases l.ids <;> rfl
    have hne : (c.plug (.node l i r)).ids ≠ [] := by rw [ids_plug]; simp [T.ids]
    refine ⟨true, { t' with size := t'.size + 1 }, tr', n :: U, ?_, ⟨ok'.holds, ok'.rb, ok'.buf, ok'.sub, ok'.zero⟩, ⟨fun _ => ?_, ?_⟩,
      fun u hu => by simp [hu], fun u hu hnu hh => ?_, fun f hf => ⟨by rw [hd, hf], ?_⟩, fun hh => absurd hh hne⟩
    · have : putInner cmp t k v = .ok (true, t') := by rw [putInner, hroot]; simp only [Ctx.par, Ctx.plug] at e; rw [e]; exact e'
      rw [put, this]; rfl
    · rw [hd]; show t'.heap.left 0 = _; rw [hl]; exact ha.first hne
    · have := ha.len
      rw [ids_plug] at this
      rw [hids]
      simp only [T.ids, List.length_append, List.length_cons] at this ⊢; rw [hsz]; push_cast at *; omega
    · rw [hids] at hh
      apply hnu
      rw [ids_plug]
      simp only [T.ids, List.mem_append, List.mem_cons] at hh ⊢
      have : u ≠ n := by rintro rfl; exact hn hu
      tauto
    · show (t'.heap.kv f).1 = _
      rw [hkv, if_neg]
      rintro rfl
      exact hn (h.sub _ (List.mem_of_mem_head? (by rw [hf]; rfl)))

theorem removeNode_anchored {z : K × V} {cmp : Compare K} {t : Tree K V} {tr : T} {U as bs : List Nat} {i : Nat} (h : OK z t tr U) (ha : Anchored t tr)
    (e : tr.ids = as ++ i :: bs) (hs : Safe cmp z.1 (as.map t.heap.kv) (t.heap.kv i) (bs.map t.heap.kv)) :
    ∃ rm t' tr', removeNode cmp t i = .ok (some rm, t') ∧ OK z t' tr' U ∧ Anchored t' tr' ∧ rm ∈ U ∧ rm ∉ tr'.ids ∧ (∀ u ∈ U, u ∉ tr.ids → u ∉ tr'.ids) ∧
      (as ≠ [] → tr'.ids.head? = tr.ids.head? ∧ ∀ f, tr.ids.head? = some f → t'.heap.kv f = t.heap.kv f) := by
  rcases removeNode_spec h e cmp with ⟨e1, -, -⟩ | ⟨h0, rm, t', tr', e2, R⟩
  · have := ha.first (by rw [e]; simp)
    rw [e1, e] at this
    cases as <;> cases this
  · refine ⟨rm, t', tr', e2, R.ok, (R.anchored h e ha).2 hs, h.sub _ R.mem, (rm_out h.holds.nodup e R.ids).1,
      fun u _ hn hh => hn ((rm_out h.holds.nodup e R.ids).2 u hh), fun hne => ?_⟩
    obtain ⟨a, as, rfl⟩ := List.exists_cons_of_ne_nil hne
    refine ⟨by rcases R.ids with ⟨_, hi⟩ | ⟨_, bs', _, hi⟩ <;> rw [hi, e] <;> rfl, fun f hf => ?_⟩
    rw [R.kv, if_neg]
    rintro rfl
    have hn := h.holds.nodup
    rw [e] at hf hn
    cases hf
    simp at hn

theorem SafeDel.at {z : K × V} {cmp : Compare K} {t : Tree K V} {tr : T} {U : List Nat} {k : K} (h : OK z t tr U) (hs : SafeDel cmp z.1 t k)
    {i : Nat} (hi : i ∈ tr.ids) (e : search cmp t.heap k = .ok (some i)) :
    ∃ as bs, tr.ids = as ++ i :: bs ∧ Safe cmp z.1 (as.map t.heap.kv) (t.heap.kv i) (bs.map t.heap.kv) := by
  obtain ⟨as, bs, hab⟩ := List.append_of_mem hi
  refine ⟨as, bs, hab, hs as i bs ?_ e⟩
  rw [← hab]; exact h.holds.navigable

theorem OK.free {z : K × V} {t : Tree K V} {tr : T} {U : List Nat} {n : Nat} (h : OK z t tr U) (ha : Anchored t tr) (hn : n ∈ U) (hnt : n ∉ tr.ids) :
    ∃ t', freeNode t (some n) = .ok t' ∧ OK z t' tr (U.filter (· ≠ n)) ∧ Anchored t' tr ∧ t'.heap.kv = t.heap.kv := by
  obtain ⟨t', e, ok, hs, hkv, hl⟩ := freeNode_spec h hn hnt
  exact ⟨t', e, ok, ⟨fun hne => by rw [hl]; exact ha.first hne, by rw [hs]; exact ha.len⟩, hkv⟩

theorem deleteKeys_anchored {z : K × V} {cmp : Compare K} (ks : List K) {t : Tree K V} {tr : T} {U : List Nat} (h : OK z t tr U) (ha : Anchored t tr)
    (hs : SafeDels cmp z.1 t ks) : ∃ n t' tr' U', deleteKeys cmp t ks = .ok (n, t') ∧ OK z t' tr' U' ∧ Anchored t' tr' := by
  induction ks generalizing t tr U with
  | nil => exact ⟨0, t, tr, U, rfl, h, ha⟩
  | cons k ks ih =>
    obtain ⟨hs1, hs2⟩ := hs
    rcases search_any h cmp k with ⟨i, hi, e⟩ | e
    · obtain ⟨as, bs, hab, hsafe⟩ := hs1.at h hi e
      obtain ⟨rm, t1, tr1, e1, ok1, ha1, hrU, hr1, -, -⟩ := removeNode_anchored h ha hab hsafe
      obtain ⟨t2, e2, ok2, ha2, -⟩ := ok1.free ha1 hrU hr1
      have hd : delete cmp t k = .ok (some rm, t1) := by rw [delete, e]; exact e1
      have h1 : deleteKeys cmp t [k] = .ok (1, t2) := by
        simp only [deleteKeys, hd, Res.bind_ok, ne_eq, reduceCtorEq, not_false_eq_true, if_true, e2]; rfl
      obtain ⟨n, t3, tr3, U3, e3, ok3, ha3⟩ := ih ok2 ha2 (hs2 _ _ h1)
      refine ⟨n + 1, t3, tr3, U3, ?_, ok3, ha3⟩
      rw [deleteKeys, hd]
      simp only [Res.bind_ok, ne_eq, reduceCtorEq, not_false_eq_true, if_true, e2, e3]; rfl
    · have hd : delete cmp t k = .ok (none, t) := by rw [delete, e]; rfl
      have h1 : deleteKeys cmp t [k] = .ok (0, t) := by
        simp only [deleteKeys, hd, Res.bind_ok, ne_eq, not_true_eq_false, if_false]; rfl
      obtain ⟨n, t3, tr3, U3, e3, ok3, ha3⟩ := ih h ha (hs2 _ _ h1)
      refine ⟨n, t3, tr3, U3, ?_, ok3, ha3⟩
      rw [deleteKeys, hd]
      simp only [Res.bind_ok, ne_eq, not_true_eq_false, if_false, e3]

theorem clear_anchored (t : Tree K V) : Anchored (clear t) .nil := ⟨by simp [T.ids], by simp [T.ids, clear]⟩

theorem step_anchored {z : K × V} {cmp : Compare K} {s : Tree K V × List Nat} {tr : T} {U : List Nat} (h : OK z s.1 tr U) (ha : Anchored s.1 tr)
    (op : Op K V) (hp : ∀ j, op ≠ .putNode j) (hs : SafeOp cmp z.1 s op) :
    ∃ s' tr' U', step cmp s op = .ok s' ∧ OK z s'.1 tr' U' ∧ Anchored s'.1 tr' := by
  cases op with
  | put k v =>
    obtain ⟨b, t', tr', U', e, ok, an, -⟩ := put_anchored (cmp := cmp) h ha k v
    exact ⟨(t', s.2), tr', U', by rw [step, e]; rfl, ok, an⟩
  | delete k =>
    rcases search_any h cmp k with ⟨i, hi, e⟩ | e
    · obtain ⟨as, bs, hab, hsafe⟩ := SafeDel.at h hs hi e
      obtain ⟨rm, t1, tr1, e1, ok1, ha1, -⟩ := removeNode_anchored h ha hab hsafe
      have hd : delete cmp s.1 k = .ok (some rm, t1) := by rw [delete, e]; exact e1
      exact ⟨(t1, rm :: s.2), tr1, U, by rw [step, hd]; rfl, ok1, ha1⟩
    · have hd : delete cmp s.1 k = .ok (none, s.1) := by rw [delete, e]; rfl
      exact ⟨(s.1, s.2), tr, U, by rw [step, hd]; rfl, h, ha⟩
  | deleteKeys ks =>
    obtain ⟨n, t', tr', U', e, ok, an⟩ := deleteKeys_anchored ks h ha hs
    exact ⟨(t', s.2), tr', U', by rw [step, e]; rfl, ok, an⟩
  | deleteMapping k v vc =>
    rcases search_any h cmp k with ⟨i, hi, e⟩ | e
    · by_cases hv : vc v (s.1.heap.kv i).2 = 0
      · obtain ⟨as, bs, hab, hsafe⟩ := SafeDel.at h (hs i e hv) hi e
        obtain ⟨rm, t1, tr1, e1, ok1, ha1, hrU, hr1, -⟩ := removeNode_anchored h ha hab hsafe
        obtain ⟨t2, e2, ok2, ha2, -⟩ := ok1.free ha1 hrU hr1
        refine ⟨(t2, s.2), tr1, _, ?_, ok2, ha2⟩
        rw [step, deleteByWholeMapping, e]; simp [hv, e1, e2]
      · refine ⟨(s.1, s.2), tr, U, ?_, h, ha⟩
        rw [step, deleteByWholeMapping, e]; simp [hv]
    · refine ⟨(s.1, s.2), tr, U, ?_, h, ha⟩
      rw [step, deleteByWholeMapping, e]; rfl
  | clear => exact ⟨(clear s.1, s.2), .nil, U, rfl, h.clear, clear_anchored _⟩
  | putNode j => exact absurd rfl (hp j)

theorem run_anchored {z : K × V} {cmp : Compare K} (ops : List (Op K V)) {s : Tree K V × List Nat} {tr : T} {U : List Nat} (h : OK z s.1 tr U)
    (ha : Anchored s.1 tr) (hp : NoPutNode ops) (hs : SafeOps cmp z.1 s ops) : ∃ s' tr' U', run cmp s ops = .ok s' ∧ OK z s'.1 tr' U' ∧ Anchored s'.1 tr' := by
  induction ops generalizing s tr U with
  | nil => exact ⟨s, tr, U, rfl, h, ha⟩
  | cons op ops ih =>
    obtain ⟨s1, tr1, U1, e1, ok1, ha1⟩ := step_anchored h ha op (fun j hj => hp j (by simp [hj])) hs.1
    obtain ⟨s', tr', U', e', ok', ha'⟩ := ih ok1 ha1 (fun j hj => hp j (by simp [hj])) (hs.2 _ e1)
    exact ⟨s', tr', U', by rw [run_cons e1]; exact e', ok', ha'⟩

theorem anchored_new (z : K × V) : Anchored (new z) .nil := ⟨by simp [T.ids], by simp [T.ids, new]⟩

/-- C106: after every history of safe calls (any comparator, keys in any order) that does not use `PutNode`, no call has panicked, and if the
tree is not empty then `LeftMost`, `Iter`, `String` and `SplitableIter` show its nodes in the order of `Next`. -/
theorem shows_any_order (cmp : Compare K) (z : K × V) (ops : List (Op K V)) (hp : NoPutNode ops) (hs : SafeOps cmp z.1 (new z, []) ops) :
    ∃ s L, run cmp (new z, []) ops = .ok s ∧ Navigable s.1.heap (s.1.heap.parent 0) L ∧ (L ≠ [] → Shows s.1 L) := by
  obtain ⟨s, tr, U, e, ok, ha⟩ := run_anchored (s := (new z, [])) ops (ok_new z) (anchored_new z) hp hs
  exact ⟨s, tr.ids, e, ok.holds.navigable, fun hne => ha.shows ok hne⟩

/-! ### Keeping the first key -/

/-- Deleting `k` spares the first key `k0`: it is another key, and not below the zero key, or above `k0`. -/
def Spares (cmp : Compare K) (zk k0 k : K) : Prop := cmp k k0 ≠ 0 ∧ (0 ≤ cmp k zk ∨ cmp k0 k < 0)

/-- The call spares the first key. -/
def SparesOp (cmp : Compare K) (zk k0 : K) : Op K V → Prop
  | .put _ _ => True
  | .delete k => Spares cmp zk k0 k
  | .deleteKeys ks => ∀ k ∈ ks, Spares cmp zk k0 k
  | .deleteMapping k _ _ => Spares cmp zk k0 k
  | .clear => False
  | .putNode _ => False

/-- The structure, with the first node known and of key `k0`. -/
structure HeadAt (z : K × V) (k0 : K) (t : Tree K V) (tr : T) (U : List Nat) : Prop where
  ok : OK z t tr U
  anchored : Anchored t tr
  head : ∃ f, tr.ids.head? = some f ∧ (t.heap.kv f).1 = k0

theorem HeadAt.remove {z : K × V} {cmp : Compare K} (hc : cmp.ThreeWay) {k0 k : K} {t : Tree K V} {tr : T} {U : List Nat} (h : HeadAt z k0 t tr U)
    (hk : Spares cmp z.1 k0 k) {i : Nat} (hi : i ∈ tr.ids) (e : search cmp t.heap k = .ok (some i)) :
    ∃ rm t' tr', removeNode cmp t i = .ok (some rm, t') ∧ HeadAt z k0 t' tr' U ∧ rm ∈ U ∧ rm ∉ tr'.ids := by
  obtain ⟨f, hf, hf0⟩ := h.head
  have hit := search_hits h.ok.holds e
  have h0 : cmp k (t.heap.kv i).1 = 0 := by
    have := hc.range k (t.heap.kv i).1; have := hit.1; have := hit.2; omega
  obtain ⟨as, bs, hab⟩ := List.append_of_mem hi
  have has : ∃ as', as = f :: as' := by
    rw [hab] at hf
    cases as with
    | nil => cases hf; rw [hf0] at h0; exact absurd h0 hk.1
    | cons a as => cases hf; exact ⟨as, rfl⟩
  obtain ⟨as', rfl⟩ := has
  have hsafe : Safe cmp z.1 ((f :: as').map t.heap.kv) (t.heap.kv i) (bs.map t.heap.kv) := by
    simp only [List.map_cons, Safe, hf0]
    rcases hk.2 with q | q
    · left
      apply Classical.byContradiction
      intro hh
      have := hc.lt_of_le_of_lt (by omega : cmp k (t.heap.kv i).1 ≤ 0) (by omega : cmp (t.heap.kv i).1 z.1 < 0)
      omega
    · exact .inr (hc.lt_of_lt_of_le q (by omega))
  obtain ⟨rm, t', tr', e1, ok', ha', hrU, hr, -, hh⟩ := removeNode_anchored h.ok h.anchored hab hsafe
  obtain ⟨h1, h2⟩ := hh (by simp)
  exact ⟨rm, t', tr', e1, ⟨ok', ha', f, by rw [h1, hf], by rw [h2 f hf, hf0]⟩, hrU, hr⟩

theorem HeadAt.free {z : K × V} {k0 : K} {t : Tree K V} {tr : T} {U : List Nat} {n : Nat} (h : HeadAt z k0 t tr U) (hn : n ∈ U) (hnt : n ∉ tr.ids) :
    ∃ t', freeNode t (some n) = .ok t' ∧ HeadAt z k0 t' tr (U.filter (· ≠ n)) := by
  obtain ⟨t', e, ok, an, hkv⟩ := h.ok.free h.anchored hn hnt
  exact ⟨t', e, ok, an, by rw [hkv]; exact h.head⟩

theorem HeadAt.deleteKeys {z : K × V} {cmp : Compare K} (hc : cmp.ThreeWay) {k0 : K} (ks : List K) {t : Tree K V} {tr : T} {U : List Nat}
    (h : HeadAt z k0 t tr U) (hk : ∀ k ∈ ks, Spares cmp z.1 k0 k) : ∃ n t' tr' U', RBTree.deleteKeys cmp t ks = .ok (n, t') ∧ HeadAt z k0 t' tr' U' := by
  induction ks generalizing t tr U with
  | nil => exact ⟨0, t, tr, U, rfl, h⟩
  | cons k ks ih =>
    rcases search_any h.ok cmp k with ⟨i, hi, e⟩ | e
    · obtain ⟨rm, t1, tr1, e1, h1, hrU, hr1⟩ := h.remove hc (hk k (by simp)) hi e
      obtain ⟨t2, e2, h2⟩ := h1.free hrU hr1
      obtain ⟨n, t3, tr3, U3, e3, h3⟩ := ih h2 (fun k hk' => hk k (by simp [hk']))
      have hd : delete cmp t k = .ok (some rm, t1) := by rw [delete, e]; exact e1
      refine ⟨n + 1, t3, tr3, U3, ?_, h3⟩
      rw [RBTree.deleteKeys, hd]
      simp only [Res.bind_ok, ne_eq, reduceCtorEq, not_false_eq_true, if_true, e2, e3]; rfl
    · obtain ⟨n, t3, tr3, U3, e3, h3⟩ := ih h (fun k hk' => hk k (by simp [hk']))
      have hd : delete cmp t k = .ok (none, t) := by rw [delete, e]; rfl
      refine ⟨n, t3, tr3, U3, ?_, h3⟩
      rw [RBTree.deleteKeys, hd]
      simp only [Res.bind_ok, ne_eq, not_true_eq_false, if_false, e3]

theorem HeadAt.step {z : K × V} {cmp : Compare K} (hc : cmp.ThreeWay) {k0 : K} {s : Tree K V × List Nat} {tr : T} {U : List Nat}
    (h : HeadAt z k0 s.1 tr U) (op : Op K V) (hop : SparesOp cmp z.1 k0 op) :
    ∃ s' tr' U', RBTree.step cmp s op = .ok s' ∧ HeadAt z k0 s'.1 tr' U' := by
  cases op with
  | put k v =>
    obtain ⟨b, t', tr', U', e, ok, an, -, -, hh, -⟩ := put_anchored (cmp := cmp) h.ok h.anchored k v
    obtain ⟨f, hf, hf0⟩ := h.head
    exact ⟨(t', s.2), tr', U', by rw [RBTree.step, e]; rfl, ok, an, f, (hh f hf).1, by rw [(hh f hf).2, hf0]⟩
  | delete k =>
    rcases search_any h.ok cmp k with ⟨i, hi, e⟩ | e
    · obtain ⟨rm, t1, tr1, e1, h1, -⟩ := h.remove hc hop hi e
      have hd : delete cmp s.1 k = .ok (some rm, t1) := by rw [delete, e]; exact e1
      exact ⟨(t1, rm :: s.2), tr1, U, by rw [RBTree.step, hd]; rfl, h1⟩
    · have hd : delete cmp s.1 k = .ok (none, s.1) := by rw [delete, e]; rfl
      exact ⟨(s.1, s.2), tr, U, by rw [RBTree.step, hd]; rfl, h⟩
  | deleteKeys ks =>
    obtain ⟨n, t', tr', U', e, h'⟩ := h.deleteKeys hc ks hop
    exact ⟨(t', s.2), tr', U', by rw [RBTree.step, e]; rfl, h'⟩
  | deleteMapping k v vc =>
    rcases search_any h.ok cmp k with ⟨i, hi, e⟩ | e
    · by_cases hv : vc v (s.1.heap.kv i).2 = 0
      · obtain ⟨rm, t1, tr1, e1, h1, hrU, hr1⟩ := h.remove hc hop hi e
        obtain ⟨t2, e2, h2⟩ := h1.free hrU hr1
        refine ⟨(t2, s.2), tr1, _, ?_, h2⟩
        rw [RBTree.step, deleteByWholeMapping, e]; simp [hv, e1, e2]
      · refine ⟨(s.1, s.2), tr, U, ?_, h⟩
        rw [RBTree.step, deleteByWholeMapping, e]; simp [hv]
    · refine ⟨(s.1, s.2), tr, U, ?_, h⟩
      rw [RBTree.step, deleteByWholeMapping, e]; rfl
  | clear => exact hop.elim
  | putNode j => exact hop.elim

theorem HeadAt.run {z : K × V} {cmp : Compare K} (hc : cmp.ThreeWay) {k0 : K} (ops : List (Op K V)) {s : Tree K V × List Nat} {tr : T} {U : List Nat}
    (h : HeadAt z k0 s.1 tr U) (hop : ∀ op ∈ ops, SparesOp cmp z.1 k0 op) : ∃ s' tr' U', RBTree.run cmp s ops = .ok s' ∧ HeadAt z k0 s'.1 tr' U' := by
  induction ops generalizing s tr U with
  | nil => exact ⟨s, tr, U, rfl, h⟩
  | cons op ops ih =>
    obtain ⟨s1, tr1, U1, e1, h1⟩ := h.step hc op (hop op (by simp))
    obtain ⟨s', tr', U', e', h'⟩ := ih h1 (fun o ho => hop o (by simp [ho]))
    exact ⟨s', tr', U', by rw [run_cons e1]; exact e', h'⟩

/-- C106: put a first key `k0` into a new tree; then put any keys in any order, and delete any keys that spare `k0` (other keys that are not
below the zero value of the key type, or are above `k0`).  No call panics, `k0` is the first key, and `LeftMost`, `Iter`, `String` and
`SplitableIter` show all nodes in the order of `Next`. -/
theorem shows_first_kept {cmp : Compare K} (hc : cmp.ThreeWay) (z : K × V) (k0 : K) (v0 : V) (ops : List (Op K V))
    (hop : ∀ op ∈ ops, SparesOp cmp z.1 k0 op) :
    ∃ s i L, run cmp (new z, []) (.put k0 v0 :: ops) = .ok s ∧ Navigable s.1.heap (s.1.heap.parent 0) (i :: L) ∧ (s.1.heap.kv i).1 = k0 ∧ Shows s.1 (i :: L) := by
  obtain ⟨b, t1, tr1, U1, e1, ok1, an1, -, -, -, hh⟩ := put_anchored (cmp := cmp) (ok_new z) (anchored_new z) k0 v0
  obtain ⟨s, tr, U, e, h⟩ := HeadAt.run hc ops (s := (t1, [])) ⟨ok1, an1, hh rfl⟩ hop
  obtain ⟨f, hf, hf0⟩ := h.head
  obtain ⟨L, hL⟩ : ∃ L, tr.ids = f :: L := by
    cases hi : tr.ids with
    | nil => rw [hi] at hf; cases hf
    | cons a L => rw [hi] at hf; cases hf; exact ⟨L, rfl⟩
  refine ⟨s, f, L, ?_, by rw [← hL]; exact h.ok.holds.navigable, hf0, by rw [← hL]; exact h.anchored.shows h.ok (by rw [hL]; simp)⟩
  have e0 : step cmp (new z, []) (.put k0 v0) = .ok (t1, []) := by rw [step, e1]; rfl
  rw [run_cons e0]; exact e

/-! ### The hypotheses are met -/

/-- Puts in no particular order, deletions among them; the keys are integers, 5 is first, and -3 (below the zero key) is never deleted. -/
def anyOrder : List (Op Int Nat) := [.put 3 30, .put 9 90, .put (-3) 1, .delete 3, .put 7 70, .deleteKeys [9, 4], .put 3 31, .deleteMapping 7 70 Fn.comp]

example : ∃ s i L, run Fn.comp (new (0, 0), []) (.put 5 50 :: anyOrder) = .ok s ∧ Navigable s.1.heap (s.1.heap.parent 0) (i :: L) ∧
    (s.1.heap.kv i).1 = 5 ∧ Shows s.1 (i :: L) :=
  shows_first_kept Fn.comp_strict.toThreeWay (0, 0) 5 50 anyOrder (by
    intro op h
    simp only [anyOrder, List.mem_cons, List.not_mem_nil, or_false] at h
    rcases h with rfl | rfl | rfl | rfl | rfl | rfl | rfl | rfl <;> simp only [SparesOp, Spares] <;> decide)

/-- `shows_any_order` and `delete_first_iff` with the same history: deleting 5 would not be safe while another key is left. -/
example : ∃ s L, run Fn.comp (new ((0 : Int), (0 : Nat)), []) [.put 5 50, .put 3 30, .put 9 90] = .ok s ∧
    Navigable s.1.heap (s.1.heap.parent 0) L ∧ (L ≠ [] → Shows s.1 L) :=
  shows_any_order Fn.comp (0, 0) _ (by intro j h; simp at h) ⟨trivial, fun _ _ => ⟨trivial, fun _ _ => ⟨trivial, fun _ _ => trivial⟩⟩⟩

example : ¬ Safe Fn.comp (0 : Int) [] (5, 50) [((3 : Int), (30 : Nat))] := by simp only [Safe]; decide
example : Safe Fn.comp (0 : Int) [] (-5, 50) [((3 : Int), (30 : Nat))] := by simp only [Safe]; decide

end Gds.RBTree
