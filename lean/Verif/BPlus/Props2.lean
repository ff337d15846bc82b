import Verif.BPlus.Props

/-! Properties C64–C67 of B+ trees. -/

namespace Gds.BPlus
open BT Tree Eval
variable {K V : Type} [Inhabited K] [Inhabited V]

/-- The answers of all read operations for one key, given the entry `o` that is found. -/
def Reads (cmp : Compare K) (t : Tree K V) (key : K) (o : Option (K × V)) : Prop :=
  containsKey cmp t key = .ok o.isSome ∧ getEntry cmp t key = .ok o ∧
  getVerify cmp t key = .ok ((o.map (·.2)).getD default, o.isSome) ∧ get cmp t key = .ok ((o.map (·.2)).getD default)

/-! ### C64: reading -/

/-- Reading is sound, with any comparator and after any history without `Clear`: what is found is stored under an equal key,
    all four read operations agree, and none of them panics or loops. -/
theorem read_sound (cmp : Compare K) (M : Nat) (hM : 2 ≤ M) (ops : List (Op K V)) (t : Tree K V) (os : List Out)
    (hrun : runNew cmp M ops = .ok (t, os)) (hnc : .clear ∉ ops) :
    ∃ d l es ss, Holds t d l es ss ∧ ∀ key, ∃ o, Reads cmp t key o ∧ ∀ e, o = some e → e ∈ es ∧ cmp key e.1 = 0 := by
  obtain ⟨t0, h0, hd, g⟩ := newMap_good (K := K) (V := V) hM
  have hr : run cmp t0 ops = .ok (t, os) := by simpa [runNew, h0] using hrun
  rcases run_live cmp ops t0 ⟨hd, 0, _, g⟩ with ⟨t', os', h, ⟨-, hd', d, b, g'⟩ | ⟨hc, -⟩⟩ | h
  · rw [hr] at h
    injection h with h
    injection h with e1 e2
    subst e1 e2
    refine ⟨d, _, _, _, g'.holds, fun key => ?_⟩
    obtain ⟨o, h1, -, h3, h4, h5, h6, -⟩ := reads_good cmp t b g' key
    exact ⟨o, ⟨h3, h4, h5, h6⟩, h1⟩
  · exact absurd hc hnc
  · rw [hr] at h; simp at h

/-- Trees made by insertions, refused calls and deletions of a least key: `key` is stored and no stored key is smaller. -/
inductive MinReach (cmp : Compare K) (M : Nat) : Tree K V → Prop
  | new {t : Tree K V} : newMap M = .ok t → MinReach cmp M t
  | insertEqual {t t' : Tree K V} {b : Bool} (k : K) (v : V) : MinReach cmp M t → insertEqual cmp t k v = .ok (t', b) → MinReach cmp M t'
  | insertUnique {t t' : Tree K V} {b : Bool} (k : K) (v : V) : MinReach cmp M t → insertUnique cmp t k v = .ok (t', b) → MinReach cmp M t'
  | deleteMissing {t t' : Tree K V} (k : K) : MinReach cmp M t → delete cmp t k = .ok (t', false) → MinReach cmp M t'
  | deleteLeast {t t' : Tree K V} {b : Bool} {d : Nat} {l : List Nat} {es ss : List (K × V)} (k : K) : MinReach cmp M t → Holds t d l es ss →
      (∃ e ∈ es, cmp k e.1 = 0) → (∀ e ∈ es, cmp k e.1 ≤ 0) → delete cmp t k = .ok (t', b) → MinReach cmp M t'

theorem MinReach.good {cmp : Compare K} (hc : cmp.Lawful) {M : Nat} (hM : 2 ≤ M) {t : Tree K V} (r : MinReach cmp M t) :
    t.degree = M ∧ ∃ d, ∃ b : BT K V d, Good t b ∧ Sorted cmp b.inter := by
  induction r with
  | @new t h =>
    obtain ⟨t0, h0, hd, g⟩ := newMap_good (K := K) (V := V) hM
    rw [h] at h0
    injection h0 with h0
    subst h0
    exact ⟨hd, 0, _, g, by simp [Sorted]⟩
  | @insertEqual t t' b k v _ h ih =>
    obtain ⟨hd, d, b, g, hs⟩ := ih
    obtain ⟨t2, d2, b2, h1, h2, h3, h4, -, h6⟩ := insert_spec cmp t b (k, v) g
    simp only [BPlus.insertEqual, h1, Res.bind_ok] at h
    injection h with h
    injection h with e1 e2
    subst e1
    exact ⟨by rw [h3, hd], d2, b2, h2, h6 hc hs⟩
  | @insertUnique t t' b k v _ h ih =>
    obtain ⟨hd, d, b, g, hs⟩ := ih
    obtain ⟨t2, d2, b2, h1, h2, h3, h4, -, h6⟩ := insert_spec cmp t b (k, v) g
    rcases insertUnique_good cmp t b g k v with ⟨h', -⟩ | ⟨t1, h', hi, -⟩
    · rw [h] at h'
      injection h' with h'
      injection h' with e1 e2
      subst e1
      exact ⟨hd, d, b, g, hs⟩
    · rw [h] at h'
      injection h' with h'
      injection h' with e1 e2
      subst e1
      rw [h1] at hi
      injection hi with hi
      subst hi
      exact ⟨by rw [h3, hd], d2, b2, h2, h6 hc hs⟩
  | @deleteMissing t t' k _ h ih =>
    obtain ⟨hd, d, b, g, hs⟩ := ih
    rcases delete_good cmp t b g k with ⟨h', -⟩ | ⟨-, -, ⟨t1, d1, b1, h', -, -⟩ | ⟨h', -⟩⟩
    · rw [h] at h'
      injection h' with h'
      injection h' with e1 e2
      subst e1
      exact ⟨hd, d, b, g, hs⟩
    · rw [h] at h'; injection h' with h'; injection h' with e1 e2; simp at e2
    · rw [h] at h'; simp at h'
  | @deleteLeast t t' o d l es ss k _ hh hm hle h ih =>
    obtain ⟨hd, d, b, g, hs⟩ := ih
    obtain ⟨-, -, rfl, -⟩ := hh.unique g.holds
    obtain ⟨t2, d2, b2, h1, h2, h3, h4, -⟩ := delete_least g (minHyp_of g hc hs hle hm)
    rw [h] at h1
    injection h1 with h1
    injection h1 with e1 e2
    subst e1
    exact ⟨by rw [h3, hd], d2, b2, h2, h4⟩

/-- Reading is also complete in these trees, except for keys that equal a separator: a stored key is found.
    Missing for the full property: keys that equal a separator (`read_complete_refuted`), other deletions. -/
theorem read_complete_partial {cmp : Compare K} (hc : cmp.Lawful) (M : Nat) (hM : 2 ≤ M) (t : Tree K V) (r : MinReach cmp M t) :
    ∃ d l es ss, Holds t d l es ss ∧ Ascending cmp es ∧ ∀ key, ∃ o, Reads cmp t key o ∧ (∀ e, o = some e → e ∈ es ∧ cmp key e.1 = 0) ∧
      ((∀ s ∈ ss, cmp key s.1 ≠ 0) → (o.isSome ↔ ∃ e ∈ es, cmp key e.1 = 0)) := by
  obtain ⟨hd, d, b, g, hs⟩ := r.good hc hM
  refine ⟨d, _, _, _, g.holds, List.Pairwise.sublist (entries_sublist_inter b ⟨_, g.pre.rep⟩) hs, fun key => ?_⟩
  obtain ⟨o, h1, h2, h3, h4, h5, h6, -⟩ := reads_good cmp t b g key
  refine ⟨o, ⟨h3, h4, h5, h6⟩, h1, fun hsep => ⟨?_, fun h => h2 hc hs hsep h⟩⟩
  intro ho
  obtain ⟨e, rfl⟩ := Option.isSome_iff_exists.1 ho
  exact ⟨e, h1 e rfl⟩

/-- Evaluate a history: the answers and the entries in the leaves. -/
theorem eval_history {cmp : Compare K} [DecidableEq K] [DecidableEq V] {M : Nat} (hM : 2 ≤ M) {ops : List (Op K V)} (hnc : .clear ∉ ops) {xs : List (K × V)}
    {ys : List Out} {p : Tree K V → Bool}
    (h : check cmp M ops (fun t os => decide (entriesF t = some xs) && (decide (os = ys) && p t)) = true) :
    ∃ t, runNew cmp M ops = .ok (t, ys) ∧ (∃ d l ss, Holds t d l xs ss) ∧ p t = true := by
  obtain ⟨t, os, h1, h2⟩ := of_check h
  simp only [Bool.and_eq_true, decide_eq_true_eq] at h2
  obtain ⟨h2, rfl, h4⟩ := h2
  refine ⟨t, h1, ?_, h4⟩
  rcases structure_all_histories cmp M hM ops with ⟨t', os', h, -, h5, -⟩ | h
  · rw [h1] at h
    injection h with h
    injection h with e1 e2
    subst e1 e2
    obtain ⟨-, d, l, es, ss, hh⟩ := h5 hnc
    have := entriesF_eq hh h2
    subst this
    exact ⟨d, l, ss, hh⟩
  · rw [h1] at h; simp at h

/-- Insert 1 … n with the value of each key equal to the key. -/
def ascending (n : Nat) : List (Op Nat Nat) := (List.range n).map (fun i => .insertUnique (i + 1) (i + 1))

/-- The entries with these keys, the value of each key equal to the key. -/
def pairs (ks : List Nat) : List (Nat × Nat) := ks.map (fun k => (k, k))

/-- The full property is false: after inserting 1 … 8 into a map of degree 2, key 4 is stored but no read operation finds it, and
    `InsertUnique(4)` stores it a second time. -/
theorem read_complete_refuted :
    (∃ t, runNew Fn.comp 2 (ascending 8) = .ok (t, List.replicate 8 (.bool true)) ∧
      (∃ d l ss, Holds t d l (pairs [1, 2, 3, 4, 5, 6, 7, 8]) ss) ∧ Reads Fn.comp t 4 none) ∧
    (∃ t, runNew Fn.comp 2 (ascending 8 ++ [.insertUnique 4 40]) = .ok (t, List.replicate 9 (.bool true)) ∧
      ∃ d l ss, Holds t d l [(1, 1), (2, 2), (3, 3), (4, 4), (4, 40), (5, 5), (6, 6), (7, 7), (8, 8)] ss) := by
  constructor
  · obtain ⟨t, h1, h2, h3⟩ := eval_history (cmp := Fn.comp) (M := 2) (Nat.le_refl _) (ops := ascending 8) (xs := pairs [1, 2, 3, 4, 5, 6, 7, 8])
      (ys := List.replicate 8 (.bool true)) (p := fun t => decide (containsKeyF Fn.comp t 4 = .ok false) && (decide (getEntryF Fn.comp t 4 = .ok none) &&
        (decide (getVerifyF Fn.comp t 4 = .ok (0, false)) && decide (getF Fn.comp t 4 = .ok 0)))) (by simp [ascending]) (by decide)
    simp only [Bool.and_eq_true, decide_eq_true_eq] at h3
    obtain ⟨a1, a2, a3, a4⟩ := h3
    refine ⟨t, h1, h2, ?_, ?_, ?_, ?_⟩
    · have := containsKeyF_le Fn.comp t 4; rw [a1] at this; exact this.of_ne (by simp)
    · have := getEntryF_le Fn.comp t 4; rw [a2] at this; exact this.of_ne (by simp)
    · have := getVerifyF_le Fn.comp t 4; rw [a3] at this; exact this.of_ne (by simp)
    · have := getF_le Fn.comp t 4; rw [a4] at this; exact this.of_ne (by simp)
  · obtain ⟨t, h1, h2, -⟩ := eval_history (cmp := Fn.comp) (M := 2) (Nat.le_refl _) (ops := ascending 8 ++ [.insertUnique 4 40])
      (xs := [(1, 1), (2, 2), (3, 3), (4, 4), (4, 40), (5, 5), (6, 6), (7, 7), (8, 8)]) (ys := List.replicate 9 (.bool true)) (p := fun _ => true)
      (by simp [ascending]) (by decide)
    exact ⟨t, h1, h2⟩

/-! ### C65: deleting -/

/-- The full property is false.  (1) Degree 3: after inserting 1 … 6, `Delete(6)` and `Delete(5)`, key 4 is gone and 3 is there
    twice.  (2) Degree 2: after inserting 1 … 4 and `Delete(4)`, `Delete(3)` answers true, but `Size` stays 3 and key 2 is there
    twice. -/
theorem delete_exact_refuted :
    (∃ t, runNew Fn.comp 3 (ascending 6 ++ [.delete 6, .delete 5]) = .ok (t, List.replicate 8 (.bool true)) ∧
      ∃ d l ss, Holds t d l (pairs [1, 2, 3, 3]) ss) ∧
    (∃ t, runNew Fn.comp 2 (ascending 4 ++ [.delete 4, .delete 3]) = .ok (t, List.replicate 6 (.bool true)) ∧
      t.size = 3 ∧ ∃ d l ss, Holds t d l (pairs [1, 2, 2]) ss) := by
  constructor
  · obtain ⟨t, h1, h2, -⟩ := eval_history (cmp := Fn.comp) (M := 3) (by omega) (ops := ascending 6 ++ [.delete 6, .delete 5])
      (xs := pairs [1, 2, 3, 3]) (ys := List.replicate 8 (.bool true)) (p := fun _ => true) (by simp [ascending]) (by decide)
    exact ⟨t, h1, h2⟩
  · obtain ⟨t, h1, h2, -⟩ := eval_history (cmp := Fn.comp) (M := 2) (by omega) (ops := ascending 4 ++ [.delete 4, .delete 3])
      (xs := pairs [1, 2, 2]) (ys := List.replicate 6 (.bool true)) (p := fun _ => true) (by simp [ascending]) (by decide)
    obtain ⟨d, l, ss, h⟩ := h2
    exact ⟨t, h1, h.size, d, l, ss, h⟩

/-- Deleting a least key is exact, in every tree made by insertions and deletions of least keys: it answers true and removes the
    first entry, which has that key, and nothing else.
    Missing for the full property: deleting other keys from trees of more than one leaf (`delete_exact_refuted`). -/
theorem delete_least_partial {cmp : Compare K} (hc : cmp.Lawful) (M : Nat) (hM : 2 ≤ M) (t : Tree K V) (r : MinReach cmp M t)
    {d : Nat} {l : List Nat} {es ss : List (K × V)} (h : Holds t d l es ss) (k : K) (hm : ∃ e ∈ es, cmp k e.1 = 0) (hle : ∀ e ∈ es, cmp k e.1 ≤ 0) :
    ∃ t' d' l' e es' ss', delete cmp t k = .ok (t', true) ∧ MinReach cmp M t' ∧ Holds t' d' l' es' ss' ∧ es = e :: es' ∧ cmp k e.1 = 0 ∧
      t'.size = t.size - 1 := by
  obtain ⟨hd, d0, b, g, hs⟩ := r.good hc hM
  obtain ⟨-, -, rfl, -⟩ := h.unique g.holds
  obtain ⟨t2, d2, b2, h1, h2, h3, h4, e, he, hee⟩ := delete_least g (minHyp_of g hc hs hle hm)
  refine ⟨t2, d2, _, e, _, _, h1, r.deleteLeast k g.holds hm hle h1, h2.holds, hee, he, ?_⟩
  rw [h2.size, g.size, hee]
  simp

/-- A map that never gets more than `2M-1` insertions is an exact sorted multimap: every history of insertions and deletions
    returns, and its answers and entries are those of `Trace`.
    Missing for the full property: larger maps (`delete_exact_refuted`, `read_complete_refuted`). -/
theorem small_map_partial {cmp : Compare K} (hc : cmp.Lawful) (M : Nat) (hM : 2 ≤ M) (ops : List (Op K V)) (hops : ∀ op ∈ ops, Plain op)
    (hsmall : (ops.map adds).sum ≤ 2 * M - 1) :
    ∃ t os l es, runNew cmp M ops = .ok (t, os) ∧ Holds t 0 l es [] ∧ Ascending cmp es ∧ Trace cmp [] ops os es ∧
      ∀ key, ∃ o, Reads cmp t key o ∧ (∀ e, o = some e → e ∈ es ∧ cmp key e.1 = 0) ∧ (o.isSome ↔ ∃ e ∈ es, cmp key e.1 = 0) := by
  obtain ⟨t, h0, hd, g⟩ := newMap_good (K := K) (V := V) hM
  obtain ⟨t', os, p, vs, h1, h2, h3, h4, h5⟩ := run_single hc ops g (by simp [Sorted]) hops (by rw [hd]; simpa using hsmall)
  refine ⟨t', os, _, _, by simp [runNew, h0, h1], h2.holds, h5, h4, fun key => ?_⟩
  obtain ⟨o, a1, a2, a3, a4, a5, a6, -⟩ := reads_good cmp t' _ h2 key
  refine ⟨o, ⟨a3, a4, a5, a6⟩, a1, ?_, fun h => a2 hc h5 (by simp [seps]) h⟩
  intro ho
  obtain ⟨e, rfl⟩ := Option.isSome_iff_exists.1 ho
  exact ⟨e, a1 e rfl⟩

/-- Non-vacuity: a history with both kinds of insertions and with deletions that meets the hypotheses. -/
example : ∃ t os l es, runNew Fn.comp 2 [.insertEqual 5 "a", .insertUnique 5 "b", .insertUnique 1 "c", .delete 5, .delete 7, .deleteAll [1, 1]] = .ok (t, os) ∧
    Holds t 0 l es [] ∧ Trace Fn.comp [] [.insertEqual 5 "a", .insertUnique 5 "b", .insertUnique 1 "c", .delete 5, .delete 7, .deleteAll [1, 1]] os es := by
  obtain ⟨t, os, l, es, h1, h2, -, h3, -⟩ := small_map_partial (K := Nat) Fn.comp_strict.toLawful 2 (Nat.le_refl _)
    [.insertEqual 5 "a", .insertUnique 5 "b", .insertUnique 1 "c", .delete 5, .delete 7, .deleteAll [1, 1]] (by simp [Plain]) (by simp [adds])
  exact ⟨t, os, l, es, h1, h2, h3⟩

/-- Non-vacuity: a two-level tree made by insertions, whose least key is 1. -/
example : ∃ t d l ss, MinReach Fn.comp 2 t ∧ Holds t d l (pairs [1, 2, 3, 4, 5]) ss ∧ d ≠ 0 := by
  obtain ⟨t, h1, ⟨d, l, ss, h2⟩, -⟩ := eval_history (cmp := Fn.comp) (M := 2) (Nat.le_refl _) (ops := ascending 5)
    (xs := pairs [1, 2, 3, 4, 5]) (ys := List.replicate 5 (.bool true)) (p := fun _ => true) (by simp [ascending]) (by decide)
  refine ⟨t, d, l, ss, ?_, h2, ?_⟩
  · have key : ∀ (ks : List Nat) (t0 : Tree Nat Nat) os, MinReach Fn.comp 2 t0 → run Fn.comp t0 (ks.map (fun k => .insertUnique k k)) = .ok (t, os) → MinReach Fn.comp 2 t := by
      intro ks
      induction ks with
      | nil => intro t0 os hr h; simp [run] at h; rw [← h.1]; exact hr
      | cons k ks ih =>
        intro t0 os hr h
        simp only [List.map_cons, run, step] at h
        cases hi : insertUnique Fn.comp t0 k k with
        | ok x =>
          rw [hi] at h
          simp only [Res.bind_ok] at h
          cases hj : run Fn.comp x.1 (ks.map (fun k => .insertUnique k k)) with
          | ok y =>
            rw [hj] at h
            simp only [Res.bind_ok] at h
            injection h with h
            injection h with e1 e2
            refine ih x.1 y.2 (hr.insertUnique k k hi) ?_
            rw [hj, ← e1]
          | panic => rw [hj] at h; simp at h
          | hang => rw [hj] at h; simp at h
        | panic => rw [hi] at h; simp at h
        | hang => rw [hi] at h; simp at h
    obtain ⟨t0, h0, -⟩ := newMap_good (K := Nat) (V := Nat) (Nat.le_refl 2)
    refine key [1, 2, 3, 4, 5] t0 (List.replicate 5 (.bool true)) (.new h0) ?_
    simpa [runNew, h0, ascending, List.range_succ] using h1
  · rintro rfl
    have := h2.shape
    obtain ⟨p, -, hs, -⟩ := this
    have hle := hs.leaves_le
    rw [← h2.entries] at hle
    have hdeg : t.degree = 2 := by
      rcases structure_all_histories Fn.comp 2 (Nat.le_refl _) (ascending 5) with ⟨t', os', h, -, h5, -⟩ | h
      · rw [h1] at h
        injection h with h
        injection h with e1 e2
        rw [e1]
        exact (h5 (by simp [ascending])).1
      · rw [h1] at h; simp at h
    rw [hdeg] at hle
    simp [pairs] at hle

/-! ### C66: Clear -/

/-- After `Clear`, `Size` is 0, no read operation finds anything and `LeftMost` is nil; that stays so whatever is called next. -/
theorem cleared_forever (cmp : Compare K) (t : Tree K V) (ops : List (Op K V)) :
    ∃ os, run cmp (clear t) ops = .ok (clear t, os) ∧ sizeOf (clear t) = 0 ∧ isEmpty (clear t) = true ∧ (∀ key, Reads cmp (clear t) key none) ∧
      leftMost (clear t) = .ok none ∧ rightMost (clear t) = .panic .nilDeref := by
  have c : Cleared (clear t) := ⟨rfl, rfl⟩
  refine ⟨_, c.run cmp ops, rfl, by simp [isEmpty, clear], fun key => ?_, by simp [leftMost, clear], ?_⟩
  · simp [Reads, containsKey, getEntry, getVerify, get, c.search]
  · simp only [rightMost, clear]
    rw [maxLoop]
    rfl

/-- The full property is false: after `Clear`, both insertions answer true for every entry and store nothing; even `RightMost`
    panics. -/
theorem clear_usable_refuted (cmp : Compare K) (t : Tree K V) (k : K) (v : V) :
    insertEqual cmp (clear t) k v = .ok (clear t, true) ∧ insertUnique cmp (clear t) k v = .ok (clear t, true) ∧
    sizeOf (clear t) = 0 ∧ containsKey cmp (clear t) k = .ok false := by
  have c : Cleared (clear t) := ⟨rfl, rfl⟩
  exact ⟨by simp [insertEqual, c.insert], by simp [insertUnique, containsKey, c.search, c.insert], rfl, by simp [containsKey, c.search]⟩

/-! ### C67: DeleteByWholeMapping -/

/-- What it does, after any history: it finds an entry as `GetEntry` does, and acts as `Delete` if the stored value is *less* than the
    given one; otherwise it changes nothing and answers false.  It returns or panics with an index out of range. -/
theorem deleteByWholeMapping_partial (cmp : Compare K) (M : Nat) (hM : 2 ≤ M) (ops : List (Op K V)) (t : Tree K V) (os : List Out)
    (hrun : runNew cmp M ops = .ok (t, os)) (hnc : .clear ∉ ops) (key : K) (val : V) (compV : Compare V) :
    ∃ o, getEntry cmp t key = .ok o ∧
      (o = none → deleteByWholeMapping cmp t key val compV = .ok (t, false)) ∧
      (∀ e, o = some e → ¬ compV e.2 val < 0 → deleteByWholeMapping cmp t key val compV = .ok (t, false)) ∧
      (∀ e, o = some e → compV e.2 val < 0 → deleteByWholeMapping cmp t key val compV = delete cmp t key ∧
        ((∃ t', delete cmp t key = .ok (t', true)) ∨ delete cmp t key = .panic .indexOutOfRange)) := by
  obtain ⟨t0, h0, hd, g⟩ := newMap_good (K := K) (V := V) hM
  have hr : run cmp t0 ops = .ok (t, os) := by simpa [runNew, h0] using hrun
  rcases run_live cmp ops t0 ⟨hd, 0, _, g⟩ with ⟨t', os', h, ⟨-, hd', d, b, g'⟩ | ⟨hc, -⟩⟩ | h
  · rw [hr] at h
    injection h with h
    injection h with e1 e2
    subst e1 e2
    obtain ⟨o, h1, -, h3, h4, h5, h6, h7⟩ := reads_good cmp t b g' key
    have h7 := h7 compV val
    refine ⟨o, h4, ?_, ?_, ?_⟩
    · rintro rfl; exact h7
    · rintro e rfl hn
      simpa [hn] using h7
    · rintro e rfl hn
      refine ⟨by simpa [hn] using h7, ?_⟩
      rcases delete_good cmp t b g' key with ⟨-, h⟩ | ⟨-, -, ⟨t1, d1, b1, h, -, -⟩ | ⟨h, -⟩⟩
      · rw [h3] at h; simp at h
      · exact Or.inl ⟨t1, h⟩
      · exact Or.inr h
  · exact absurd hc hnc
  · rw [hr] at h; simp at h

/-- The full property is false: an entry with exactly the given value is kept, one with a smaller value is deleted. -/
theorem deleteByWholeMapping_refuted :
    (∃ t, runNew Fn.comp 2 [.insertUnique 1 5, .deleteByWholeMapping 1 5 Fn.comp] = .ok (t, [.bool true, .bool false]) ∧
      ∃ d l ss, Holds t d l [(1, 5)] ss) ∧
    (∃ t, runNew Fn.comp 2 [.insertUnique 1 5, .deleteByWholeMapping 1 6 Fn.comp] = .ok (t, [.bool true, .bool true]) ∧
      ∃ d l ss, Holds (K := Nat) (V := Nat) t d l [] ss) := by
  constructor
  · obtain ⟨t, h1, h2, -⟩ := eval_history (cmp := Fn.comp) (M := 2) (by omega) (K := Nat) (V := Nat)
      (ops := [.insertUnique 1 5, .deleteByWholeMapping 1 5 Fn.comp]) (xs := [(1, 5)]) (ys := [.bool true, .bool false]) (p := fun _ => true) (by simp) (by decide)
    exact ⟨t, h1, h2⟩
  · obtain ⟨t, h1, h2, -⟩ := eval_history (cmp := Fn.comp) (M := 2) (by omega) (K := Nat) (V := Nat)
      (ops := [.insertUnique 1 5, .deleteByWholeMapping 1 6 Fn.comp]) (xs := []) (ys := [.bool true, .bool true]) (p := fun _ => true) (by simp) (by decide)
    exact ⟨t, h1, h2⟩

end Gds.BPlus
