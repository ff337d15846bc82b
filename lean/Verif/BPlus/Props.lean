import Verif.BPlus.Eval

/-! Properties C63–C67, C78, C79 of B+ trees.  `Holds t d l es ss` (Spec.lean) reads the tree in the heap: depth `d`, leaves `l`, entries
    `es` in the leaves from left to right, separators `ss`; `Effect`/`Trace` say what calls on a sorted multimap should do. -/

namespace Gds.BPlus
open BT Tree
variable {K V : Type} [Inhabited K] [Inhabited V]

/-! ### C78: the structure survives every history -/

/-- On a new map of degree at least 2, with any comparator whatsoever, a history of calls either returns or panics with an index
    out of range (and never loops).  If it returns without `Clear`, the tree is well formed: uniform depth, node sizes within bounds,
    a ring of leaves, `Size` equal to the number of entries in the leaves.  After a `Clear` the tree has no root and size 0. -/
theorem structure_all_histories (cmp : Compare K) (M : Nat) (hM : 2 ≤ M) (ops : List (Op K V)) :
    (∃ t os, runNew cmp M ops = .ok (t, os) ∧ os.length = ops.length ∧
      (.clear ∉ ops → t.degree = M ∧ ∃ d l es ss, Holds t d l es ss) ∧ (.clear ∈ ops → t.root = none ∧ t.size = 0)) ∨
    runNew cmp M ops = .panic .indexOutOfRange := by
  obtain ⟨t, h0, hd, g⟩ := newMap_good (K := K) (V := V) hM
  have hlen : ∀ (ops : List (Op K V)) (t t' : Tree K V) os, run cmp t ops = .ok (t', os) → os.length = ops.length := by
    intro ops
    induction ops with
    | nil => intro t t' os h; simp [run] at h; simp [← h.2]
    | cons op ops ih =>
      intro t t' os h
      rw [run] at h
      cases h1 : step cmp t op with
      | ok x =>
        rw [h1] at h
        simp only [Res.bind_ok] at h
        cases h2 : run cmp x.1 ops with
        | ok y =>
          rw [h2] at h
          simp only [Res.bind_ok] at h
          have := ih x.1 y.1 y.2 h2
          injection h with h
          have h := congrArg Prod.snd h
          simp only at h
          rw [← h]; simp [this]
        | panic k => rw [h2] at h; simp at h
        | hang => rw [h2] at h; simp at h
      | panic k => rw [h1] at h; simp at h
      | hang => rw [h1] at h; simp at h
  rcases run_live cmp ops t ⟨hd, 0, _, g⟩ with ⟨t', os, h, hc⟩ | h
  · left
    refine ⟨t', os, by simp [runNew, h0, h], hlen ops t t' os h, ?_, ?_⟩
    · intro hn
      rcases hc with ⟨-, hl⟩ | ⟨hc, -⟩
      · obtain ⟨hd', d, b, g'⟩ := hl
        exact ⟨hd', d, _, _, _, g'.holds⟩
      · exact absurd hc hn
    · intro hy
      rcases hc with ⟨hc, -⟩ | ⟨-, hc⟩
      · exact absurd hy hc
      · exact ⟨hc.root, hc.size⟩
  · right; simp [runNew, h0, h]

/-- A tree is described in one way only. -/
theorem description_unique {t : Tree K V} {d d' : Nat} {l l' : List Nat} {es es' ss ss' : List (K × V)} (h : Holds t d l es ss) (h' : Holds t d' l' es' ss') :
    d = d' ∧ l = l' ∧ es = es' ∧ ss = ss' := h.unique h'

/-! ### C79: the depth is logarithmic -/

/-- After any history that returns without `Clear`, a tree with `n` entries and depth `d ≥ 1` has `2*M^(d-1)*(M-1) ≤ n`; and
    always `n ≤ (2M)^d * (2M-1)`. -/
theorem depth_bounds (cmp : Compare K) (M : Nat) (hM : 2 ≤ M) (ops : List (Op K V)) (t : Tree K V) (os : List Out)
    (hrun : runNew cmp M ops = .ok (t, os)) (hnc : .clear ∉ ops) :
    ∃ d l es ss, Holds t d l es ss ∧ (∀ d', d = d' + 1 → 2 * (M ^ d' * (M - 1)) ≤ es.length) ∧ es.length ≤ (2 * M) ^ d * (2 * M - 1) := by
  rcases structure_all_histories cmp M hM ops with ⟨t', os', h, -, h1, -⟩ | h
  · rw [hrun] at h
    injection h with h
    injection h with e1 e2
    subst e1 e2
    obtain ⟨hd, d, l, es, ss, hh⟩ := h1 hnc
    refine ⟨d, l, es, ss, hh, ?_, ?_⟩
    · intro d' e
      subst e
      have := hh.depth_le (by omega)
      rwa [hd] at this
    · obtain ⟨p, -, hs, -⟩ := hh.shape
      have := hs.leaves_le
      rw [hd] at this
      rwa [hh.entries]
  · rw [hrun] at h; simp at h

/-! ### C63: insertions -/

/-- The calls that only insert. -/
def Inserts : Op K V → Prop
  | .insertEqual _ _ | .insertUnique _ _ => True
  | _ => False

/-- The entry a call inserts. -/
def entryOf : Op K V → Option (K × V)
  | .insertEqual k v | .insertUnique k v => some (k, v)
  | _ => none

/-- The entries of the insertions that were answered with true. -/
def accepted : List (Op K V) → List Out → List (K × V)
  | op :: ops, o :: os => (if o = .bool true then (entryOf op).toList else []) ++ accepted ops os
  | _, _ => []

theorem run_inserts {cmp : Compare K} (hc : cmp.Lawful) : ∀ (ops : List (Op K V)), (∀ op ∈ ops, Inserts op) → ∀ (t : Tree K V) {d : Nat} (b : BT K V d),
    Good t b → Sorted cmp b.inter → ∃ t' os d', ∃ b' : BT K V d', run cmp t ops = .ok (t', os) ∧ Good t' b' ∧ t'.degree = t.degree ∧ Sorted cmp b'.inter ∧
      os.length = ops.length ∧ b'.entries.Perm (accepted ops os ++ b.entries) ∧
      (∀ i (hi : i < ops.length) (ho : i < os.length), os[i] ≠ .bool true → os[i] = .bool false ∧
        ∃ k v, ops[i] = .insertUnique k v ∧ ∃ e ∈ accepted (ops.take i) (os.take i) ++ b.entries, cmp k e.1 = 0)
  | [], _, t, d, b, g, hs => ⟨t, [], d, b, rfl, g, rfl, hs, rfl, List.Perm.refl _, by simp⟩
  | op :: ops, hop, t, d, b, g, hs => by
    have hstep : (∃ k v, op = .insertUnique k v ∧ step cmp t op = .ok (t, .bool false) ∧ ∃ e ∈ b.entries, cmp k e.1 = 0) ∨
        ∃ e t', entryOf op = some e ∧ step cmp t op = .ok (t', .bool true) ∧ insert cmp t e = .ok t' := by
      cases op with
      | insertEqual k v =>
        right
        obtain ⟨t', d', b', h1, h2⟩ := insert_spec cmp t b (k, v) g
        exact ⟨(k, v), t', rfl, by simp [step, insertEqual, h1], h1⟩
      | insertUnique k v =>
        rcases insertUnique_good cmp t b g k v with ⟨h, he⟩ | ⟨t', h, hi, -⟩
        · exact Or.inl ⟨k, v, rfl, by simp [step, h], he⟩
        · exact Or.inr ⟨(k, v), t', rfl, by simp [step, h], hi⟩
      | _ => exact absurd (hop _ List.mem_cons_self) (by simp [Inserts])
    have hops : ∀ x ∈ ops, Inserts x := fun x hx => hop x (by simp [hx])
    rcases hstep with ⟨k, v, rfl, h, he⟩ | ⟨e, t1, hop1, h, hi⟩
    · obtain ⟨t2, os, d2, b2, g1, g2, g3, g4, g5, g6, g7⟩ := run_inserts hc ops hops t b g hs
      refine ⟨t2, .bool false :: os, d2, b2, by simp [run, h, g1], g2, g3, g4, by simp [g5], by simpa [accepted] using g6, ?_⟩
      intro i hi ho hne
      cases i with
      | zero => exact ⟨rfl, k, v, rfl, by simpa [accepted] using he⟩
      | succ i =>
        simp only [List.getElem_cons_succ, List.take_succ_cons] at hne ⊢
        simpa [accepted] using g7 i (by simpa using hi) (by simpa using ho) hne
    · obtain ⟨t1', d1, b1, h1, h2, h3, h4, -, h6⟩ := insert_spec cmp t b e g
      rw [hi] at h1
      injection h1 with h1
      subst h1
      obtain ⟨t2, os, d2, b2, g1, g2, g3, g4, g5, g6, g7⟩ := run_inserts hc ops hops t1 b1 h2 (h6 hc hs)
      refine ⟨t2, .bool true :: os, d2, b2, by simp [run, h, g1], g2, by rw [g3, h3], g4, by simp [g5], ?_, ?_⟩
      · refine g6.trans ?_
        simp only [accepted, if_true, hop1, Option.toList_some, List.singleton_append, List.cons_append]
        exact (h4.append_left _).trans List.perm_middle
      · intro i hi' ho hne
        cases i with
        | zero => simp at hne
        | succ i =>
          simp only [List.getElem_cons_succ, List.take_succ_cons] at hne ⊢
          obtain ⟨q1, k, v, q2, x, hx, hk⟩ := g7 i (by simpa using hi') (by simpa using ho) hne
          refine ⟨q1, k, v, q2, x, ?_, hk⟩
          simp only [accepted, if_true, hop1, Option.toList_some, List.singleton_append, List.cons_append]
          rcases List.mem_append.1 hx with hx | hx
          · simp [hx]
          · have := h4.mem_iff.1 hx
            rcases List.mem_cons.1 this with rfl | h
            · simp
            · simp [h]

/-- After any history of insertions on a new map of degree at least 2 the tree is well formed, the leaves hold exactly the accepted
    entries, in key order, and an insertion is refused only by `InsertUnique` for a key that was inserted before. -/
theorem insert_histories {cmp : Compare K} (hc : cmp.Lawful) (M : Nat) (hM : 2 ≤ M) (ops : List (Op K V)) (hins : ∀ op ∈ ops, Inserts op) :
    ∃ t os d l es ss, runNew cmp M ops = .ok (t, os) ∧ t.degree = M ∧ os.length = ops.length ∧ Holds t d l es ss ∧ Ascending cmp es ∧
      es.Perm (accepted ops os) ∧
      (∀ i (_ : i < ops.length) (_ : i < os.length), os[i] ≠ .bool true → os[i] = .bool false ∧
        ∃ k v, ops[i] = .insertUnique k v ∧ ∃ e ∈ accepted (ops.take i) (os.take i), cmp k e.1 = 0) := by
  obtain ⟨t, h0, hd, g⟩ := newMap_good (K := K) (V := V) hM
  obtain ⟨t2, os, d2, b2, g1, g2, g3, g4, g5, g6, g7⟩ := run_inserts hc ops hins t _ g (by simp [Sorted])
  refine ⟨t2, os, d2, _, _, _, by simp [runNew, h0, g1], by rw [g3, hd], g5, g2.holds, ?_, by simpa using g6, by simpa using g7⟩
  exact List.Pairwise.sublist (entries_sublist_inter b2 ⟨_, g2.pre.rep⟩) g4

theorem accepted_all : ∀ (ops : List (Op K V)) (os : List Out), os.length = ops.length → (∀ o ∈ os, o = .bool true) → accepted ops os = ops.filterMap entryOf
  | [], _, _, _ => by simp [accepted]
  | op :: ops, [], h, _ => by simp at h
  | op :: ops, o :: os, h, ho => by
    have h1 := ho o (by simp)
    subst h1
    simp only [accepted, if_true, accepted_all ops os (by simpa using h) (fun x hx => ho x (by simp [hx]))]
    cases h : entryOf op <;> simp [h]

theorem accepted_sub : ∀ (ops : List (Op K V)) (os : List Out), ∀ e ∈ accepted ops os, e ∈ ops.filterMap entryOf
  | [], _, e, h => by simp [accepted] at h
  | op :: ops, [], e, h => by simp [accepted] at h
  | op :: ops, o :: os, e, h => by
    simp only [accepted, List.mem_append] at h
    rcases h with h | h
    · split at h
      · cases he : entryOf op with
        | none => rw [he] at h; simp at h
        | some x => rw [he] at h; simp at h; subst h; simp [he]
      · simp at h
    · have := accepted_sub ops os e h
      cases he : entryOf op <;> simp_all

/-- Inserting pairwise different keys: every call answers true, and the leaves hold exactly the inserted entries in key order. -/
theorem insert_distinct {cmp : Compare K} (hc : cmp.Lawful) (M : Nat) (hM : 2 ≤ M) (ops : List (Op K V)) (hins : ∀ op ∈ ops, Inserts op)
    (hdist : (ops.filterMap entryOf).Pairwise (fun x y => cmp y.1 x.1 ≠ 0)) :
    ∃ t d l es ss, runNew cmp M ops = .ok (t, ops.map (fun _ => .bool true)) ∧ Holds t d l es ss ∧
      es.Perm (ops.filterMap entryOf) ∧ es.Pairwise (fun x y => cmp x.1 y.1 < 0) ∧ t.size = (ops.length : Int) := by
  obtain ⟨t, os, d, l, es, ss, h1, h2, h3, h4, h5, h6, h7⟩ := insert_histories hc M hM ops hins
  have hall : ∀ i (hi : i < os.length), os[i] = .bool true := by
    intro i hi
    by_contra hne
    obtain ⟨-, k, v, hop, e, he, hk⟩ := h7 i (by omega) hi hne
    have hin := accepted_sub _ _ e he
    have hsplit : ops.filterMap entryOf = (ops.take i).filterMap entryOf ++ (k, v) :: (ops.drop (i + 1)).filterMap entryOf := by
      conv => lhs; rw [← List.take_append_drop i ops, List.drop_eq_getElem_cons (by omega), List.filterMap_append, hop]
      rfl
    rw [hsplit] at hdist
    exact (List.pairwise_append.1 hdist).2.2 e hin (k, v) (by simp) hk
  have hos : os = ops.map (fun _ => Out.bool true) := by
    apply List.ext_getElem
    · simp [h3]
    · intro i a b; rw [hall i a]; simp
  subst hos
  rw [accepted_all ops _ h3 (by simp)] at h6
  refine ⟨t, d, l, es, ss, h1, h4, h6, ?_, ?_⟩
  · have hnd : es.Pairwise (fun x y => cmp y.1 x.1 ≠ 0) := by
      refine (h6.pairwise_iff ?_).2 hdist
      intro x y hxy e
      exact hxy (hc.zero_symm e)
    refine (h5.and hnd).imp ?_
    intro x y ⟨a, b⟩
    have := hc.zero_comm x.1 y.1
    omega
  · have : (ops.filterMap entryOf).length = ops.length := by
      rw [List.length_filterMap_eq_countP, List.countP_eq_length]
      intro op hop
      have := hins op hop
      cases op <;> simp_all [Inserts, entryOf]
    rw [h4.size, h6.length_eq, this]

/-- Non-vacuity: eight insertions of different keys. -/
example : ∃ t d l es ss, runNew (K := Nat) (V := String) Fn.comp 2 ([5, 1, 4, 8, 2, 7, 3, 6].map (fun k => .insertUnique k "v")) =
      .ok (t, List.replicate 8 (.bool true)) ∧ Holds t d l es ss ∧ es = [1, 2, 3, 4, 5, 6, 7, 8].map (fun k => (k, "v")) := by
  obtain ⟨t, d, l, es, ss, h1, h2, h3, h4, h5⟩ := insert_distinct (K := Nat) (V := String) Fn.comp_strict.toLawful 2 (Nat.le_refl _)
    ([5, 1, 4, 8, 2, 7, 3, 6].map (fun k => .insertUnique k "v")) (by simp [Inserts]) (by simp [entryOf]; decide)
  refine ⟨t, d, l, es, ss, h1, h2, ?_⟩
  have hs : ([1, 2, 3, 4, 5, 6, 7, 8].map (fun k => (k, "v")) : List (Nat × String)).Pairwise (fun x y => Fn.comp x.1 y.1 < 0) := by decide
  refine List.Perm.eq_of_pairwise ?_ h4 hs (h3.trans (by decide))
  intro a b _ _ h h'
  have := Fn.comp_strict.toLawful.flip a.1 b.1
  omega

end Gds.BPlus
