import Verif.BPlus.Damage

/-! C103: the order of the entries. -/

namespace Gds.BPlus
open BT Tree Eval
variable {K V : Type} [Inhabited K] [Inhabited V]

omit [Inhabited K] [Inhabited V] in
/-- At its worst, a deletion keeps the order. -/
theorem Damage.ascending {cmp : Compare K} (hc : cmp.Lawful) {key : K} {xs ys : List (K × V)} (h : Damage cmp key xs ys) (ha : Ascending cmp xs) :
    Ascending cmp ys := by
  obtain ⟨ms, hs, hd⟩ := h
  have hm : Ascending cmp ms := by
    rcases hs with rfl | ⟨P, x, y, S, rfl, rfl⟩
    · exact ha
    · have h1 : Sorted cmp (P ++ x :: S) := List.Pairwise.sublist (by simp) ha
      exact sorted_dup hc h1
  rcases hd with rfl | ⟨P, e, S, rfl, rfl, -⟩
  · exact hm
  · exact List.Pairwise.sublist (by simp) hm

omit [Inhabited K] [Inhabited V] in
theorem WorstAll.ascending {cmp : Compare K} (hc : cmp.Lawful) {ks : List K} {n : Nat} {es es' : List (K × V)} (h : WorstAll cmp ks n es es')
    (ha : Ascending cmp es) : Ascending cmp es' := by
  induction h with
  | nil => exact ha
  | hit _ hd _ ih => exact ih (hd.ascending hc ha)
  | miss _ ih => exact ih ha

/-- A call that is not an insertion and not `Clear`. -/
def IsDelete : Op K V → Prop
  | .delete _ | .deleteEntryByKey _ | .deleteByWholeMapping _ _ _ | .deleteAll _ => True
  | .insertEqual _ _ | .insertUnique _ _ | .clear => False

/-- After any history, no deletion puts entries out of order. -/
theorem delete_keeps_order {cmp : Compare K} (hc : cmp.Lawful) (M : Nat) (hM : 2 ≤ M) (ops : List (Op K V)) (hnc : .clear ∉ ops) (t : Tree K V) (os : List Out)
    (hrun : runNew cmp M ops = .ok (t, os)) (op : Op K V) (hop : IsDelete op) (t' : Tree K V) (o : Out) (hstep : step cmp t op = .ok (t', o))
    {d : Nat} {l : List Nat} {es ss : List (K × V)} (hold : Holds t d l es ss) (ha : Ascending cmp es) :
    ∃ d' l' es' ss', Holds t' d' l' es' ss' ∧ Ascending cmp es' := by
  obtain ⟨d', l', es', ss', h1, h2⟩ := worst_case_step cmp M hM ops hnc t os hrun op (by rintro rfl; exact hop) t' o hstep hold
  refine ⟨d', l', es', ss', h1, ?_⟩
  cases op with
  | delete k =>
    rcases h2 with ⟨-, -, h⟩ | ⟨-, rfl⟩
    · exact h.ascending hc ha
    · exact ha
  | deleteEntryByKey x =>
    rcases h2 with ⟨-, -, h⟩ | ⟨-, rfl⟩
    · exact h.ascending hc ha
    · exact ha
  | deleteByWholeMapping k v c =>
    rcases h2 with ⟨-, -, h⟩ | ⟨-, rfl⟩
    · exact h.ascending hc ha
    · exact ha
  | deleteAll ks =>
    obtain ⟨n, -, h⟩ := h2
    exact h.ascending hc ha
  | insertEqual => exact absurd hop id
  | insertUnique => exact absurd hop id
  | clear => exact absurd hop id

/-- The tree is in order, and is shallow if it is small. -/
structure Two (cmp : Compare K) (M n : Nat) (t : Tree K V) (es : List (K × V)) : Prop where
  degree : t.degree = M
  tree : ∃ d, ∃ b : BT K V d, Good t b ∧ Sorted cmp b.inter ∧ b.entries = es
  small : es.length ≤ n

theorem depth_le_one {M : Nat} {t : Tree K V} {d : Nat} {b : BT K V d} (g : Good t b) (hd : t.degree = M) (h : b.entries.length < 2 * M * (M - 1)) : d ≤ 1 := by
  match d, b, g with
  | 0, _, _ => omega
  | 1, _, _ => omega
  | d + 2, b, g =>
    have hM := g.pre.deg
    have := g.holds.depth_le hM
    rw [hd] at this hM
    have h2 : M ^ 1 ≤ M ^ (d + 1) := Nat.pow_le_pow_right (by omega) (by omega)
    rw [Nat.pow_one] at h2
    have h3 := Nat.mul_le_mul_right (M - 1) h2
    have h4 : 2 * M * (M - 1) = 2 * (M * (M - 1)) := Nat.mul_assoc _ _ _
    omega

theorem delete_two {cmp : Compare K} (hc : cmp.Lawful) {M n : Nat} (hn : n < 2 * M * (M - 1)) {t t' : Tree K V} {es : List (K × V)} (h : Two cmp M n t es)
    {k : K} {o : Bool} (hd : delete cmp t k = .ok (t', o)) : ∃ es', Two cmp M n t' es' := by
  obtain ⟨hM, ⟨d, b, g, hs, rfl⟩, hsm⟩ := h
  rcases delete_good cmp t b g k with ⟨h1, -⟩ | ⟨-, he, ⟨t1, d1, b1, h1, -, post⟩ | ⟨h1, -⟩⟩
  · rw [hd] at h1
    simp only [Res.ok.injEq, Prod.mk.injEq] at h1
    obtain ⟨rfl, rfl⟩ := h1
    exact ⟨_, hM, ⟨d, b, g, hs, rfl⟩, hsm⟩
  · rw [hd] at h1
    simp only [Res.ok.injEq, Prod.mk.injEq] at h1
    obtain ⟨rfl, rfl⟩ := h1
    refine ⟨_, by rw [post.degree, hM], ⟨d1, b1, post.good, post.sorted hc (depth_le_one g hM (by omega)) hs, rfl⟩, ?_⟩
    have := post.count
    omega
  · rw [hd] at h1; simp at h1

theorem deleteAll_two {cmp : Compare K} (hc : cmp.Lawful) {M n : Nat} (hn : n < 2 * M * (M - 1)) : ∀ (ks : List K) (m : Nat) (t t' : Tree K V) (es : List (K × V)) (m' : Nat),
    Two cmp M n t es → deleteAll cmp t m ks = .ok (t', m') → ∃ es', Two cmp M n t' es'
  | [], m, t, t', es, m', h, hd => by
    simp only [deleteAll, Res.ok.injEq, Prod.mk.injEq] at hd
    obtain ⟨rfl, rfl⟩ := hd
    exact ⟨es, h⟩
  | k :: ks, m, t, t', es, m', h, hd => by
    rw [deleteAll] at hd
    cases h1 : delete cmp t k with
    | panic => rw [h1] at hd; simp at hd
    | hang => rw [h1] at hd; simp at hd
    | ok x =>
      obtain ⟨t1, o⟩ := x
      rw [h1] at hd
      simp only [Res.bind_ok] at hd
      obtain ⟨es1, h2⟩ := delete_two hc hn h h1
      exact deleteAll_two hc hn ks _ t1 t' es1 m' h2 hd

theorem step_two {cmp : Compare K} (hc : cmp.Lawful) {M n : Nat} {t t' : Tree K V} {es : List (K × V)} (h : Two cmp M n t es) (op : Op K V) (hnc : op ≠ .clear)
    (hn : n + (offered [op]).length < 2 * M * (M - 1)) {o : Out} (hstep : step cmp t op = .ok (t', o)) : ∃ es', Two cmp M (n + (offered [op]).length) t' es' := by
  have hdel : ∀ k, (do let (t, b) ← delete cmp t k; Res.ok (t, Out.bool b)) = .ok (t', o) → n < 2 * M * (M - 1) → ∃ es', Two cmp M n t' es' := by
    intro k hk hn
    cases h1 : delete cmp t k with
    | panic => rw [h1] at hk; simp at hk
    | hang => rw [h1] at hk; simp at hk
    | ok x =>
      obtain ⟨t1, o1⟩ := x
      rw [h1] at hk
      simp only [Res.bind_ok, Res.ok.injEq, Prod.mk.injEq] at hk
      obtain ⟨rfl, rfl⟩ := hk
      exact delete_two hc hn h h1
  have hins : ∀ e t', insert cmp t e = .ok t' → ∃ es', Two cmp M (n + 1) t' es' := by
    intro e t' hi
    obtain ⟨hM, ⟨d, b, g, hs, rfl⟩, hsm⟩ := h
    obtain ⟨t2, d2, b2, h1, h2, h3, h4, -, h6⟩ := insert_spec cmp t b e g
    rw [hi] at h1
    simp only [Res.ok.injEq] at h1
    subst h1
    exact ⟨_, by rw [h3, hM], ⟨d2, b2, h2, h6 hc hs, rfl⟩, by rw [h4.length_eq]; simp; omega⟩
  have keep : Two cmp M (n + 1) t es := ⟨h.degree, h.tree, by have := h.small; omega⟩
  cases op with
  | insertEqual k v =>
    cases hi : insert cmp t (k, v) with
    | panic => rw [step, insertEqual, hi] at hstep; simp at hstep
    | hang => rw [step, insertEqual, hi] at hstep; simp at hstep
    | ok t1 =>
      simp only [step, insertEqual, hi, Res.bind_ok, Res.ok.injEq, Prod.mk.injEq] at hstep
      obtain ⟨rfl, -⟩ := hstep
      exact hins _ _ hi
  | insertUnique k v =>
    obtain ⟨hM, ⟨d, b, g, hs, rfl⟩, hsm⟩ := h
    rcases insertUnique_good cmp t b g k v with ⟨h1, -⟩ | ⟨t1, h1, h2, -⟩
    · simp only [step, h1, Res.bind_ok, Res.ok.injEq, Prod.mk.injEq] at hstep
      obtain ⟨rfl, -⟩ := hstep
      exact ⟨_, keep⟩
    · simp only [step, h1, Res.bind_ok, Res.ok.injEq, Prod.mk.injEq] at hstep
      obtain ⟨rfl, -⟩ := hstep
      exact hins _ _ h2
  | delete k => exact hdel k hstep (by simp [offered] at hn; omega)
  | deleteEntryByKey e => exact hdel e.1 hstep (by simp [offered] at hn; omega)
  | deleteByWholeMapping k v f =>
    obtain ⟨hM, ⟨d, b, g, hs, rfl⟩, hsm⟩ := h
    obtain ⟨x, hx, -, -, -, -, -, hw⟩ := reads_good cmp t b g k
    have hw := hw f v
    have none_case : deleteByWholeMapping cmp t k v f = .ok (t, false) → ∃ es', Two cmp M n t' es' := by
      intro hf
      simp only [step, hf, Res.bind_ok, Res.ok.injEq, Prod.mk.injEq] at hstep
      obtain ⟨rfl, -⟩ := hstep
      exact ⟨_, hM, ⟨d, b, g, hs, rfl⟩, hsm⟩
    cases x with
    | none => exact none_case hw
    | some e =>
      simp only at hw
      by_cases hcv : f e.2 v < 0
      · rw [if_pos hcv] at hw
        rw [step, hw] at hstep
        exact hdel k hstep (by simp [offered] at hn; omega)
      · rw [if_neg hcv] at hw
        exact none_case hw
  | deleteAll ks =>
    cases hd : deleteAll cmp t 0 ks with
    | panic => rw [step, hd] at hstep; simp at hstep
    | hang => rw [step, hd] at hstep; simp at hstep
    | ok x =>
      obtain ⟨t1, m⟩ := x
      simp only [step, hd, Res.bind_ok, Res.ok.injEq, Prod.mk.injEq] at hstep
      obtain ⟨rfl, -⟩ := hstep
      exact deleteAll_two (n := n) hc (by simp [offered] at hn; omega) ks 0 t t1 es m h hd
  | clear => exact absurd rfl hnc

theorem run_two {cmp : Compare K} (hc : cmp.Lawful) {M : Nat} : ∀ (ops : List (Op K V)) (n : Nat) (t t' : Tree K V) (es : List (K × V)) (os : List Out),
    Two cmp M n t es → .clear ∉ ops → n + (offered ops).length < 2 * M * (M - 1) → run cmp t ops = .ok (t', os) → ∃ n' es', Two cmp M n' t' es'
  | [], n, t, t', es, os, h, _, _, hr => by
    simp only [run, Res.ok.injEq, Prod.mk.injEq] at hr
    obtain ⟨rfl, -⟩ := hr
    exact ⟨n, es, h⟩
  | op :: ops, n, t, t', es, os, h, hnc, hn, hr => by
    simp only [List.mem_cons, not_or] at hnc
    rw [offered_cons, List.length_append] at hn
    rw [run] at hr
    cases hd : step cmp t op with
    | panic => rw [hd] at hr; simp at hr
    | hang => rw [hd] at hr; simp at hr
    | ok x =>
      obtain ⟨t1, o⟩ := x
      rw [hd] at hr
      simp only [Res.bind_ok] at hr
      cases hr2 : run cmp t1 ops with
      | panic => rw [hr2] at hr; simp at hr
      | hang => rw [hr2] at hr; simp at hr
      | ok y =>
        obtain ⟨t2, os2⟩ := y
        rw [hr2] at hr
        simp only [Res.bind_ok, Res.ok.injEq, Prod.mk.injEq] at hr
        obtain ⟨rfl, -⟩ := hr
        obtain ⟨es1, h1⟩ := step_two hc h op (Ne.symm hnc.1) (by omega) hd
        exact run_two hc ops _ t1 t2 es1 os2 h1 hnc.2 (by omega) hr2

/-- In a map that never gets `2M(M-1)` insertions, the keys ascend from left to right after every history of insertions and
    deletions, duplicates included, and a stored key that equals no separator is found by every read operation.
    Missing for the full property: larger maps, of which it is false (`order_refuted`). -/
theorem order_partial {cmp : Compare K} (hc : cmp.Lawful) (M : Nat) (hM : 2 ≤ M) (ops : List (Op K V)) (hnc : .clear ∉ ops)
    (hsmall : (offered ops).length < 2 * M * (M - 1)) (t : Tree K V) (os : List Out) (hrun : runNew cmp M ops = .ok (t, os)) :
    ∃ d l es ss, Holds t d l es ss ∧ Ascending cmp es ∧
      ∀ key, (∀ s ∈ ss, cmp key s.1 ≠ 0) → ∃ o, Reads cmp t key o ∧ (∀ e, o = some e → e ∈ es ∧ cmp key e.1 = 0) ∧
        (o.isSome ↔ ∃ e ∈ es, cmp key e.1 = 0) := by
  obtain ⟨t0, h0, hd, g⟩ := newMap_good (K := K) (V := V) hM
  have hr : run cmp t0 ops = .ok (t, os) := by simpa [runNew, h0] using hrun
  obtain ⟨n, es, -, ⟨d, b, g', hs, -⟩, -⟩ := run_two hc ops 0 t0 t [] os ⟨hd, ⟨0, _, g, by simp [Sorted], by simp⟩, by simp⟩ hnc (by omega) hr
  refine ⟨d, _, _, _, g'.holds, List.Pairwise.sublist (entries_sublist_inter b ⟨_, g'.pre.rep⟩) hs, fun key hk => ?_⟩
  obtain ⟨o, a1, a2, a3, a4, a5, a6, -⟩ := reads_good cmp t b g' key
  refine ⟨o, ⟨a3, a4, a5, a6⟩, a1, ?_, a2 hc hs hk⟩
  intro ho
  obtain ⟨e, rfl⟩ := Option.isSome_iff_exists.1 ho
  exact ⟨e, a1 e rfl⟩

/-- The even keys 2, 4, … -/
def evens (n : Nat) : List (Op Nat Nat) := (List.range n).map (fun i => .insertUnique (2 * i + 2) (2 * i + 2))

/-- The full property is false: with degree 2, after inserting 2, 4, …, 20, `Delete(2)`, `Delete(14)` and inserting 13, the leaves hold
    13 behind 16. -/
theorem order_refuted : ∃ t, runNew Fn.comp 2 (evens 10 ++ [.delete 2, .delete 14, .insertUnique 13 13]) = .ok (t, List.replicate 13 (.bool true)) ∧
    (∃ d l ss, Holds t d l (pairs [4, 6, 8, 10, 12, 14, 16, 13, 18, 20]) ss) ∧ ¬ Ascending Fn.comp (pairs [4, 6, 8, 10, 12, 14, 16, 13, 18, 20]) := by
  obtain ⟨t, h1, h2, -⟩ := eval_history (cmp := Fn.comp) (M := 2) (by omega) (ops := evens 10 ++ [.delete 2, .delete 14, .insertUnique 13 13])
    (xs := pairs [4, 6, 8, 10, 12, 14, 16, 13, 18, 20]) (ys := List.replicate 13 (.bool true)) (p := fun _ => true) (by simp [evens]) (by decide +kernel)
  refine ⟨t, h1, h2, ?_⟩
  unfold Ascending
  decide

/-- Non-vacuity: a two-level map with a deletion that borrows from the left, degree 3. -/
example : ∃ t os d l es ss, runNew Fn.comp 3 (ascending 6 ++ [.delete 6, .delete 5]) = .ok (t, os) ∧ Holds t d l es ss ∧ Ascending Fn.comp es ∧ es = pairs [1, 2, 3, 3] := by
  obtain ⟨⟨t, h1, d, l, ss, h2⟩, -⟩ := delete_exact_refuted
  obtain ⟨d', l', es', ss', h3, h4, -⟩ := order_partial Fn.comp_strict.toThreeWay.toLawful 3 (by omega) (ascending 6 ++ [.delete 6, .delete 5]) (by simp [ascending]) (by decide) t _ h1
  obtain ⟨-, -, rfl, -⟩ := h3.unique h2
  exact ⟨t, _, d, l, _, ss, h1, h2, h4, rfl⟩

end Gds.BPlus
