import Mathlib.Data.List.Perm.Subperm
import Verif.BPlus.Props2

/-! C102: how much one deletion can lose, in every history and with every comparator. -/

namespace Gds.BPlus
open BT Tree Eval
variable {K V : Type}

/-! ### What the worst case means -/

theorem Damage.lost {cmp : Compare K} {key : K} {xs ys : List (K × V)} (h : Damage cmp key xs ys) :
    (∃ lost : List (K × V), lost.length ≤ 2 ∧ xs.Subperm (lost ++ ys)) ∧ (∀ e ∈ ys, e ∈ xs) ∧
      ys.length ≤ xs.length ∧ xs.length ≤ ys.length + 1 := by
  obtain ⟨ms, hs, hd⟩ := h
  have h1 : ∃ l1 : List (K × V), l1.length ≤ 1 ∧ xs.Subperm (l1 ++ ms) := by
    rcases hs with rfl | ⟨P, x, y, S, rfl, rfl⟩
    · exact ⟨[], by simp, by simpa using List.Subperm.refl _⟩
    · refine ⟨[y], by simp, ?_⟩
      have e1 : (P ++ x :: y :: S).Perm (y :: (P ++ x :: S)) := by
        have := (List.perm_middle (a := y) (l₁ := P ++ [x]) (l₂ := S)); simpa using this
      have e2 : List.Sublist (y :: (P ++ x :: S)) ([y] ++ (P ++ x :: x :: S)) := by simp
      exact e1.subperm.trans e2.subperm
  have h2 : ∃ l2 : List (K × V), l2.length ≤ 1 ∧ ms.Subperm (l2 ++ ys) := by
    rcases hd with rfl | ⟨P, e, S, rfl, rfl, -⟩
    · exact ⟨[], by simp, by simpa using List.Subperm.refl _⟩
    · exact ⟨[e], by simp, List.perm_middle.subperm⟩
  have hlen : ms.length = xs.length := by
    rcases hs with rfl | ⟨P, x, y, S, rfl, rfl⟩
    · rfl
    · simp
  refine ⟨?_, ?_, ?_⟩
  · obtain ⟨l1, a1, b1⟩ := h1
    obtain ⟨l2, a2, b2⟩ := h2
    refine ⟨l1 ++ l2, by simp; omega, b1.trans ?_⟩
    rw [List.append_assoc]
    exact (List.Subperm.refl l1).append b2
  · intro e he
    have hm : e ∈ ms := by
      rcases hd with rfl | ⟨P, x, S, rfl, rfl, -⟩
      · exact he
      · simp at he ⊢; tauto
    rcases hs with rfl | ⟨P, x, y, S, rfl, rfl⟩
    · exact hm
    · simp at hm ⊢; tauto
  · rcases hd with rfl | ⟨P, e, S, rfl, rfl, -⟩
    · omega
    · simp at hlen ⊢; omega

theorem Added.lost {e : K × V} {xs ys : List (K × V)} (h : Added e xs ys) : xs.Subperm ys ∧ (∀ x ∈ ys, x = e ∨ x ∈ xs) ∧ e ∈ ys := by
  obtain ⟨P, S, rfl, rfl⟩ := h
  refine ⟨List.Sublist.subperm (by simp), fun x hx => ?_, by simp⟩
  simp at hx ⊢; tauto

theorem WorstAll.lost {cmp : Compare K} {ks : List K} {n : Nat} {es es' : List (K × V)} (h : WorstAll cmp ks n es es') :
    (∃ lost : List (K × V), lost.length ≤ 2 * n ∧ es.Subperm (lost ++ es')) ∧ (∀ e ∈ es', e ∈ es) := by
  induction h with
  | nil es => exact ⟨⟨[], by simp, by simpa using List.Subperm.refl _⟩, fun _ h => h⟩
  | hit _ hd _ ih =>
    obtain ⟨⟨l1, a1, b1⟩, c1, -⟩ := hd.lost
    obtain ⟨⟨l2, a2, b2⟩, c2⟩ := ih
    refine ⟨⟨l1 ++ l2, by simp; omega, b1.trans ?_⟩, fun e he => c1 e (c2 e he)⟩
    rw [List.append_assoc]
    exact (List.Subperm.refl l1).append b2
  | miss _ ih => exact ih

theorem Worst.lost {cmp : Compare K} {op : Op K V} {o : Out} {es es' : List (K × V)} (h : Worst cmp op o es es') (hnc : op ≠ .clear) :
    (∃ lost : List (K × V), lost.length ≤ 2 * hits op o ∧ es.Subperm (lost ++ es')) ∧ (∀ e ∈ es', e ∈ es ∨ e ∈ offered [op]) := by
  have same : ∀ op : Op K V, (∃ lost : List (K × V), lost.length ≤ 2 * hits op o ∧ es.Subperm (lost ++ es)) ∧ (∀ e ∈ es, e ∈ es ∨ e ∈ offered [op]) :=
    fun op => ⟨⟨[], by simp, by simpa using List.Subperm.refl _⟩, fun e he => Or.inl he⟩
  cases op with
  | insertEqual k v =>
    obtain ⟨rfl, ha⟩ := h
    obtain ⟨a, b, -⟩ := ha.lost
    refine ⟨⟨[], by simp, by simpa using a⟩, fun e he => ?_⟩
    rcases b e he with rfl | h
    · right; simp [offered]
    · exact Or.inl h
  | insertUnique k v =>
    rcases h with ⟨rfl, ha⟩ | ⟨rfl, -, rfl⟩
    · obtain ⟨a, b, -⟩ := ha.lost
      refine ⟨⟨[], by simp, by simpa using a⟩, fun e he => ?_⟩
      rcases b e he with rfl | h
      · right; simp [offered]
      · exact Or.inl h
    · exact same _
  | delete k =>
    rcases h with ⟨rfl, -, hd⟩ | ⟨rfl, rfl⟩
    · obtain ⟨a, b, -⟩ := hd.lost
      exact ⟨by simpa [hits] using a, fun e he => Or.inl (b e he)⟩
    · exact same _
  | deleteEntryByKey x =>
    rcases h with ⟨rfl, -, hd⟩ | ⟨rfl, rfl⟩
    · obtain ⟨a, b, -⟩ := hd.lost
      exact ⟨by simpa [hits] using a, fun e he => Or.inl (b e he)⟩
    · exact same _
  | deleteByWholeMapping k v c =>
    rcases h with ⟨rfl, -, hd⟩ | ⟨rfl, rfl⟩
    · obtain ⟨a, b, -⟩ := hd.lost
      exact ⟨by simpa [hits] using a, fun e he => Or.inl (b e he)⟩
    · exact same _
  | deleteAll ks =>
    obtain ⟨n, rfl, hw⟩ := h
    obtain ⟨a, b⟩ := hw.lost
    exact ⟨by simpa [hits] using a, fun e he => Or.inl (b e he)⟩
  | clear => exact absurd rfl hnc

theorem offered_cons (op : Op K V) (ops : List (Op K V)) : offered (op :: ops) = offered [op] ++ offered ops := by
  cases op <;> rfl

/-- At most two entries are lost per deletion that answers true, and nothing is ever held that was not inserted. -/
theorem WorstTrace.lost {cmp : Compare K} {ops : List (Op K V)} {os : List Out} {es es' : List (K × V)} (h : WorstTrace cmp es ops os es')
    (hnc : .clear ∉ ops) :
    (∃ lost : List (K × V), lost.length ≤ 2 * totalHits ops os ∧ es.Subperm (lost ++ es')) ∧ (∀ e ∈ es', e ∈ es ∨ e ∈ offered ops) := by
  induction h with
  | nil es => exact ⟨⟨[], by simp, by simpa using List.Subperm.refl _⟩, fun _ h => Or.inl h⟩
  | cons hw _ ih =>
    simp only [List.mem_cons, not_or] at hnc
    obtain ⟨⟨l1, a1, b1⟩, c1⟩ := hw.lost (Ne.symm hnc.1)
    obtain ⟨⟨l2, a2, b2⟩, c2⟩ := ih hnc.2
    refine ⟨⟨l1 ++ l2, by simp [totalHits]; omega, b1.trans ?_⟩, fun e he => ?_⟩
    · rw [List.append_assoc]
      exact (List.Subperm.refl l1).append b2
    · rw [offered_cons, List.mem_append]
      rcases c2 e he with h | h
      · rcases c1 e h with h | h
        · exact Or.inl h
        · exact Or.inr (Or.inl h)
      · exact Or.inr (Or.inr h)

variable [Inhabited K] [Inhabited V]

/-! ### The code is within the worst case -/

theorem delete_worst (cmp : Compare K) (t : Tree K V) {d : Nat} (b : BT K V d) (g : Good t b) (k : K) (t' : Tree K V) (o : Bool)
    (h : delete cmp t k = .ok (t', o)) :
    ∃ d', ∃ b' : BT K V d', Good t' b' ∧ ((o = true ∧ (∃ e ∈ b.entries, cmp k e.1 = 0) ∧ Damage cmp k b.entries b'.entries) ∨
      (o = false ∧ t' = t ∧ b'.entries = b.entries)) := by
  rcases delete_good cmp t b g k with ⟨h1, -⟩ | ⟨-, he, ⟨t1, d1, b1, h1, -, post⟩ | ⟨h1, -⟩⟩
  · rw [h] at h1
    simp only [Res.ok.injEq, Prod.mk.injEq] at h1
    obtain ⟨rfl, rfl⟩ := h1
    exact ⟨d, b, g, Or.inr ⟨rfl, rfl, rfl⟩⟩
  · rw [h] at h1
    simp only [Res.ok.injEq, Prod.mk.injEq] at h1
    obtain ⟨rfl, rfl⟩ := h1
    exact ⟨d1, b1, post.good, Or.inl ⟨rfl, he, post.damage⟩⟩
  · rw [h] at h1; simp at h1

theorem deleteAll_worst (cmp : Compare K) : ∀ (ks : List K) (n : Nat) (t : Tree K V) {d : Nat} (b : BT K V d), Good t b → ∀ (t' : Tree K V) (n' : Nat),
    deleteAll cmp t n ks = .ok (t', n') → ∃ d', ∃ b' : BT K V d', ∃ m, Good t' b' ∧ n' = n + m ∧ WorstAll cmp ks m b.entries b'.entries
  | [], n, t, d, b, g, t', n', h => by
    simp only [deleteAll, Res.ok.injEq, Prod.mk.injEq] at h
    obtain ⟨rfl, rfl⟩ := h
    exact ⟨d, b, 0, g, rfl, .nil _⟩
  | k :: ks, n, t, d, b, g, t', n', h => by
    rw [deleteAll] at h
    cases hd : delete cmp t k with
    | panic => rw [hd] at h; simp at h
    | hang => rw [hd] at h; simp at h
    | ok x =>
      obtain ⟨t1, o⟩ := x
      rw [hd] at h
      simp only [Res.bind_ok] at h
      obtain ⟨d1, b1, g1, ⟨rfl, he, hdm⟩ | ⟨rfl, rfl, hb⟩⟩ := delete_worst cmp t b g k t1 o hd
      · obtain ⟨d2, b2, m, g2, hm, hw⟩ := deleteAll_worst cmp ks _ t1 b1 g1 t' n' (by simpa using h)
        exact ⟨d2, b2, m + 1, g2, by omega, .hit he hdm hw⟩
      · obtain ⟨d2, b2, m, g2, hm, hw⟩ := deleteAll_worst cmp ks n t1 b1 g1 t' n' (by simpa using h)
        rw [hb] at hw
        exact ⟨d2, b2, m, g2, hm, .miss hw⟩

theorem step_worst (cmp : Compare K) (t : Tree K V) {d : Nat} (b : BT K V d) (g : Good t b) (op : Op K V) (hnc : op ≠ .clear) (t' : Tree K V) (o : Out)
    (h : step cmp t op = .ok (t', o)) : ∃ d', ∃ b' : BT K V d', Good t' b' ∧ Worst cmp op o b.entries b'.entries := by
  have hdel : ∀ k, (do let (t, b) ← delete cmp t k; Res.ok (t, Out.bool b)) = .ok (t', o) → ∃ d', ∃ b' : BT K V d', Good t' b' ∧
      ((o = .bool true ∧ (∃ e ∈ b.entries, cmp k e.1 = 0) ∧ Damage cmp k b.entries b'.entries) ∨ (o = .bool false ∧ b'.entries = b.entries)) := by
    intro k h
    cases hd : delete cmp t k with
    | panic => rw [hd] at h; simp at h
    | hang => rw [hd] at h; simp at h
    | ok x =>
      obtain ⟨t1, o1⟩ := x
      rw [hd] at h
      simp only [Res.bind_ok, Res.ok.injEq, Prod.mk.injEq] at h
      obtain ⟨rfl, rfl⟩ := h
      obtain ⟨d1, b1, g1, ⟨rfl, he, hdm⟩ | ⟨rfl, -, hb⟩⟩ := delete_worst cmp t b g k t1 o1 hd
      · exact ⟨d1, b1, g1, Or.inl ⟨rfl, he, hdm⟩⟩
      · exact ⟨d1, b1, g1, Or.inr ⟨rfl, hb⟩⟩
  cases op with
  | insertEqual k v =>
    obtain ⟨t2, d2, b2, h2, g2, -, ha, -⟩ := insert_exact cmp t b (k, v) g
    simp only [step, insertEqual, h2, Res.bind_ok, Res.ok.injEq, Prod.mk.injEq] at h
    obtain ⟨rfl, rfl⟩ := h
    exact ⟨d2, b2, g2, rfl, ha⟩
  | insertUnique k v =>
    obtain ⟨t2, d2, b2, h2, g2, -, ha, -⟩ := insert_exact cmp t b (k, v) g
    rcases insertUnique_good cmp t b g k v with ⟨h3, he⟩ | ⟨t3, h3, h4, -⟩
    · simp only [step, h3, Res.bind_ok, Res.ok.injEq, Prod.mk.injEq] at h
      obtain ⟨rfl, rfl⟩ := h
      exact ⟨d, b, g, Or.inr ⟨rfl, he, rfl⟩⟩
    · rw [h2] at h4
      simp only [Res.ok.injEq] at h4
      subst h4
      simp only [step, h3, Res.bind_ok, Res.ok.injEq, Prod.mk.injEq] at h
      obtain ⟨rfl, rfl⟩ := h
      exact ⟨d2, b2, g2, Or.inl ⟨rfl, ha⟩⟩
  | delete k => exact hdel k h
  | deleteEntryByKey e => exact hdel e.1 h
  | deleteByWholeMapping k v f =>
    obtain ⟨x, hx, -, -, -, -, -, hw⟩ := reads_good cmp t b g k
    have hw := hw f v
    have none_case : deleteByWholeMapping cmp t k v f = .ok (t, false) → ∃ d', ∃ b' : BT K V d', Good t' b' ∧ Worst cmp (.deleteByWholeMapping k v f) o b.entries b'.entries := by
      intro hf
      simp only [step, hf, Res.bind_ok, Res.ok.injEq, Prod.mk.injEq] at h
      obtain ⟨rfl, rfl⟩ := h
      exact ⟨d, b, g, Or.inr ⟨rfl, rfl⟩⟩
    cases x with
    | none => exact none_case hw
    | some e =>
      simp only at hw
      by_cases hc : f e.2 v < 0
      · rw [if_pos hc] at hw
        rw [step, hw] at h
        obtain ⟨d1, b1, g1, ⟨rfl, -, hdm⟩ | ⟨rfl, hb⟩⟩ := hdel k h
        · exact ⟨d1, b1, g1, Or.inl ⟨rfl, ⟨e, (hx e rfl).1, (hx e rfl).2, hc⟩, hdm⟩⟩
        · exact ⟨d1, b1, g1, Or.inr ⟨rfl, hb⟩⟩
      · rw [if_neg hc] at hw
        exact none_case hw
  | deleteAll ks =>
    cases hd : deleteAll cmp t 0 ks with
    | panic => rw [step, hd] at h; simp at h
    | hang => rw [step, hd] at h; simp at h
    | ok x =>
      obtain ⟨t1, n⟩ := x
      simp only [step, hd, Res.bind_ok, Res.ok.injEq, Prod.mk.injEq] at h
      obtain ⟨rfl, rfl⟩ := h
      obtain ⟨d1, b1, m, g1, hm, hw⟩ := deleteAll_worst cmp ks 0 t b g t1 n hd
      exact ⟨d1, b1, g1, n, rfl, by rw [hm, Nat.zero_add]; exact hw⟩
  | clear => exact absurd rfl hnc

theorem run_worst (cmp : Compare K) : ∀ (ops : List (Op K V)) (t : Tree K V) {d : Nat} (b : BT K V d), Good t b → .clear ∉ ops → ∀ (t' : Tree K V) (os : List Out),
    run cmp t ops = .ok (t', os) → ∃ d', ∃ b' : BT K V d', Good t' b' ∧ WorstTrace cmp b.entries ops os b'.entries
  | [], t, d, b, g, _, t', os, h => by
    simp only [run, Res.ok.injEq, Prod.mk.injEq] at h
    obtain ⟨rfl, rfl⟩ := h
    exact ⟨d, b, g, .nil _⟩
  | op :: ops, t, d, b, g, hnc, t', os, h => by
    simp only [List.mem_cons, not_or] at hnc
    rw [run] at h
    cases hd : step cmp t op with
    | panic => rw [hd] at h; simp at h
    | hang => rw [hd] at h; simp at h
    | ok x =>
      obtain ⟨t1, o⟩ := x
      rw [hd] at h
      simp only [Res.bind_ok] at h
      cases hr : run cmp t1 ops with
      | panic => rw [hr] at h; simp at h
      | hang => rw [hr] at h; simp at h
      | ok y =>
        obtain ⟨t2, os2⟩ := y
        rw [hr] at h
        simp only [Res.bind_ok, Res.ok.injEq, Prod.mk.injEq] at h
        obtain ⟨rfl, rfl⟩ := h
        obtain ⟨d1, b1, g1, hw⟩ := step_worst cmp t b g op (Ne.symm hnc.1) t1 o hd
        obtain ⟨d2, b2, g2, hws⟩ := run_worst cmp ops t1 b1 g1 hnc.2 t2 os2 hr
        exact ⟨d2, b2, g2, .cons hw hws⟩

/-- Every history without `Clear` that returns, with every comparator: each call changes the entries at most as `Worst` says.  In
    particular an insertion adds exactly its entry and moves no other, a call that answers false changes nothing, and a deletion that
    answers true overwrites at most one entry with a copy of its left neighbour and then removes at most one, whose key is not greater
    than the given one. -/
theorem worst_case (cmp : Compare K) (M : Nat) (hM : 2 ≤ M) (ops : List (Op K V)) (hnc : .clear ∉ ops) (t : Tree K V) (os : List Out)
    (hrun : runNew cmp M ops = .ok (t, os)) :
    ∃ d l es ss, Holds t d l es ss ∧ WorstTrace cmp [] ops os es := by
  obtain ⟨t0, h0, hd, g⟩ := newMap_good (K := K) (V := V) hM
  have hr : run cmp t0 ops = .ok (t, os) := by simpa [runNew, h0] using hrun
  obtain ⟨d, b, g', hw⟩ := run_worst cmp ops t0 _ g hnc t os hr
  exact ⟨d, _, _, _, g'.holds, by simpa using hw⟩

/-- One more call after any history. -/
theorem worst_case_step (cmp : Compare K) (M : Nat) (hM : 2 ≤ M) (ops : List (Op K V)) (hnc : .clear ∉ ops) (t : Tree K V) (os : List Out)
    (hrun : runNew cmp M ops = .ok (t, os)) (op : Op K V) (hop : op ≠ .clear) (t' : Tree K V) (o : Out) (hstep : step cmp t op = .ok (t', o))
    {d : Nat} {l : List Nat} {es ss : List (K × V)} (hold : Holds t d l es ss) :
    ∃ d' l' es' ss', Holds t' d' l' es' ss' ∧ Worst cmp op o es es' := by
  obtain ⟨t0, h0, hd, g⟩ := newMap_good (K := K) (V := V) hM
  have hr : run cmp t0 ops = .ok (t, os) := by simpa [runNew, h0] using hrun
  obtain ⟨d1, b1, g1, -⟩ := run_worst cmp ops t0 _ g hnc t os hr
  obtain ⟨-, -, rfl, -⟩ := hold.unique g1.holds
  obtain ⟨d2, b2, g2, hw⟩ := step_worst cmp t b1 g1 op hop t' o hstep
  exact ⟨d2, _, _, _, g2.holds, hw⟩

/-- The bound in numbers: after any history `ops` and any further calls `more`, all but at most two entries per deletion that
    answered true are still held, and whatever is held was handed to an insertion. -/
theorem loss_bound (cmp : Compare K) (M : Nat) (hM : 2 ≤ M) (ops more : List (Op K V)) (hnc : .clear ∉ ops) (hnc' : .clear ∉ more)
    (t t' : Tree K V) (os os' : List Out) (hrun : runNew cmp M ops = .ok (t, os)) (hmore : run cmp t more = .ok (t', os'))
    {d : Nat} {l : List Nat} {es ss : List (K × V)} (hold : Holds t d l es ss) :
    ∃ d' l' es' ss' lost, Holds t' d' l' es' ss' ∧ es.Subperm (lost ++ es') ∧ lost.length ≤ 2 * totalHits more os' ∧
      (∀ e ∈ es', e ∈ offered ops ∨ e ∈ offered more) := by
  obtain ⟨t0, h0, hd, g⟩ := newMap_good (K := K) (V := V) hM
  have hr : run cmp t0 ops = .ok (t, os) := by simpa [runNew, h0] using hrun
  obtain ⟨d1, b1, g1, hw1⟩ := run_worst cmp ops t0 _ g hnc t os hr
  obtain ⟨-, -, rfl, -⟩ := hold.unique g1.holds
  obtain ⟨d2, b2, g2, hw⟩ := run_worst cmp more t b1 g1 hnc' t' os' hmore
  obtain ⟨⟨lost, a, b⟩, c⟩ := hw.lost hnc'
  refine ⟨d2, _, _, _, lost, g2.holds, b, a, fun e he => ?_⟩
  rcases c e he with h | h
  · rcases (hw1.lost hnc).2 e h with h | h
    · simp at h
    · exact Or.inl h
  · exact Or.inr h

/-- Non-vacuity, and the bound is reached: with degree 3, `Delete(5)` on the keys 1 … 5 (made from 1 … 6 by `Delete(6)`) leaves 1, 2, 3
    and a second 3: the entries 4 and 5 are both gone. -/
example : ∃ t, runNew Fn.comp 3 (ascending 6 ++ [.delete 6, .delete 5]) = .ok (t, List.replicate 8 (.bool true)) ∧
    (∃ d l ss, Holds t d l (pairs [1, 2, 3, 3]) ss) ∧ totalHits (ascending 6 ++ [.delete 6, .delete 5]) (List.replicate 8 (.bool true)) = 2 ∧
    Damage Fn.comp 5 (pairs [1, 2, 3, 4, 5]) (pairs [1, 2, 3, 3]) := by
  obtain ⟨⟨t, h1, h2⟩, -⟩ := delete_exact_refuted
  refine ⟨t, h1, h2, by decide, pairs [1, 2, 3, 3, 5], Or.inr ⟨pairs [1, 2], (3, 3), (4, 4), pairs [5], rfl, rfl⟩,
    Or.inr ⟨pairs [1, 2, 3, 3], (5, 5), [], rfl, rfl, Or.inl ?_⟩⟩
  decide

end Gds.BPlus
