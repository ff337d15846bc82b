import Verif.BPlus.Ops

/-! Histories of calls. -/

namespace Gds.BPlus
open BT Tree
variable {K V : Type}

/-! ### The description of a tree is unique -/

theorem Sub.unique {h : Heap K V} {M : Nat} {d p : Nat} {l : List Nat} {ss : List (K × V)} (s : Sub h M d p l ss) :
    ∀ {d' l' ss'}, Sub h M d' p l' ss' → d = d' ∧ l = l' ∧ ss = ss' := by
  induction s with
  | leaf h1 h2 =>
    intro d' l' ss' s'
    cases s' with
    | leaf => exact ⟨rfl, rfl, rfl⟩
    | inner c l ss g1 => rw [h1] at g1; simp at g1
  | @inner d p c l ss h1 h2 h3 h4 ih =>
    intro d' l' ss' s'
    cases s' with
    | leaf g1 => rw [h1] at g1; simp at g1
    | @inner d' _ c' l' ss' g1 g2 g3 g4 =>
      have hc : ∀ i, i ≤ h.num p → c i = c' i := by
        intro i hi
        have a := (h3 i hi).1; have b := (g3 i hi).1
        rw [a] at b; simpa using b
      have hi : ∀ i, i ≤ h.num p → d = d' ∧ l i = l' i ∧ ss i = ss' i := by
        intro i hi
        have := g4 i hi
        rw [← hc i hi] at this
        exact ih i hi this
      have e1 : (List.range (h.num p + 1)).flatMap l = (List.range (h.num p + 1)).flatMap l' := by
        refine List.flatMap_congr (fun i hi' => (hi i ?_).2.1)
        have := List.mem_range.1 hi'; omega
      have e2 : (List.range (h.num p + 1)).flatMap ss = (List.range (h.num p + 1)).flatMap ss' := by
        refine List.flatMap_congr (fun i hi' => (hi i ?_).2.2)
        have := List.mem_range.1 hi'; omega
      exact ⟨by rw [(hi 0 (Nat.zero_le _)).1], e1, by rw [e2]⟩

theorem Holds.unique {t : Tree K V} {d d' : Nat} {l l' : List Nat} {es es' ss ss' : List (K × V)} (h : Holds t d l es ss) (h' : Holds t d' l' es' ss') :
    d = d' ∧ l = l' ∧ es = es' ∧ ss = ss' := by
  obtain ⟨p, hp, hs, -⟩ := h.shape
  obtain ⟨p', hp', hs', -⟩ := h'.shape
  rw [hp] at hp'
  simp at hp'
  subst hp'
  obtain ⟨rfl, rfl, rfl⟩ := hs.unique hs'
  exact ⟨rfl, rfl, by rw [h.entries, h'.entries], rfl⟩

/-! ### Depth -/

theorem Sub.leaves_ge {h : Heap K V} {M : Nat} (hM : 2 ≤ M) {d p : Nat} {l : List Nat} {ss : List (K × V)} (s : Sub h M d p l ss) :
    M - 1 ≤ h.num p → M ^ d * (M - 1) ≤ (contents h l).length := by
  induction s with
  | leaf h1 h2 => intro hp; simpa [contents] using hp
  | @inner d p c l ss h1 h2 h3 h4 ih =>
    intro hp
    have key : ∀ n, n ≤ h.num p + 1 → n * (M ^ d * (M - 1)) ≤ (contents h ((List.range n).flatMap l)).length := by
      intro n
      induction n with
      | zero => intro _; simp
      | succ n ihn =>
        intro hn
        have a := ihn (by omega)
        have b := ih n (by omega) (h3 n (by omega)).2
        rw [List.range_succ]
        simp only [contents, List.flatMap_append, List.flatMap_cons, List.flatMap_nil, List.append_nil, List.length_append] at a b ⊢
        rw [Nat.succ_mul]
        omega
    have := key (h.num p + 1) (Nat.le_refl _)
    refine Nat.le_trans ?_ this
    rw [Nat.pow_succ, Nat.mul_assoc, Nat.mul_left_comm]
    exact Nat.mul_le_mul_right _ (by omega)

/-- A tree of depth `d+1` has at least `2*M^d*(M-1)` entries. -/
theorem Holds.depth_le {t : Tree K V} {d : Nat} {l : List Nat} {es ss : List (K × V)} (h : Holds t (d + 1) l es ss) (hM : 2 ≤ t.degree) :
    2 * (t.degree ^ d * (t.degree - 1)) ≤ es.length := by
  obtain ⟨p, hp, hs, hn⟩ := h.shape
  have hn := hn (by simp)
  rw [h.entries]
  cases hs with
  | inner c l ss h1 h2 h3 h4 =>
    have a := (h4 0 (by omega)).leaves_ge hM (h3 0 (by omega)).2
    have b := (h4 1 (by omega)).leaves_ge hM (h3 1 (by omega)).2
    obtain ⟨n, hn⟩ : ∃ n, t.h.num p + 1 = 2 + n := ⟨t.h.num p - 1, by omega⟩
    have : List.range (t.h.num p + 1) = [0, 1] ++ (List.range n).map (2 + ·) := by
      rw [hn, List.range_add]; rfl
    rw [this]
    simp only [contents, List.flatMap_append, List.flatMap_cons, List.flatMap_nil, List.append_nil, List.length_append] at a b ⊢
    omega

/-- ... and at most `(2M)^d*(2M-1)`. -/
theorem Sub.leaves_le {h : Heap K V} {M : Nat} {d p : Nat} {l : List Nat} {ss : List (K × V)} (s : Sub h M d p l ss) :
    (contents h l).length ≤ (2 * M) ^ d * (2 * M - 1) := by
  induction s with
  | leaf h1 h2 => simpa [contents] using h2
  | @inner d p c l ss h1 h2 h3 h4 ih =>
    have key : ∀ n, n ≤ h.num p + 1 → (contents h ((List.range n).flatMap l)).length ≤ n * ((2 * M) ^ d * (2 * M - 1)) := by
      intro n
      induction n with
      | zero => intro _; simp [contents]
      | succ n ihn =>
        intro hn
        have a := ihn (by omega)
        have b := ih n (by omega)
        rw [List.range_succ]
        simp only [contents, List.flatMap_append, List.flatMap_cons, List.flatMap_nil, List.append_nil, List.length_append] at a b ⊢
        rw [Nat.succ_mul]
        omega
    have := key (h.num p + 1) (Nat.le_refl _)
    refine Nat.le_trans this ?_
    rcases Nat.eq_zero_or_pos M with rfl | hM
    · simp
    · have e : (2 * M) ^ (d + 1) * (2 * M - 1) = 2 * M * ((2 * M) ^ d * (2 * M - 1)) := by rw [Nat.pow_succ]; ac_rfl
      rw [e]
      exact Nat.mul_le_mul_right _ (by omega)

/-! ### After Clear -/

/-- The state after `Clear`. -/
structure Cleared (t : Tree K V) : Prop where
  root : t.root = none
  size : t.size = 0

variable [Inhabited K] [Inhabited V]

theorem Cleared.search {t : Tree K V} (c : Cleared t) (cmp : Compare K) (k : K) : search cmp t k = .ok (none, 0, false) := by
  simp [BPlus.search, c.size]

theorem Cleared.insert {t : Tree K V} (c : Cleared t) (cmp : Compare K) (e : K × V) : insert cmp t e = .ok t := by
  simp only [BPlus.insert, c.root, if_true]
  obtain ⟨h, f, r, s, d⟩ := t
  have := c.root
  simp only at this
  rw [this]

theorem Cleared.deleteAll {t : Tree K V} (c : Cleared t) (cmp : Compare K) : ∀ (ks : List K) (n : Nat), deleteAll cmp t n ks = .ok (t, n)
  | [], _ => rfl
  | k :: ks, n => by simp [BPlus.deleteAll, delete, containsKey, c.search, c.deleteAll cmp ks]

/-- What a call answers after `Clear`. -/
def clearedOut : Op K V → Out
  | .insertEqual _ _ => .bool true
  | .insertUnique _ _ => .bool true
  | .delete _ => .bool false
  | .deleteEntryByKey _ => .bool false
  | .deleteByWholeMapping _ _ _ => .bool false
  | .deleteAll _ => .num 0
  | .clear => .unit

theorem Cleared.step {t : Tree K V} (c : Cleared t) (cmp : Compare K) (op : Op K V) : step cmp t op = .ok (t, clearedOut op) := by
  cases op with
  | insertEqual k v => simp [BPlus.step, insertEqual, c.insert, clearedOut]
  | insertUnique k v => simp [BPlus.step, insertUnique, containsKey, c.search, c.insert, clearedOut]
  | delete k => simp [BPlus.step, delete, containsKey, c.search, clearedOut]
  | deleteEntryByKey e => simp [BPlus.step, deleteEntryByKey, delete, containsKey, c.search, clearedOut]
  | deleteByWholeMapping k v f => simp [BPlus.step, deleteByWholeMapping, c.search, clearedOut]
  | deleteAll ks => simp [BPlus.step, c.deleteAll, clearedOut]
  | clear =>
    obtain ⟨h, f, r, s, d⟩ := t
    obtain ⟨rfl, rfl⟩ := c
    simp [BPlus.step, clear, clearedOut]

theorem Cleared.run {t : Tree K V} (c : Cleared t) (cmp : Compare K) : ∀ ops : List (Op K V), run cmp t ops = .ok (t, ops.map clearedOut)
  | [] => rfl
  | op :: ops => by simp [BPlus.run, c.step, c.run cmp ops]

/-! ### All histories -/

/-- `t` holds some tree. -/
def Live (M : Nat) (t : Tree K V) : Prop := t.degree = M ∧ ∃ d, ∃ b : BT K V d, Good t b

theorem deleteAll_live {M : Nat} (cmp : Compare K) : ∀ (ks : List K) (n : Nat) (t : Tree K V), Live M t →
    (∃ t' n', deleteAll cmp t n ks = .ok (t', n') ∧ Live M t') ∨ deleteAll cmp t n ks = .panic .indexOutOfRange
  | [], n, t, h => Or.inl ⟨t, n, rfl, h⟩
  | k :: ks, n, t, ⟨hM, d, b, g⟩ => by
    rw [deleteAll]
    rcases delete_good cmp t b g k with ⟨h, -⟩ | ⟨-, -, ⟨t', d', b', h, -, post⟩ | ⟨h, -⟩⟩
    · rw [h]
      simpa using deleteAll_live cmp ks n t ⟨hM, d, b, g⟩
    · rw [h]
      simpa using deleteAll_live cmp ks (n + 1) t' ⟨by rw [post.degree, hM], d', b', post.good⟩
    · right; rw [h]; rfl

theorem delete_live {M : Nat} (cmp : Compare K) (k : K) (t : Tree K V) : Live M t →
    (∃ t' o, delete cmp t k = .ok (t', o) ∧ Live M t') ∨ delete cmp t k = .panic .indexOutOfRange
  | ⟨hM, d, b, g⟩ => by
    rcases delete_good cmp t b g k with ⟨h, -⟩ | ⟨-, -, ⟨t', d', b', h, -, post⟩ | ⟨h, -⟩⟩
    · exact Or.inl ⟨t, false, h, hM, d, b, g⟩
    · exact Or.inl ⟨t', true, h, by rw [post.degree, hM], d', b', post.good⟩
    · exact Or.inr h

theorem step_live {M : Nat} (cmp : Compare K) (op : Op K V) (t : Tree K V) (hl : Live M t) :
    (∃ t' o, step cmp t op = .ok (t', o) ∧ ((op ≠ .clear ∧ Live M t') ∨ (op = .clear ∧ Cleared t'))) ∨ step cmp t op = .panic .indexOutOfRange := by
  obtain ⟨hM, d, b, g⟩ := hl
  have hins : ∀ k v t', insert cmp t (k, v) = .ok t' → Live M t' := by
    intro k v t' h
    obtain ⟨t2, d', b', h2, g', hd, -⟩ := insert_spec cmp t b (k, v) g
    rw [h] at h2
    injection h2 with h2
    subst h2
    exact ⟨by rw [hd, hM], d', b', g'⟩
  cases op with
  | insertEqual k v =>
    obtain ⟨t2, d', b', h2, g', hd, -⟩ := insert_spec cmp t b (k, v) g
    left
    exact ⟨t2, .bool true, by simp [step, insertEqual, h2], Or.inl ⟨by simp, hins k v t2 h2⟩⟩
  | insertUnique k v =>
    rcases insertUnique_good cmp t b g k v with ⟨h, -⟩ | ⟨t', h, h2, -⟩
    · exact Or.inl ⟨t, .bool false, by simp [step, h], Or.inl ⟨by simp, hM, d, b, g⟩⟩
    · exact Or.inl ⟨t', .bool true, by simp [step, h], Or.inl ⟨by simp, hins k v t' h2⟩⟩
  | delete k =>
    rcases delete_live cmp k t ⟨hM, d, b, g⟩ with ⟨t', o, h, hl⟩ | h
    · exact Or.inl ⟨t', .bool o, by simp [step, h], Or.inl ⟨by simp, hl⟩⟩
    · exact Or.inr (by simp [step, h])
  | deleteEntryByKey e =>
    rcases delete_live cmp e.1 t ⟨hM, d, b, g⟩ with ⟨t', o, h, hl⟩ | h
    · exact Or.inl ⟨t', .bool o, by simp [step, deleteEntryByKey, h], Or.inl ⟨by simp, hl⟩⟩
    · exact Or.inr (by simp [step, deleteEntryByKey, h])
  | deleteByWholeMapping k v f =>
    obtain ⟨o, -, -, -, -, -, -, hw⟩ := reads_good cmp t b g k
    have hw := hw f v
    cases o with
    | none => exact Or.inl ⟨t, .bool false, by simp [step, hw], Or.inl ⟨by simp, hM, d, b, g⟩⟩
    | some e =>
      simp only at hw
      by_cases hc : f e.2 v < 0
      · rw [if_pos hc] at hw
        rcases delete_live cmp k t ⟨hM, d, b, g⟩ with ⟨t', o, h, hl⟩ | h
        · exact Or.inl ⟨t', .bool o, by simp [step, hw, h], Or.inl ⟨by simp, hl⟩⟩
        · exact Or.inr (by simp [step, hw, h])
      · rw [if_neg hc] at hw
        exact Or.inl ⟨t, .bool false, by simp [step, hw], Or.inl ⟨by simp, hM, d, b, g⟩⟩
  | deleteAll ks =>
    rcases deleteAll_live cmp ks 0 t ⟨hM, d, b, g⟩ with ⟨t', n, h, hl⟩ | h
    · exact Or.inl ⟨t', .num n, by simp [step, h], Or.inl ⟨by simp, hl⟩⟩
    · exact Or.inr (by simp [step, h])
  | clear => exact Or.inl ⟨_, _, rfl, Or.inr ⟨rfl, rfl, rfl⟩⟩

theorem run_live {M : Nat} (cmp : Compare K) : ∀ (ops : List (Op K V)) (t : Tree K V), Live M t →
    (∃ t' os, run cmp t ops = .ok (t', os) ∧ ((.clear ∉ ops ∧ Live M t') ∨ (.clear ∈ ops ∧ Cleared t'))) ∨ run cmp t ops = .panic .indexOutOfRange
  | [], t, hl => Or.inl ⟨t, [], rfl, Or.inl ⟨by simp, hl⟩⟩
  | op :: ops, t, hl => by
    rw [run]
    rcases step_live cmp op t hl with ⟨t', o, h, ⟨hop, hl'⟩ | ⟨hop, hc⟩⟩ | h
    · rw [h]
      rcases run_live cmp ops t' hl' with ⟨t2, os, h2, h3⟩ | h2
      · left
        refine ⟨t2, o :: os, by simp [h2], ?_⟩
        rcases h3 with ⟨h3, h4⟩ | ⟨h3, h4⟩
        · exact Or.inl ⟨by simp [h3, Ne.symm hop], h4⟩
        · exact Or.inr ⟨by simp [h3], h4⟩
      · right; simp [h2]
    · rw [h]
      left
      exact ⟨t', o :: ops.map clearedOut, by simp [hc.run cmp ops], Or.inr ⟨by simp [hop], hc⟩⟩
    · right; rw [h]; rfl

end Gds.BPlus
