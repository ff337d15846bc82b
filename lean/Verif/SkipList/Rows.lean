import Verif.SkipList.TowerProps

/-! C112: every history of skip-list operations, with all results, is the history of a row of towers. -/

namespace Gds.SkipList

variable {K V : Type}

/-! ### Specification -/

/-- What a call returns. -/
inductive Ans where
  | none
  | flag (b : Bool)
  | count (n : Int)
  deriving DecidableEq

/-- The towers behind the place reached by a glide over all levels. -/
def behind (zk : K) (zv : V) (go : K → Bool) (T : List (Tower K V)) : List (Tower K V) :=
  (glide go (top T) (start zk zv T)).rest

/-- The towers up to that place. -/
def front (zk : K) (zv : V) (go : K → Bool) (T : List (Tower K V)) : List (Tower K V) :=
  T.take (T.length - (behind zk zv go T).length)

/-- `Delete(k)`: glide over equal keys; the next tower goes if `k` compares equal to it. -/
def cut (comp : Compare K) (zk : K) (zv : V) (T : List (Tower K V)) (k : K) : List (Tower K V) × Bool :=
  match behind zk zv (fun x => comp x k == 0) T with
  | [] => (T, false)
  | t :: ts => if comp k t.key = 0 then (front zk zv (fun x => comp x k == 0) T ++ ts, true) else (T, false)

/-- `DeleteKeys`. -/
def cuts (comp : Compare K) (zk : K) (zv : V) (T : List (Tower K V)) : List K → List (Tower K V) × Nat
  | [] => (T, 0)
  | k :: ks =>
    let r := cuts comp zk zv (cut comp zk zv T k).1 ks
    (r.1, if (cut comp zk zv T k).2 then r.2 + 1 else r.2)

/-- One operation on a row. -/
def rowStep (comp : Compare K) (zk : K) (zv : V) (T : List (Tower K V)) : Op K V → List (Tower K V) × Ans
  | .put k v d => (insertTower comp zk zv T k v d, .flag true)
  | .insertUnique k v d => (insertTower comp zk zv T k v d, .flag true)
  | .insertEquals k v d => (insertTower comp zk zv T k v d, .flag true)
  | .delete k => ((cut comp zk zv T k).1, .flag (cut comp zk zv T k).2)
  | .deleteByWholeMapping k v vc =>
    match seek comp k (top T) (start zk zv T) with
    | none => (T, .flag false)
    | some c => if vc v c.val = 0 then ((cut comp zk zv T k).1, .flag true) else (T, .flag false)
  | .deleteKeys ks => ((cuts comp zk zv T ks).1, .count (cuts comp zk zv T ks).2)
  | .deleteRange mn mx =>
    (front zk zv (fun x => comp x mn == -1) T ++ (behind zk zv (fun x => comp x mn == -1) T).dropWhile (fun t => comp t.key mx == -1),
      .count ((behind zk zv (fun x => comp x mn == -1) T).takeWhile (fun t => comp t.key mx == -1)).length)
  | .clear => ([], .none)
  | .setAt i v => (T.modify i (fun t => { t with val := v }), .none)

/-- A history on a row, with all results. -/
def rowRun (comp : Compare K) (zk : K) (zv : V) (T : List (Tower K V)) : List (Op K V) → List (Tower K V) × List Ans
  | [] => (T, [])
  | op :: ops =>
    let r := rowRun comp zk zv (rowStep comp zk zv T op).1 ops
    (r.1, (rowStep comp zk zv T op).2 :: r.2)

/-! ### The code, with its results -/

/-- One call of the code, with its result (skiplist.go:69-71, 107-150, 194-200, 461-483; skiplist_node.go:32-34). -/
def stepAns (comp : Compare K) (zk : K) (zv : V) (s : St K V) : Op K V → Res (St K V × Ans)
  | .put k v d => do let r ← insertUnique comp s k v d; pure (r.1, .flag r.2)
  | .insertUnique k v d => do let r ← insertUnique comp s k v d; pure (r.1, .flag r.2)
  | .insertEquals k v d => do let r ← insertEquals comp s k v d; pure (r.1, .flag r.2)
  | .delete k => do let r ← delete comp s k; pure (r.1, .flag r.2)
  | .deleteByWholeMapping k v c => do let r ← deleteByWholeMapping comp s k v c; pure (r.1, .flag r.2)
  | .deleteKeys ks => do let r ← deleteKeys comp s ks 0; pure (r.1, .count r.2)
  | .deleteRange mn mx => do let r ← deleteRangeByKey comp s mn mx; pure (r.1, .count r.2)
  | .clear => pure (clear zk zv s, .none)
  | .setAt i v => do
    let x ← nodeAt s i
    match x with
    | none => pure (s, .none)
    | some x => pure (setValue s x v, .none)

/-- A history of calls (all of skiplist.go:69-200 and 461-483 in any order), with all results. -/
def runAns (comp : Compare K) (zk : K) (zv : V) (s : St K V) : List (Op K V) → Res (St K V × List Ans)
  | [] => pure (s, [])
  | op :: ops => do
    let r ← stepAns comp zk zv s op
    let q ← runAns comp zk zv r.1 ops
    pure (q.1, r.2 :: q.2)

/-! ### Levels in use -/

theorem level_top {s : St K V} {n : Nat} {P : Nat → Nat} (R : Rep s n P)
    (ht : s.level = 1 ∨ s.fwd s.header (s.level - 1) ≠ none) : s.level = top (towers s n P) := by
  have hl := R.l1
  symm
  have mem : ∀ t ∈ towers s n P, ∃ p, 1 ≤ p ∧ p ≤ n ∧ t = ⟨s.key (P p), s.val (P p), s.height (P p)⟩ := by
    intro t h
    unfold towers at h
    rw [List.mem_map] at h
    obtain ⟨j, hj, rfl⟩ := h
    exact ⟨j + 1, by omega, by have := List.mem_range.1 hj; omega, rfl⟩
  refine top_eq _ _ hl ?_ ?_
  · intro t h
    obtain ⟨p, h1, h2, rfl⟩ := mem t h
    exact (R.ht p h1 h2).2
  · rcases ht with h | h
    · exact .inl h
    · right
      obtain ⟨q, hq⟩ := NextAt.exists (fun r => s.height (P r)) n (s.level - 1) 0 (by omega)
      have h1 := (R.link (s.level - 1) 0 q (by omega) (by rw [R.head, R.hh]; have := R.l32; omega) hq).1
      rw [R.head] at h1
      by_cases hqn : q ≤ n
      · have h2 := hq.hit hqn
        have h3 := hq.lt
        have h4 := (R.ht q (by omega) hqn).2
        refine ⟨⟨s.key (P q), s.val (P q), s.height (P q)⟩, ?_, by show s.height (P q) = _; omega⟩
        unfold towers
        rw [List.mem_map]
        exact ⟨q - 1, List.mem_range.2 (by omega), by rw [show q - 1 + 1 = q by omega]⟩
      · rw [if_neg hqn] at h1; exact absurd h1 h

theorem lowerLoop_tight {s : St K V} (l : Nat) (hl : 1 ≤ l) {l' : Nat} (h : lowerLoop s l = .ok l') :
    l' = 1 ∨ s.fwd s.header (l' - 1) ≠ none := by
  induction l with
  | zero => omega
  | succ l ih =>
    rw [lowerLoop] at h
    by_cases h1 : l + 1 > 1
    · rw [if_pos h1] at h
      obtain ⟨f, e, h⟩ := bind_eq_ok h
      unfold St.getFwd at e
      split at e
      · cases e
        by_cases hf : s.fwd s.header l = none
        · rw [if_pos hf] at h; exact ih (by omega) h
        · rw [if_neg hf] at h
          simp at h
          right; rw [← h]; exact hf
      · simp at e
    · rw [if_neg h1] at h
      simp at h
      left; omega

theorem unlinkLoop_level (u : Upd) (x n i : Nat) {s s' : St K V} (h : unlinkLoop s u x n i = .ok s') : s'.level = s.level := by
  induction n generalizing s i with
  | zero => simp [unlinkLoop] at h; rw [h]
  | succ n ih =>
    rw [unlinkLoop] at h
    obtain ⟨p, -, h⟩ := bind_eq_ok h
    obtain ⟨f, -, h⟩ := bind_eq_ok h
    split at h
    · obtain ⟨_, -, h⟩ := bind_eq_ok h
      obtain ⟨_, -, h⟩ := bind_eq_ok h
      obtain ⟨s1, e1, h⟩ := bind_eq_ok h
      obtain ⟨_, -, h⟩ := bind_eq_ok h
      obtain ⟨s2, e2, h⟩ := bind_eq_ok h
      rw [ih _ h, setFwd_level e2, setSpan_level e1]
    · obtain ⟨_, -, h⟩ := bind_eq_ok h
      obtain ⟨s1, e1, h⟩ := bind_eq_ok h
      rw [ih _ h, setSpan_level e1]

theorem deleteNode_tight {s s' : St K V} {x : Nat} {u : Upd} (hl : 1 ≤ s.level) (h : deleteNode s x u = .ok s') :
    s'.level = 1 ∨ s'.fwd s'.header (s'.level - 1) ≠ none := by
  unfold deleteNode at h
  obtain ⟨s1, e1, h⟩ := bind_eq_ok h
  obtain ⟨f, -, h⟩ := bind_eq_ok h
  have hs1 := unlinkLoop_level _ _ _ _ e1
  dsimp only at h
  obtain ⟨l, e2, h⟩ := bind_eq_ok h
  simp only [Res.pure_eq, Res.ok.injEq] at h
  subst h
  cases f with
  | none => exact lowerLoop_tight (s := { s1 with tail := s1.back x }) _ (by show 1 ≤ s1.level; omega) e2
  | some y => exact lowerLoop_tight (s := s1.setBack y (s1.back x)) _ (by show 1 ≤ s1.level; omega) e2

/-! ### Deletions -/

section
variable {s : St K V} {n : Nat} {P : Nat → Nat}

theorem towers_get? (s : St K V) (n : Nat) (P : Nat → Nat) (i : Nat) : (towers s n P)[i]? =
    if i < n then some ⟨s.key (P (i + 1)), s.val (P (i + 1)), s.height (P (i + 1))⟩ else none := by
  by_cases h : i < n <;> simp [towers, h]

theorem towers_del {s' : St K V} (k : Nat) (hk : k ≤ n) (h1 : s'.key = s.key) (h2 : s'.val = s.val) (h3 : s'.height = s.height) :
    towers s' n (delPos P k) = (towers s (n + 1) P).take k ++ (towers s (n + 1) P).drop (k + 1) := by
  apply List.ext_getElem?
  intro i
  rw [towers_get?, List.getElem?_append, List.length_take, towers_length, h1, h2, h3, Nat.min_eq_left (by omega)]
  by_cases h : i < k
  · rw [if_pos h, List.getElem?_take, if_pos h, towers_get?, if_pos (by omega), if_pos (by omega)]
    have e : delPos P k (i + 1) = P (i + 1) := by simp [delPos]; omega
    rw [e]
  · rw [if_neg h, List.getElem?_drop, towers_get?, show k + 1 + (i - k) = i + 1 by omega]
    have e : delPos P k (i + 1) = P (i + 1 + 1) := by simp [delPos]; omega
    rw [e]
    by_cases hi : i < n
    · rw [if_pos hi, if_pos (by omega)]
    · rw [if_neg hi, if_neg (by omega)]

theorem deleteNode_row (R : Rep s (n + 1) P) {k : Nat} {u : Upd} {f : Nat → Nat} {lv : Nat}
    (F : Finger s (n + 1) P lv k u f) (hlv : s.level ≤ lv) (hkn : k ≤ n) :
    ∃ s', deleteNode s (P (k + 1)) u = .ok s' ∧ Rep s' n (delPos P k) ∧ Finger s' n (delPos P k) lv k u f ∧
      s'.level ≤ s.level ∧ s'.key = s.key ∧ s'.val = s.val ∧ s'.header = s.header ∧ s'.height = s.height ∧
      towers s' n (delPos P k) = (towers s (n + 1) P).take k ++ (towers s (n + 1) P).drop (k + 1) ∧
      s'.level = top (towers s' n (delPos P k)) := by
  obtain ⟨s', e, R', F', b0, b1, b2, -, b4, b5, -⟩ := deleteNode_ok R F hlv hkn
  exact ⟨s', e, R', F', b0, b1, b2, b4, b5, towers_del k hkn b1 b2 b5, level_top R' (deleteNode_tight R.l1 e)⟩

theorem rangeLoop_row {comp : Compare K} (max : K) {u : Upd} {f : Nat → Nat} {lv k : Nat} (removed : Nat)
    (R : Rep s n P) (F : Finger s n P lv k u f) (hlv : s.level ≤ lv) (htop : s.level = top (towers s n P)) :
    ∃ s' n' P', rangeLoop comp max u s (if k + 1 ≤ n then some (P (k + 1)) else none) removed =
        .ok (s', removed + (((towers s n P).drop k).takeWhile (fun t => comp t.key max == -1)).length) ∧ Rep s' n' P' ∧
      towers s' n' P' = (towers s n P).take k ++ ((towers s n P).drop k).dropWhile (fun t => comp t.key max == -1) ∧
      s'.header = s.header ∧ s'.key = s.key ∧ s'.val = s.val ∧ s'.level = top (towers s' n' P') := by
  induction n generalizing s P removed with
  | zero =>
    refine ⟨s, 0, P, ?_, R, ?_, rfl, rfl, rfl, htop⟩
    · rw [if_neg (by omega), rangeLoop]; simp [towers]
    · simp [towers]
  | succ n ih =>
    by_cases hk : k + 1 ≤ n + 1
    · rw [if_pos hk, rangeLoop, towers_drop k hk]
      by_cases hc : comp (s.key (P (k + 1))) max = -1
      · simp only [if_pos hc]
        rw [R.fwd0 (k + 1) hk, Res.bind_ok]
        obtain ⟨s1, e1, R1, F1, b0, b1, b2, b4, b5, b6, b7⟩ := deleteNode_row R F hlv (by omega)
        obtain ⟨s', n', P', e2, R2, d1, d2, d3, d4, d5⟩ := ih (removed + 1) R1 F1 (by omega) b7
        have hl : k < (towers s (n + 1) P).length := by rw [towers_length]; omega
        have htk : (towers s1 n (delPos P k)).take k = (towers s (n + 1) P).take k := by
          rw [b6, List.take_append_of_le_length (by simp; omega), List.take_take, Nat.min_self]
        have hdr : (towers s1 n (delPos P k)).drop k = (towers s (n + 1) P).drop (k + 1) := by
          rw [b6, List.drop_append_of_le_length (by simp; omega)]
          simp
        have e3 : (if k + 1 + 1 ≤ n + 1 then some (P (k + 1 + 1)) else none : Option Nat) =
            if k + 1 ≤ n then some (delPos P k (k + 1)) else none := by
          have : delPos P k (k + 1) = P (k + 1 + 1) := by simp [delPos]
          rw [this]
          by_cases h : k + 1 ≤ n
          · rw [if_pos h, if_pos (by omega)]
          · rw [if_neg h, if_neg (by omega)]
        refine ⟨s', n', P', ?_, R2, ?_, by rw [d2, b4], by rw [d3, b1], by rw [d4, b2], d5⟩
        · rw [e1, Res.bind_ok, e3, e2, hdr, List.takeWhile_cons_of_pos (by simp [hc]), List.length_cons]
          congr 2; omega
        · rw [d1, htk, hdr, List.dropWhile_cons_of_pos (by simp [hc])]
      · simp only [if_neg hc]
        refine ⟨s, n + 1, P, ?_, R, ?_, rfl, rfl, rfl, htop⟩
        · simp [hc]
        · rw [List.dropWhile_cons_of_neg (by simp [hc]), ← towers_drop k hk, List.take_append_drop]
    · rw [if_neg hk, rangeLoop, towers_drop_all k (by omega)]
      refine ⟨s, n + 1, P, by simp, R, ?_, rfl, rfl, rfl, htop⟩
      rw [List.take_of_length_le (by rw [towers_length]; omega)]
      simp

theorem start_spot {zk : K} {zv : V} (R : Rep s n P) (h1 : s.key s.header = zk) (h2 : s.val s.header = zv) :
    start zk zv (towers s n P) = spot s n P 0 := by
  simp [start, spot, R.head, h1, h2]

theorem behind_front {zk : K} {zv : V} (R : Rep s n P) (h1 : s.key s.header = zk) (h2 : s.val s.header = zv)
    (hl : s.level = top (towers s n P)) (go : K → Bool) {q : Nat} (hq : q ≤ n)
    (h : glide go s.level (spot s n P 0) = spot s n P q) :
    behind zk zv go (towers s n P) = (towers s n P).drop q ∧ front zk zv go (towers s n P) = (towers s n P).take q := by
  have hb : behind zk zv go (towers s n P) = (towers s n P).drop q := by
    unfold behind
    rw [start_spot R h1 h2, ← hl, h]; rfl
  refine ⟨hb, ?_⟩
  unfold front
  rw [hb, List.length_drop, towers_length, show n - (n - q) = q by omega]

end

variable {comp : Compare K} {zk : K} {zv : V} {s : St K V} {T : List (Tower K V)}

theorem delete_row (h : Built zk zv s T) (k : K) :
    ∃ s', delete comp s k = .ok (s', (cut comp zk zv T k).2) ∧ Built zk zv s' (cut comp zk zv T k).1 := by
  obtain ⟨n, P, R, rfl, hz1, hz2, hl⟩ := h
  obtain ⟨q, u, f, hq, e, F, hg⟩ := descend_start R (fun x => comp x k == 0)
  obtain ⟨hb, hf⟩ := behind_front R hz1 hz2 hl (fun x => comp x k == 0) hq hg
  unfold delete cut
  rw [e, Res.bind_ok, R.fwd0 q hq, Res.bind_ok, hb, hf]
  by_cases hp : q + 1 ≤ n
  · rw [towers_drop q hp]
    simp only [if_pos hp]
    by_cases hc : comp k (s.key (P (q + 1))) = 0
    · obtain ⟨m, rfl⟩ : ∃ m, n = m + 1 := ⟨n - 1, by omega⟩
      obtain ⟨s', e1, R1, F1, b0, b1, b2, b4, b5, b6, b7⟩ := deleteNode_row R F (Nat.le_refl _) (by omega)
      simp only [if_pos hc]
      refine ⟨s', by rw [e1]; rfl, m, _, R1, b6, by rw [b1, b4, hz1], by rw [b2, b4, hz2], ?_⟩
      rw [b7, b6]
    · simp only [if_neg hc]
      exact ⟨s, rfl, n, P, R, rfl, hz1, hz2, hl⟩
  · rw [towers_drop_all q (by omega)]
    simp only [if_neg hp]
    exact ⟨s, rfl, n, P, R, rfl, hz1, hz2, hl⟩

theorem deleteKeys_row (ks : List K) (c : Int) (h : Built zk zv s T) :
    ∃ s', deleteKeys comp s ks c = .ok (s', c + (cuts comp zk zv T ks).2) ∧ Built zk zv s' (cuts comp zk zv T ks).1 := by
  induction ks generalizing s T c with
  | nil => exact ⟨s, by simp [deleteKeys, cuts], h⟩
  | cons k ks ih =>
    obtain ⟨s1, e1, B1⟩ := delete_row (comp := comp) h k
    obtain ⟨s2, e2, B2⟩ := ih (if (cut comp zk zv T k).2 then c + 1 else c) B1
    refine ⟨s2, ?_, B2⟩
    rw [deleteKeys, e1, Res.bind_ok, e2, cuts]
    cases (cut comp zk zv T k).2 <;> simp; omega

theorem deleteRange_row (h : Built zk zv s T) (mn mx : K) :
    ∃ s', deleteRangeByKey comp s mn mx =
        .ok (s', ((behind zk zv (fun x => comp x mn == -1) T).takeWhile (fun t => comp t.key mx == -1)).length) ∧
      Built zk zv s' (front zk zv (fun x => comp x mn == -1) T ++
        (behind zk zv (fun x => comp x mn == -1) T).dropWhile (fun t => comp t.key mx == -1)) := by
  obtain ⟨n, P, R, rfl, hz1, hz2, hl⟩ := h
  obtain ⟨q, u, f, hq, e, F, hg⟩ := descend_start R (fun x => comp x mn == -1)
  obtain ⟨hb, hf⟩ := behind_front R hz1 hz2 hl (fun x => comp x mn == -1) hq hg
  obtain ⟨s', n', P', e2, R2, d1, d2, d3, d4, d5⟩ := rangeLoop_row (comp := comp) mx 0 R F (Nat.le_refl _) hl
  rw [hb, hf]
  refine ⟨s', ?_, n', P', R2, d1, by rw [d2, d3, hz1], by rw [d2, d4, hz2], ?_⟩
  · unfold deleteRangeByKey
    rw [e, Res.bind_ok, R.fwd0 q hq, Res.bind_ok, e2]; simp
  · rw [d5, d1]

theorem init_row (s : St K V) : Built zk zv (init zk zv s) ([] : List (Tower K V)) := by
  obtain ⟨n, P, R, h0, h1, h2⟩ := init_holds zk zv s
  have hn : n = 0 := by have := congrArg List.length h0; rwa [entries_length] at this
  subst hn
  exact ⟨0, P, R, rfl, h1, h2, rfl⟩

theorem setAt_row (h : Built zk zv s T) (i : Nat) (v : V) :
    ∃ s', stepAns comp zk zv s (.setAt i v) = .ok (s', .none) ∧ Built zk zv s' (T.modify i (fun t => { t with val := v })) := by
  obtain ⟨n, P, R, rfl, hz1, hz2, hl⟩ := h
  unfold stepAns
  simp only [nodeAt_ok R, Res.bind_ok]
  have htopmod : ∀ T : List (Tower K V), top (T.modify i (fun t => { t with val := v })) = top T := by
    intro T
    induction T generalizing i with
    | nil => simp
    | cons t T ih =>
      cases i with
      | zero => simp [top]
      | succ i => simp [top, ih]
  by_cases hi : i < n
  · rw [if_pos hi]
    refine ⟨_, rfl, n, P, ⟨R.head, R.inj, R.old, R.hh, R.l1, R.l32, R.ht, R.size, R.link, R.back, R.tail⟩, ?_, hz1, ?_, ?_⟩
    · apply List.ext_getElem?
      intro j
      rw [List.getElem?_modify, towers_get?, towers_get?]
      by_cases hj : j < n
      · rw [if_pos hj, if_pos hj]
        simp only [setValue]
        by_cases hij : i = j
        · subst hij; simp
        · have : P (j + 1) ≠ P (i + 1) := by
            intro he; have := R.inj _ _ (by omega) (by omega) he; omega
          simp [this, hij]
      · simp [hj]
    · show (if s.header = P (i + 1) then v else s.val s.header) = zv
      rw [if_neg, hz2]
      intro he; rw [← R.head] at he; have := R.inj _ _ (by omega) (by omega) he; omega
    · rw [htopmod]; exact hl
  · rw [if_neg hi]
    refine ⟨s, rfl, n, P, R, ?_, hz1, hz2, ?_⟩
    · rw [List.modify_eq_self (by rw [towers_length]; omega)]
    · rw [htopmod]; exact hl

/-! ### Main theorems -/

/-- One operation, any: the list changes and answers as the row of towers does. -/
theorem step_row (h : Built zk zv s T) (op : Op K V) :
    ∃ s', stepAns comp zk zv s op = .ok (s', (rowStep comp zk zv T op).2) ∧ Built zk zv s' (rowStep comp zk zv T op).1 := by
  cases op with
  | put k v d =>
    obtain ⟨s', e, B⟩ := insert_built (comp := comp) h k v true d
    exact ⟨s', by simp [stepAns, insertUnique, e, rowStep], B⟩
  | insertUnique k v d =>
    obtain ⟨s', e, B⟩ := insert_built (comp := comp) h k v true d
    exact ⟨s', by simp [stepAns, insertUnique, e, rowStep], B⟩
  | insertEquals k v d =>
    obtain ⟨s', e, B⟩ := insert_built (comp := comp) h k v false d
    exact ⟨s', by simp [stepAns, insertEquals, e, rowStep], B⟩
  | delete k =>
    obtain ⟨s', e, B⟩ := delete_row (comp := comp) h k
    exact ⟨s', by simp [stepAns, e, rowStep], B⟩
  | deleteByWholeMapping k v vc =>
    have h' := h
    obtain ⟨n, P, R, rfl, h1, h2, h3⟩ := h'
    have hsk := searchLoop_seek R comp k s.level (Nat.le_refl _) 0 (by omega) (fun j hj => by rw [R.head, R.hh]; have := R.l32; omega)
    rw [R.head] at hsk
    simp only [Int.ofNat_eq_natCast, Int.natCast_zero] at hsk
    simp only [stepAns, rowStep, deleteByWholeMapping, search]
    rw [← h3, start_spot R h1 h2]
    rcases hsk with ⟨q, hq, e1, e2⟩ | ⟨e1, e2⟩
    · rw [e1, e2]
      simp only [Res.bind_ok]
      by_cases hv : vc v (s.val (P q)) = 0
      · obtain ⟨s', e, B⟩ := delete_row (comp := comp) h k
        refine ⟨s', ?_, ?_⟩
        · simp [spot, hv, e]
        · simpa [spot, hv] using B
      · refine ⟨s, ?_, ?_⟩
        · simp [spot, hv]
        · simpa [spot, hv] using h
    · rw [e1, e2]
      exact ⟨s, rfl, h⟩
  | deleteKeys ks =>
    obtain ⟨s', e, B⟩ := deleteKeys_row (comp := comp) ks 0 h
    exact ⟨s', by simp [stepAns, e, rowStep], B⟩
  | deleteRange mn mx =>
    obtain ⟨s', e, B⟩ := deleteRange_row (comp := comp) h mn mx
    exact ⟨s', by simp [stepAns, e, rowStep], B⟩
  | clear => exact ⟨_, rfl, init_row s⟩
  | setAt i v => exact setAt_row h i v

theorem run_row (ops : List (Op K V)) (h : Built zk zv s T) :
    ∃ s', runAns comp zk zv s ops = .ok (s', (rowRun comp zk zv T ops).2) ∧ Built zk zv s' (rowRun comp zk zv T ops).1 := by
  induction ops generalizing s T with
  | nil => exact ⟨s, rfl, h⟩
  | cons op ops ih =>
    obtain ⟨s1, e1, B1⟩ := step_row (comp := comp) h op
    obtain ⟨s2, e2, B2⟩ := ih B1
    exact ⟨s2, by rw [runAns, e1, Res.bind_ok, e2]; rfl, B2⟩

/-- C112: every history of operations on a new list — any comparator, any random numbers — returns exactly the results of the
    history on rows of towers, ends without panic or endless loop, and leaves the list showing that row. -/
theorem history_row (comp : Compare K) (zk : K) (zv : V) (ops : List (Op K V)) :
    ∃ s, runAns comp zk zv (new zk zv) ops = .ok (s, (rowRun comp zk zv [] ops).2) ∧
      Built zk zv s (rowRun comp zk zv [] ops).1 ∧ Shows zv s (plain (rowRun comp zk zv [] ops).1) := by
  obtain ⟨s, e, B⟩ := run_row (comp := comp) ops (new_built zk zv)
  exact ⟨s, e, B, holds_shows B.holds⟩

/-- Forgetting the results gives the histories of C47–C52. -/
theorem runAns_run (comp : Compare K) (zk : K) (zv : V) (ops : List (Op K V)) (s : St K V) :
    run comp zk zv s ops = (do let r ← runAns comp zk zv s ops; pure r.1) := by
  have hstep : ∀ (s : St K V) (op : Op K V), step comp zk zv s op = (do let r ← stepAns comp zk zv s op; pure r.1) := by
    intro s op
    cases op with
    | put k v d => simp only [step, stepAns]; cases insertUnique comp s k v d <;> rfl
    | insertUnique k v d => simp only [step, stepAns]; cases insertUnique comp s k v d <;> rfl
    | insertEquals k v d => simp only [step, stepAns]; cases insertEquals comp s k v d <;> rfl
    | delete k => simp only [step, stepAns]; cases delete comp s k <;> rfl
    | deleteByWholeMapping k v c => simp only [step, stepAns]; cases deleteByWholeMapping comp s k v c <;> rfl
    | deleteKeys ks => simp only [step, stepAns]; cases deleteKeys comp s ks 0 <;> rfl
    | deleteRange mn mx => simp only [step, stepAns]; cases deleteRangeByKey comp s mn mx <;> rfl
    | clear => rfl
    | setAt i v =>
      simp only [step, stepAns]
      cases nodeAt s i with
      | ok x => cases x <;> rfl
      | panic _ => rfl
      | hang => rfl
  induction ops generalizing s with
  | nil => rfl
  | cons op ops ih =>
    rw [run, runAns, hstep]
    cases stepAns comp zk zv s op with
    | panic _ => rfl
    | hang => rfl
    | ok r =>
      simp only [Res.bind_ok, Res.pure_eq, ih]
      cases runAns comp zk zv r.1 ops <;> rfl

/-! ### Non-vacuity -/

/-- A history with every kind of operation and its results, computed by the specification: DeleteRangeByKey(1, 4) removes two
    entries; Delete and DeleteKeys of stored keys remove none; DeleteByWholeMapping of a stored pair reports a removal, and the entry
    stays: the history ends with (5, 51), (9, 90), (9, 91). -/
example : (rowRun cmpInt 0 (0 : Int) [] [.put 9 90 7, .put 5 50 4294967294, .put 3 30 9, .put 1 10 2147483646, .deleteRange 1 4,
      .delete 9, .deleteKeys [9, 5], .setAt 0 51, .deleteByWholeMapping 5 51 cmpInt, .insertEquals 9 91 4294967294]).2 =
    [.flag true, .flag true, .flag true, .flag true, .count 2, .flag false, .count 0, .none, .flag true, .flag true] ∧
    plain (rowRun cmpInt 0 (0 : Int) [] [.put 9 90 7, .put 5 50 4294967294, .put 3 30 9, .put 1 10 2147483646, .deleteRange 1 4,
      .delete 9, .deleteKeys [9, 5], .setAt 0 51, .deleteByWholeMapping 5 51 cmpInt, .insertEquals 9 91 4294967294]).1 =
    [(5, 51), (9, 90), (9, 91)] := by
  decide +kernel

end Gds.SkipList
