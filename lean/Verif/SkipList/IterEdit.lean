import Verif.SkipList.Props

/-! C98–C100: the skip list's `String`, and changing a skip list while iterating over it. -/

namespace Gds.SkipList

variable {K V : Type}

/-! ### C98 `String` -/

section
variable {s : St K V} {n : Nat} {P : Nat → Nat}

theorem stringLoop_spec (fmt : K × V → String) {f : Option Nat} {L : List (K × V)} (h : Iter.Yields (iter s) f L none) (buf : String) :
    stringLoop fmt s buf f = .ok (buf ++ " ".intercalate (L.map fmt)) := by
  generalize hz : (none : Option Nat) = z at h
  induction h generalizing buf with
  | nil a => subst hz; rw [stringLoop]; simp [isValid]
  | @cons a x b xs c e h ih =>
    cases a with
    | none => simp [iter] at e
    | some a =>
      simp only [iter] at e
      cases hn : next s a with
      | ok nx =>
        rw [hn] at e
        simp only [Res.bind_ok, Res.pure_eq, Res.ok.injEq, Prod.mk.injEq, Option.some.injEq] at e
        obtain ⟨rfl, rfl⟩ := e
        rw [stringLoop]
        simp only [isValid, Option.isSome_some, if_true, deref, Res.bind_ok, hn, getKeyValue]
        rw [ih _ hz]
        cases xs with
        | nil =>
          have : nx = none := by
            subst hz; cases h; rfl
          subst this
          simp
        | cons y ys =>
          have : nx ≠ none := by
            rintro rfl
            cases h with
            | cons e _ => simp [iter] at e
          simp [this, String.append_assoc]
      | panic p => rw [hn] at e; simp at e
      | hang => rw [hn] at e; simp at e

end

/-- C98: in every history `String()` returns, and prints the entries in the order of `Iter()`, separated by single blanks, in brackets. -/
theorem string_exact {comp : Compare K} {zk : K} {zv : V} {s : St K V} {L : List (K × V)} (h : Reaches comp zk zv s L)
    (fmt : K × V → String) : toString fmt s = .ok ("[" ++ " ".intercalate (L.map fmt) ++ "]") := by
  obtain ⟨f, e, y⟩ := h.2.iter
  rw [toString, e, Res.bind_ok, stringLoop_spec fmt y]
  rfl

/-! ### C99 Insertions during an iteration -/

/-- What a client does while it holds one iterator: an operation on the list, or a call of the iterator. -/
inductive Ev (K V : Type) where
  | op (o : Op K V)
  | pull

/-- Operations and calls of one iterator in any order; the answers of the calls, the list and the iterator's position. -/
def drive (comp : Compare K) (zk : K) (zv : V) : List (Ev K V) → St K V → Option Nat → Res (List (Option (K × V)) × St K V × Option Nat)
  | [], s, pos => pure ([], s, pos)
  | .op o :: evs, s, pos => do
    let s ← step comp zk zv s o
    drive comp zk zv evs s pos
  | .pull :: evs, s, pos => do
    let r ← iter s pos
    let rest ← drive comp zk zv evs s r.2
    pure (r.1 :: rest.1, rest.2)

/-- An insertion, or an operation that leaves the list as it is. -/
theorem keeps_step {comp : Compare K} (hs : ∀ a b, comp a b = 0 → comp b a = 0) {zk : K} {zv : V} {s : St K V} {n : Nat} {P : Nat → Nat}
    (R : Rep s n P) (hz1 : s.key s.header = zk) (hz2 : s.val s.header = zv) {o : Op K V} (hk : o.keeps = true) :
    step comp zk zv s o = .ok s ∨ ∃ k v s' p, step comp zk zv s o = .ok s' ∧ p ≤ n ∧ Rep s' (n + 1) (insPos P p s.alloc) ∧
      entries s' (n + 1) (insPos P p s.alloc) = (entries s n P).take p ++ (k, v) :: (entries s n P).drop p ∧
      s'.key s'.header = zk ∧ s'.val s'.header = zv := by
  have ins : ∀ k v u d, ∃ s' p, insert comp s k v u d = .ok (s', true) ∧ p ≤ n ∧ Rep s' (n + 1) (insPos P p s.alloc) ∧
      entries s' (n + 1) (insPos P p s.alloc) = (entries s n P).take p ++ (k, v) :: (entries s n P).drop p ∧
      s'.key s'.header = zk ∧ s'.val s'.header = zv := by
    intro k v u d
    obtain ⟨s', p, e, hp, R', b2, b3, b4, -, -⟩ := insert_ok (comp := comp) R k v u d
    have hA : ∀ q, q ≤ n → P q ≠ s.alloc := fun q hq => by have := R.old q hq; omega
    have hhd : s.header ≠ s.alloc := by have := hA 0 (by omega); rwa [R.head] at this
    exact ⟨s', p, e, hp, R', entries_ins p hp s.alloc k v hA b3 b4, by rw [b2, b3]; simp [hhd, hz1], by rw [b2, b4]; simp [hhd, hz2]⟩
  have H : Holds zk zv s (entries s n P) := ⟨n, P, R, rfl, hz1, hz2⟩
  have del : ∀ k, ∃ b, delete comp s k = .ok (s, b) := by
    intro k
    obtain ⟨s', L', b, e, -, D, i⟩ := delete_holds (comp := comp) H k
    rw [i (D.same hs).1] at e; exact ⟨b, e⟩
  cases o with
  | put k v d =>
    obtain ⟨s', p, e, h⟩ := ins k v true d
    exact .inr ⟨k, v, s', p, by simp [step, insertUnique, e], h⟩
  | insertUnique k v d =>
    obtain ⟨s', p, e, h⟩ := ins k v true d
    exact .inr ⟨k, v, s', p, by simp [step, insertUnique, e], h⟩
  | insertEquals k v d =>
    obtain ⟨s', p, e, h⟩ := ins k v false d
    exact .inr ⟨k, v, s', p, by simp [step, insertEquals, e], h⟩
  | delete k =>
    obtain ⟨b, e⟩ := del k
    exact .inl (by simp [step, e])
  | deleteByWholeMapping k v c =>
    refine .inl ?_
    simp only [step, deleteByWholeMapping]
    obtain ⟨b, e⟩ := del k
    rcases search_ok comp k R with ⟨q, e1, -, -⟩ | ⟨e1, -⟩
    · rw [e1, Res.bind_ok]
      simp only
      by_cases hv : c v (s.val (P q)) = 0
      · simp [hv, e]
      · simp [hv]
    · rw [e1, Res.bind_ok]; rfl
  | deleteKeys ks =>
    obtain ⟨s', L', m, e, -, D, i⟩ := deleteKeys_holds (comp := comp) ks 0 H
    rw [i (D.same hs).1] at e
    exact .inl (by simp [step, e])
  | deleteRange mn mx => simp [Op.keeps] at hk
  | clear => simp [Op.keeps] at hk
  | setAt i v => simp [Op.keeps] at hk

theorem run_append {comp : Compare K} {zk : K} {zv : V} {s s1 s2 : St K V} {as bs : List (Op K V)} (h1 : run comp zk zv s as = .ok s1)
    (h2 : run comp zk zv s1 bs = .ok s2) : run comp zk zv s (as ++ bs) = .ok s2 := by
  induction as generalizing s with
  | nil => cases h1; exact h2
  | cons a as ih =>
    rw [run] at h1
    obtain ⟨s', e, h1⟩ := bind_eq_ok h1
    rw [List.cons_append, run, e, Res.bind_ok, ih h1]

/-- Where the iterator stands: before position `p`. -/
def posAt (n : Nat) (P : Nat → Nat) (p : Nat) : Option Nat := if p ≤ n then some (P p) else none

theorem drive_keeps {comp : Compare K} (hs : ∀ a b, comp a b = 0 → comp b a = 0) {zk : K} {zv : V} (evs : List (Ev K V))
    (hk : ∀ o, .op o ∈ evs → o.keeps = true) {s : St K V} {n : Nat} {P : Nat → Nat} (R : Rep s n P)
    (hz1 : s.key s.header = zk) (hz2 : s.val s.header = zv) (p : Nat) (h1 : 1 ≤ p) (h2 : p ≤ n + 1) :
    ∃ outs s' n' P' p', drive comp zk zv evs s (posAt n P p) = .ok (outs, s', posAt n' P' p') ∧ Rep s' n' P' ∧ 1 ≤ p' ∧ p' ≤ n' + 1 ∧
      s'.key s'.header = zk ∧ s'.val s'.header = zv ∧
      run comp zk zv s (evs.filterMap (fun | .op o => some o | .pull => none)) = .ok s' ∧
      ((entries s n P).drop (p - 1)).Sublist (outs.filterMap id ++ (entries s' n' P').drop (p' - 1)) ∧
      ((entries s n P).take (p - 1) ++ outs.filterMap id).Sublist ((entries s' n' P').take (p' - 1)) ∧
      (none ∈ outs → p' = n' + 1) ∧ (p = n + 1 → p' = n' + 1) := by
  induction evs generalizing s n P p with
  | nil => exact ⟨[], s, n, P, p, rfl, R, h1, h2, hz1, hz2, rfl, by simp, by simp, by simp, id⟩
  | cons ev evs ih =>
    have hk' : ∀ o, .op o ∈ evs → o.keeps = true := fun o ho => hk o (by simp [ho])
    cases ev with
    | pull =>
      by_cases hp : p ≤ n
      · obtain ⟨outs, s', n', P', p', e, R', g1, g2, g3, g4, g5, g6, g7, g8, g9⟩ := ih hk' R hz1 hz2 (p + 1) (by omega) (by omega)
        have hl : p - 1 < (entries s n P).length := by rw [entries_length]; omega
        refine ⟨some (s.key (P p), s.val (P p)) :: outs, s', n', P', p', ?_, R', g1, g2, g3, g4, ?_, ?_, ?_, ?_, by omega⟩
        · rw [drive, show posAt n P p = some (P p) by simp [posAt, hp]]
          simp only [iter, next, R.fwd0 p hp, Res.bind_ok, Res.pure_eq]
          rw [show (if p + 1 ≤ n then some (P (p + 1)) else none) = posAt n P (p + 1) from rfl, e]
          rfl
        · simpa using g5
        · rw [List.drop_eq_getElem_cons hl, entries_get, show p - 1 + 1 = p by omega]
          simp only [List.filterMap_cons, id, List.cons_append]
          exact g6.cons_cons _
        · have : (entries s n P).take (p - 1) ++ [(s.key (P p), s.val (P p))] = (entries s n P).take p := by
            conv_rhs => rw [show p = p - 1 + 1 by omega, List.take_succ_eq_append_getElem hl, entries_get]
            rw [show p - 1 + 1 = p by omega]
          simp only [List.filterMap_cons, id]
          rw [List.append_cons, this]
          simpa using g7
        · intro hm; exact g8 (by simpa using hm)
      · obtain ⟨outs, s', n', P', p', e, R', g1, g2, g3, g4, g5, g6, g7, g8, g9⟩ := ih hk' R hz1 hz2 p h1 h2
        refine ⟨none :: outs, s', n', P', p', ?_, R', g1, g2, g3, g4, by simpa using g5, by simpa using g6, by simpa using g7, fun _ => g9 (by omega), g9⟩
        · have hn : posAt n P p = none := by simp [posAt, hp]
          rw [hn] at e ⊢
          rw [drive]
          simp only [iter, Res.bind_ok, e, Res.pure_eq]
    | op o =>
      rcases keeps_step (comp := comp) hs R hz1 hz2 (hk o (by simp)) with e1 | ⟨k, v, s1, q, e1, hq, R1, en, z1, z2⟩
      · obtain ⟨outs, s', n', P', p', e, h⟩ := ih hk' R hz1 hz2 p h1 h2
        refine ⟨outs, s', n', P', p', ?_, ?_⟩
        · rw [drive, e1, Res.bind_ok, e]
        · simpa [run, e1] using h
      · have hp1 : 1 ≤ (if q < p then p + 1 else p) := by split <;> omega
        have hp2 : (if q < p then p + 1 else p) ≤ n + 1 + 1 := by split <;> omega
        obtain ⟨outs, s', n', P', p', e, R', g1, g2, g3, g4, g5, g6, g7, g8, g9⟩ := ih hk' R1 z1 z2 _ hp1 hp2
        have hpos : posAt (n + 1) (insPos P q s.alloc) (if q < p then p + 1 else p) = posAt n P p := by
          unfold posAt insPos
          grind
        rw [hpos] at e
        rw [en] at g6 g7
        have hlen : (entries s n P).length = n := entries_length
        generalize entries s n P = M at *
        have hT : (M.take (p - 1)).Sublist ((M.take q ++ (k, v) :: M.drop q).take ((if q < p then p + 1 else p) - 1)) := by
          split
          · rename_i h
            rw [List.take_append, List.take_of_length_le (l := M.take q) (by simp; omega), List.length_take, hlen, Nat.min_eq_left hq,
              show p + 1 - 1 - q = (p - 1 - q) + 1 by omega, List.take_succ_cons]
            have : M.take (p - 1) = M.take q ++ (M.drop q).take (p - 1 - q) := by
              rw [List.take_drop, show q + (p - 1 - q) = p - 1 by omega]
              conv_lhs => rw [← List.take_append_drop q (M.take (p - 1))]
              rw [List.take_take, Nat.min_eq_left (by omega)]
            rw [this]
            exact (List.Sublist.refl _).append (List.sublist_cons_self _ _)
          · rw [List.take_append_of_le_length (by simp; omega), List.take_take, Nat.min_eq_left (by omega)]
            exact .refl _
        have hD : (M.drop (p - 1)).Sublist ((M.take q ++ (k, v) :: M.drop q).drop ((if q < p then p + 1 else p) - 1)) := by
          split
          · rename_i h
            rw [List.drop_append, List.drop_eq_nil_of_le (as := M.take q) (by rw [List.length_take]; omega), List.length_take, hlen, Nat.min_eq_left hq,
              show p + 1 - 1 - q = (p - 1 - q) + 1 by omega, List.drop_succ_cons, List.drop_drop, show q + (p - 1 - q) = p - 1 by omega]
            exact .refl _
          · rw [List.drop_append_of_le_length (by simp; omega)]
            have : M.drop (p - 1) = (M.take q).drop (p - 1) ++ M.drop q := by
              conv_lhs => rw [← List.take_append_drop q M]
              rw [List.drop_append_of_le_length (by simp; omega)]
            rw [this]
            exact (List.Sublist.refl _).append (List.sublist_cons_self _ _)
        refine ⟨outs, s', n', P', p', ?_, R', g1, g2, g3, g4, ?_, hD.trans g6, (hT.append (.refl _)).trans g7, g8, fun h => g9 ?_⟩
        · rw [drive, e1, Res.bind_ok, e]
        · simpa [run, e1] using g5
        · rw [if_pos (by omega)]; omega

/-- C99: an iterator is made over a list showing `L`, and then the client inserts entries (and tries to `Delete`, `DeleteKeys`,
`DeleteByWholeMapping`) and calls the iterator in any order.  Nothing panics; if the iterator is drained afterwards, the delivered entries
contain all of `L`, in order, and are entries of the final list `L'` in its order, none delivered twice; an iterator that has reported its
end reports it forever. -/
theorem iter_insert {comp : Compare K} (hs : ∀ a b, comp a b = 0 → comp b a = 0) {zk : K} {zv : V} {s : St K V} {L : List (K × V)}
    (h : Reaches comp zk zv s L) (evs : List (Ev K V)) (hk : ∀ o, .op o ∈ evs → o.keeps = true) {f : Option Nat} (hf : first s = .ok f) :
    ∃ outs s' pos L' rest, drive comp zk zv evs s f = .ok (outs, s', pos) ∧ Reaches comp zk zv s' L' ∧
      Iter.Yields (iter s') pos rest none ∧ L.Sublist (outs.filterMap id ++ rest) ∧ (outs.filterMap id ++ rest).Sublist L' ∧
      (none ∈ outs → rest = []) := by
  obtain ⟨⟨ops, hr⟩, sh⟩ := id h
  obtain ⟨n, P, R, rfl, hz1, hz2⟩ := h.holds
  have hf' : f = posAt n P 1 := by
    unfold first at hf
    rw [← R.head, R.fwd0 0 (by omega)] at hf
    cases hf; rfl
  subst hf'
  obtain ⟨outs, s', n', P', p', e, R', g1, g2, g3, g4, g5, g6, g7, g8, -⟩ := drive_keeps hs evs hk R hz1 hz2 1 (by omega) (by omega)
  refine ⟨outs, s', _, entries s' n' P', _, e, ⟨⟨_, run_append hr g5⟩, holds_shows ⟨n', P', R', rfl, g3, g4⟩⟩, iter_from R' p' g1 g2, by simpa using g6, ?_, ?_⟩
  · have := g7
    simp only [Nat.sub_self, List.take_zero, List.nil_append] at this
    conv_rhs => rw [← List.take_append_drop (p' - 1) (entries s' n' P')]
    exact this.append (.refl _)
  · intro hm
    rw [g8 hm, List.drop_eq_nil_of_le (by rw [entries_length]; omega)]

/-! ### C100 Range deletions during an iteration -/

theorem pulls_from {s : St K V} {n : Nat} {P : Nat → Nat} (R : Rep s n P) (i p : Nat) (h1 : 1 ≤ p) (h2 : p + i ≤ n + 1) :
    Iter.pulls (iter s) i (posAt n P p) = .ok ((((entries s n P).drop (p - 1)).take i).map some, posAt n P (p + i)) := by
  induction i generalizing p with
  | zero => simp [Iter.pulls]
  | succ i ih =>
    have hl : p - 1 < (entries s n P).length := by rw [entries_length]; omega
    rw [Iter.pulls, show posAt n P p = some (P p) by simp [posAt]; omega]
    simp only [iter, next, R.fwd0 p (by omega), Res.bind_ok, Res.pure_eq]
    rw [show (if p + 1 ≤ n then some (P (p + 1)) else none) = posAt n P (p + 1) from rfl, ih (p + 1) (by omega) (by omega)]
    rw [List.drop_eq_getElem_cons hl, entries_get, show p - 1 + 1 = p by omega, show p + 1 + i = p + (i + 1) by omega]
    simp

/-- A chain of nodes that were not touched. -/
theorem iter_untouched {s s' : St K V} {n : Nat} {P : Nat → Nat} (R : Rep s n P) (hk : s'.key = s.key) (hv : s'.val = s.val)
    (hh : s'.height = s.height) (k : Nat) (hkn : k ≤ n) (hf : ∀ y, y ≠ P k → s'.fwd y 0 = s.fwd y 0) (p : Nat) (hp : k < p) (hp' : p ≤ n + 1) :
    Iter.Yields (iter s') (posAt n P p) ((entries s n P).drop (p - 1)) none := by
  induction hm : n + 1 - p generalizing p with
  | zero =>
    rw [posAt, if_neg (by omega), List.drop_eq_nil_of_le (by rw [entries_length]; omega)]
    exact .nil _
  | succ m ih =>
    have hl : p - 1 < (entries s n P).length := by rw [entries_length]; omega
    rw [posAt, if_pos (by omega), List.drop_eq_getElem_cons hl, entries_get, show p - 1 + 1 = p by omega]
    have := ih (p + 1) (by omega) (by omega) (by omega)
    rw [show p + 1 - 1 = p by omega] at this
    refine .cons ?_ this
    have h0 := R.fwd0 p (by omega)
    have hne : P p ≠ P k := fun h => by have := R.inj p k (by omega) hkn h; omega
    simp only [St.getFwd] at h0
    simp only [SkipList.iter, next, St.getFwd, hk, hv, hh, hf _ hne, h0]
    rfl

/-- C100, exactly, for every list and every comparator: an iterator has delivered `i` entries of `L` and `DeleteRangeByKey` removes the
block `mid`.  If the next entry to be delivered stands before the block, the iterator goes on without the removed entries; otherwise it
goes on as if nothing had been removed, delivering also the removed entries from its position on. -/
theorem iter_deleteRange_partial {comp : Compare K} {zk : K} {zv : V} {s : St K V} {L : List (K × V)} (h : Reaches comp zk zv s L)
    {f : Option Nat} (hf : first s = .ok f) (i : Nat) (hi : i ≤ L.length) (mn mx : K) :
    ∃ pos s' pre mid post, Iter.pulls (iter s) i f = .ok ((L.take i).map some, pos) ∧
      deleteRangeByKey comp s mn mx = .ok (s', mid.length) ∧ L = pre ++ mid ++ post ∧ Shows zv s' (pre ++ post) ∧
      Iter.Yields (iter s') pos (if i < pre.length then (pre ++ post).drop i else L.drop i) none := by
  obtain ⟨n, P, R, rfl, hz1, hz2⟩ := h.holds
  have hf' : f = posAt n P 1 := by
    unfold first at hf
    rw [← R.head, R.fwd0 0 (by omega)] at hf
    cases hf; rfl
  subst hf'
  rw [entries_length] at hi
  obtain ⟨p, u, g, e, F, c1, c2⟩ := descend_header R (fun x => comp x mn == -1)
  obtain ⟨s', n', P', mid, post, e2, R2, d1, d2, d3, d4, d5, d6, d7, d8, d9, d10⟩ := rangeLoop_ok (comp := comp) mx 0 R F (Nat.le_refl _)
  have hlp : ((entries s n P).take p).length = p := by rw [List.length_take, entries_length]; have := F.k_le; omega
  refine ⟨posAt n P (1 + i), s', (entries s n P).take p, mid, post, by simpa using pulls_from R i 1 (by omega) (by omega), ?_, ?_, ?_, ?_⟩
  · unfold deleteRangeByKey
    rw [e, Res.bind_ok, R.fwd0 p F.k_le, Res.bind_ok, e2, Nat.zero_add]
  · rw [List.append_assoc, ← d1]; simp
  · rw [← d2]; exact holds_shows (zk := zk) (zv := zv) ⟨n', P', R2, rfl, by rw [d5, d6]; exact hz1, by rw [d5, d7]; exact hz2⟩
  · rw [hlp, ← d2]
    split
    · rename_i hip
      have hn' : p ≤ n' := by
        have := congrArg List.length d2
        rw [entries_length, List.length_append, hlp] at this; omega
      have := iter_from R2 (1 + i) (by omega) (by omega)
      rw [show 1 + i - 1 = i by omega, if_pos (by omega), d10 _ (by omega)] at this
      rw [posAt, if_pos (by have := F.k_le; omega)]
      exact this
    · have := iter_untouched R d6 d7 d8 p F.k_le d9 (1 + i) (by omega) (by omega)
      rwa [show 1 + i - 1 = i by omega] at this

/-- C100 as stated is false: an iterator over 1, 2, 3 still delivers 2 after `DeleteRangeByKey(1, 3)` has removed it. -/
theorem iter_deleteRange_refuted : ∃ s s' f pos rest, Reaches cmpInt 0 0 s [(1, 10), (2, 20), (3, 30)] ∧ first s = .ok f ∧
    Iter.pulls (iter s) 1 f = .ok ([some (1, 10)], pos) ∧ deleteRangeByKey cmpInt s 1 3 = .ok (s', 2) ∧ Shows 0 s' [(3, 30)] ∧
    Iter.Yields (iter s') pos rest none ∧ (2, 20) ∈ rest := by
  obtain ⟨s, e, S, -⟩ := sorted_map_partial cmpInt cmpInt_threeWay 0 0 [(3, 30), (2, 20), (1, 10)] (fun _ => 7) (by simp [cmpInt])
  have hr : Reaches cmpInt 0 0 s [(1, 10), (2, 20), (3, 30)] := ⟨⟨_, e⟩, S⟩
  obtain ⟨f, hf, -⟩ := S.iter
  obtain ⟨s', e', S'⟩ := deleteRange_sorted cmpInt_threeWay hr (by simp [cmpInt]) 1 3
  obtain ⟨pos, s2, pre, mid, post, a1, a2, a3, a4, a5⟩ := iter_deleteRange_partial hr hf 1 (by simp) 1 3
  rw [e'] at a2
  simp only [Res.ok.injEq, Prod.mk.injEq] at a2
  obtain ⟨rfl, -⟩ := a2
  have hp := shows_unique S' a4
  have : pre = [] := by
    cases pre with
    | nil => rfl
    | cons x xs =>
      simp only [List.cons_append, List.cons.injEq] at a3
      obtain ⟨rfl, -⟩ := a3
      simp [cmpInt] at hp
  subst this
  refine ⟨s, s', f, pos, _, hr, hf, a1, e', S', a5, by simp⟩

/-! ### The hypotheses are met -/

/-- `String()` of three entries. -/
example : ∃ s, Reaches cmpInt 0 0 s [(1, 10), (2, 20), (3, 30)] ∧
    toString (fun e => s!"{e.1}:{e.2}") s = .ok "[1:10 2:20 3:30]" := by
  obtain ⟨s, e, S, -⟩ := sorted_map_partial cmpInt cmpInt_threeWay 0 0 [(3, 30), (2, 20), (1, 10)] (fun _ => 7) (by simp [cmpInt])
  have hr : Reaches cmpInt 0 0 s [(1, 10), (2, 20), (3, 30)] := ⟨⟨_, e⟩, S⟩
  exact ⟨s, hr, (string_exact hr _).trans (by decide +kernel)⟩

/-- One call, two insertions, two more calls, a useless `Delete`. -/
example : ∃ s f outs s' pos L' rest, Reaches cmpInt 0 0 s [(1, 10), (2, 20), (3, 30)] ∧ first s = .ok f ∧
    drive cmpInt 0 0 [.pull, .op (.put 2 21 9), .op (.put 0 1 4), .pull, .pull, .op (.delete 3)] s f = .ok (outs, s', pos) ∧
    Reaches cmpInt 0 0 s' L' ∧ Iter.Yields (iter s') pos rest none ∧ [(1, 10), (2, 20), (3, 30)].Sublist (outs.filterMap id ++ rest) := by
  obtain ⟨s, e, S, -⟩ := sorted_map_partial cmpInt cmpInt_threeWay 0 0 [(3, 30), (2, 20), (1, 10)] (fun _ => 7) (by simp [cmpInt])
  have hr : Reaches cmpInt 0 0 s [(1, 10), (2, 20), (3, 30)] := ⟨⟨_, e⟩, S⟩
  obtain ⟨f, hf, -⟩ := S.iter
  obtain ⟨outs, s', pos, L', rest, a, b, c, d, -⟩ := iter_insert (fun _ _ h => cmpInt_threeWay.zero_symm h) hr
    [.pull, .op (.put 2 21 9), .op (.put 0 1 4), .pull, .pull, .op (.delete 3)] (by simp [Op.keeps]) hf
  exact ⟨s, f, outs, s', pos, L', rest, hr, hf, a, b, c, d⟩

end Gds.SkipList
