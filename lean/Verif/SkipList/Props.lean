import Verif.SkipList.Refine

/-! C45–C52: the skip list. -/

namespace Gds.SkipList

variable {K V : Type}

/-! ### What a user sees -/

/-- Following `Prev()` from a node. -/
def backIter (s : St K V) : Iter.Next (Option Nat) (K × V) := fun node =>
  match node with
  | none => .ok (none, none)
  | some n => .ok (some (s.key n, s.val n), prev s n)

/-- The user sees the entries `L`: forwards, backwards, by count and by rank. -/
structure Shows (zv : V) (s : St K V) (L : List (K × V)) : Prop where
  iter : ∃ f, first s = .ok f ∧ Iter.Yields (iter s) f L none
  back : Iter.Yields (backIter s) (last s) L.reverse none
  size : size s = L.length
  empty : isEmpty s = L.isEmpty
  rank : ∀ r : Int, getByRank zv s r =
    .ok (if 1 ≤ r then (match L[r.toNat - 1]? with | some e => e.2 | none => zv) else zv)

/-- `s` is reached by a history from `New`, and shows the entries `L`. -/
def Reaches (comp : Compare K) (zk : K) (zv : V) (s : St K V) (L : List (K × V)) : Prop :=
  (∃ ops, run comp zk zv (new zk zv) ops = .ok s) ∧ Shows zv s L

section
variable {s : St K V} {n : Nat} {P : Nat → Nat}

theorem yields_unique {s : St K V} {f : Option Nat} {L L' : List (K × V)} (h : Iter.Yields (iter s) f L none)
    (h' : Iter.Yields (iter s) f L' none) : L = L' := by
  generalize hz : (none : Option Nat) = z at h h'
  induction h generalizing L' with
  | nil a =>
    subst hz
    cases h' with
    | nil => rfl
    | cons e _ => simp [SkipList.iter] at e
  | cons e _ ih =>
    cases h' with
    | nil => subst hz; simp [SkipList.iter] at e
    | cons e' r' =>
      rw [e] at e'
      simp only [Res.ok.injEq, Prod.mk.injEq, Option.some.injEq] at e'
      obtain ⟨rfl, rfl⟩ := e'
      rw [ih hz r']

theorem iter_from (R : Rep s n P) (p : Nat) (hp : 1 ≤ p) (hp' : p ≤ n + 1) :
    Iter.Yields (SkipList.iter s) (if p ≤ n then some (P p) else none) ((entries s n P).drop (p - 1)) none := by
  induction hm : n + 1 - p generalizing p with
  | zero =>
    rw [if_neg (by omega), List.drop_eq_nil_of_le (by rw [entries_length]; omega)]
    exact .nil _
  | succ m ih =>
    have hl : p - 1 < (entries s n P).length := by rw [entries_length]; omega
    rw [if_pos (by omega), List.drop_eq_getElem_cons hl, entries_get, show p - 1 + 1 = p by omega]
    have := ih (p + 1) (by omega) (by omega) (by omega)
    rw [show p + 1 - 1 = p by omega] at this
    refine .cons ?_ this
    simp [SkipList.iter, next, R.fwd0 p (by omega)]

theorem back_from (R : Rep s n P) (p : Nat) (hp : p ≤ n) :
    Iter.Yields (backIter s) (if p = 0 then none else some (P p)) ((entries s n P).take p).reverse none := by
  induction p with
  | zero => simp; exact .nil _
  | succ p ih =>
    have hl : p < (entries s n P).length := by rw [entries_length]; omega
    rw [if_neg (by omega), List.take_succ_eq_append_getElem hl, List.reverse_append, entries_get]
    refine .cons ?_ (ih (by omega))
    simp only [backIter, prev, R.back (p + 1) (by omega) hp]
    simp

theorem rankWalk_ok (R : Rep s n P) (i : Nat) (hi : i < s.level) (rk : Int) (p : Nat) (hp : p ≤ n)
    (hh : i < s.height (P p)) :
    ∃ p' : Nat, rankWalk s i rk (P p) p = .ok (P p', (p' : Int)) ∧ p ≤ p' ∧ p' ≤ n ∧ i < s.height (P p') ∧
      (p' = p ∨ (p' : Int) ≤ rk) ∧
      (∀ q, NextAt (fun r => s.height (P r)) n i p' q → q ≤ n → rk < (q : Int)) := by
  induction hm : n - p using Nat.strong_induction_on generalizing p with
  | _ m ih =>
    obtain ⟨q, hq⟩ := NextAt.exists (fun r => s.height (P r)) n i p hp
    obtain ⟨l1, l2⟩ := R.link i p q hp hh hq
    rw [rankWalk]
    simp only [St.getFwd, if_pos hh, Res.bind_ok, l1]
    by_cases hqn : q ≤ n
    · simp only [if_pos hqn, St.getSpan, if_pos hh, Res.bind_ok, l2 hi]
      have hm' : ((min q n : Nat) : Int) = q := by rw [Nat.min_eq_left hqn]
      have he : (p : Int) + (((min q n : Nat) : Int) - p) = (q : Int) := by omega
      rw [he]
      have := hq.lt
      by_cases hc : (q : Int) ≤ rk
      · rw [if_pos hc]
        obtain ⟨p', e, h1, h2, h3, h4, h5⟩ := ih (n - q) (by omega) q hqn (hq.hit hqn) rfl
        exact ⟨p', e, by omega, h2, h3, .inr (by omega), h5⟩
      · rw [if_neg hc]
        refine ⟨p, rfl, by omega, hp, hh, .inl rfl, ?_⟩
        intro q' hq' _
        rw [hq'.unique hq]; omega
    · simp only [if_neg hqn]
      refine ⟨p, rfl, by omega, hp, hh, .inl rfl, ?_⟩
      intro q' hq' hq'n
      rw [hq'.unique hq] at hq'n
      omega

theorem rankLoop_ok (R : Rep s n P) (zv : V) (rk : Int) (i : Nat) (hi : i ≤ s.level) (p : Nat) (hp : p ≤ n)
    (hh : ∀ j, j < i → j < s.height (P p)) (hc : p = 0 ∨ (p : Int) ≤ rk) (h0 : i = 0 → rk < 0 ∨ (n : Int) < rk) :
    rankLoop zv s rk i (P p) p = .ok (if 0 ≤ rk ∧ rk ≤ n then s.val (P rk.toNat) else zv) := by
  induction i generalizing p with
  | zero =>
    rw [rankLoop, if_neg (by have := h0 rfl; omega)]; rfl
  | succ i ih =>
    obtain ⟨p', e, h1, h2, h3, h4, h5⟩ := rankWalk_ok R i (by omega) rk p hp (hh i (by omega))
    rw [rankLoop, e, Res.bind_ok]
    by_cases hr : (p' : Int) = rk
    · simp only [if_pos hr]
      rw [if_pos (by omega), ← hr]; simp
    · simp only [if_neg hr]
      refine ih (by omega) p' h2 (fun j hj => ?_) (by omega) ?_
      · by_cases hz : p' = 0
        · have := R.hh; have := R.l32; rw [hz, R.head]; omega
        · omega
      · rintro rfl
        by_cases hn : p' + 1 ≤ n
        · have := h5 (p' + 1) (R.next0 p' h2) hn; omega
        · omega

theorem holds_shows {zk : K} {zv : V} {L : List (K × V)} (h : Holds zk zv s L) : Shows zv s L := by
  obtain ⟨n, P, R, rfl, hz1, hz2⟩ := h
  refine ⟨⟨if 1 ≤ n then some (P 1) else none, ?_, ?_⟩, ?_, ?_, ?_, ?_⟩
  · unfold first; rw [← R.head, R.fwd0 0]; omega
  · have := iter_from R 1 (by omega) (by omega); simpa using this
  · have := back_from R n (Nat.le_refl _)
    rw [List.take_of_length_le (by rw [entries_length])] at this
    unfold last
    rw [R.tail]; exact this
  · rw [entries_length]; exact R.size
  · unfold isEmpty
    rw [R.size]
    cases n with
    | zero => simp [entries]
    | succ n =>
      have : (entries s (n + 1) P).isEmpty = false := by
        rw [List.isEmpty_eq_false_iff]; intro h; have := congrArg List.length h; rw [entries_length] at this; simp at this
      rw [this]; simp; omega
  · intro r
    unfold getByRank
    have := rankLoop_ok R zv r s.level (Nat.le_refl _) 0 (by omega)
      (fun j hj => by rw [R.head, R.hh]; have := R.l32; omega) (.inl rfl) (fun h => by have := R.l1; omega)
    rw [R.head] at this
    rw [show (0 : Int) = ((0 : Nat) : Int) from rfl, this]
    congr 1
    rw [entries_get?]
    by_cases h1 : 1 ≤ r
    · rw [if_pos h1]
      by_cases h2 : r ≤ n
      · rw [if_pos (by omega), if_pos (by omega), show r.toNat - 1 + 1 = r.toNat by omega]
      · rw [if_neg (by omega), if_neg (by omega)]
    · rw [if_neg h1]
      by_cases h2 : r = 0
      · subst h2; rw [if_pos (by omega)]; show s.val (P 0) = zv; rw [R.head, hz2]
      · rw [if_neg (by omega)]

end

theorem shows_unique {zv : V} {s : St K V} {L L' : List (K × V)} (h : Shows zv s L) (h' : Shows zv s L') : L = L' := by
  obtain ⟨f, e, y⟩ := h.iter
  obtain ⟨f', e', y'⟩ := h'.iter
  rw [e] at e'
  cases e'
  exact yields_unique y y'

theorem new_holds (zk : K) (zv : V) : Holds zk zv (new zk zv) [] := init_holds zk zv _

theorem Reaches.holds {comp : Compare K} {zk : K} {zv : V} {s : St K V} {L : List (K × V)} (h : Reaches comp zk zv s L) :
    Holds zk zv s L := by
  obtain ⟨⟨ops, e⟩, sh⟩ := h
  obtain ⟨s', L', e', H, -⟩ := run_holds (comp := comp) ops (new_holds zk zv)
  rw [e] at e'
  cases e'
  rw [shows_unique sh (holds_shows H)]; exact H

/-! ### C45 -/

/-- C45: every draw gives a level between 1 and `MaxLevel`. -/
theorem randomLevel_range (draw : UInt64) : ∃ r, randomLevel draw = .ok r ∧ 1 ≤ r ∧ r ≤ 32 := randomLevel_ok draw

/-! ### C46 -/

/-- C46: every history of operations, with every sequence of random draws and any comparator, runs without a panic, and
    afterwards all ways of looking at the list show one sequence of entries, the one the operations describe. -/
theorem history_refines_sequence (comp : Compare K) (zk : K) (zv : V) (ops : List (Op K V)) :
    ∃ s L, run comp zk zv (new zk zv) ops = .ok s ∧ Effects comp ops [] L ∧ Shows zv s L := by
  obtain ⟨s, L, e, H, E⟩ := run_holds (comp := comp) ops (new_holds zk zv)
  exact ⟨s, L, e, E, holds_shows H⟩

/-- C46, from the middle of a history: one more operation has the stated effect on what the list shows. -/
theorem step_refines {comp : Compare K} {zk : K} {zv : V} {s : St K V} {L : List (K × V)} (h : Reaches comp zk zv s L)
    (op : Op K V) : ∃ s' L', step comp zk zv s op = .ok s' ∧ Effect comp L op L' ∧ Shows zv s' L' := by
  obtain ⟨s', L', e, H, E⟩ := step_holds (comp := comp) h.holds op
  exact ⟨s', L', e, E, holds_shows H⟩

/-! ### C47 -/

/-- The entries a history inserts. -/
def insertedBy : List (Op K V) → List (K × V)
  | [] => []
  | .put k v _ :: ops => (k, v) :: insertedBy ops
  | .insertUnique k v _ :: ops => (k, v) :: insertedBy ops
  | .insertEquals k v _ :: ops => (k, v) :: insertedBy ops
  | _ :: ops => insertedBy ops

/-- Operations other than range deletion, Clear and SetValue. -/
def Op.keeps : Op K V → Bool
  | .deleteRange _ _ => false
  | .clear => false
  | .setAt _ _ => false
  | _ => true

theorem Deleted.same {comp : Compare K} (hs : ∀ a b, comp a b = 0 → comp b a = 0) {k : K} {L L' : List (K × V)} {b : Bool}
    (h : Deleted comp k L L' b) : b = false ∧ L' = L := by
  rcases h with h | ⟨-, _, e, _, -, -, h1, h2⟩
  · exact h
  · exact absurd (hs _ _ h1) h2

theorem DeletedAll.same {comp : Compare K} (hs : ∀ a b, comp a b = 0 → comp b a = 0) {ks : List K} {L L' : List (K × V)} {c : Nat}
    (h : DeletedAll comp ks L L' c) : c = 0 ∧ L' = L := by
  induction h with
  | nil => exact ⟨rfl, rfl⟩
  | cons d _ ih =>
    obtain ⟨rfl, rfl⟩ := d.same hs
    exact ⟨by simpa using ih.1, ih.2⟩

theorem Inserted.perm {comp : Compare K} {k : K} {v : V} {L L' : List (K × V)} (h : Inserted comp k v L L') :
    List.Perm L' ((k, v) :: L) := by
  obtain ⟨pre, post, rfl, rfl, -, -⟩ := h
  exact List.perm_middle

theorem effects_perm {comp : Compare K} (hs : ∀ a b, comp a b = 0 → comp b a = 0) {ops : List (Op K V)} {L L' : List (K × V)}
    (h : Effects comp ops L L') (hk : ∀ op ∈ ops, op.keeps = true) : List.Perm L' (insertedBy ops ++ L) := by
  induction h with
  | nil => exact .refl _
  | @cons op ops L L₁ L₂ e _ ih =>
    have ih := ih (fun o ho => hk o (List.mem_cons_of_mem _ ho))
    have h0 := hk op List.mem_cons_self
    have ins : ∀ k v, Inserted comp k v L L₁ → List.Perm L₂ ((k, v) :: (insertedBy ops ++ L)) := by
      intro k v hi
      exact ih.trans ((hi.perm.append_left _).trans List.perm_middle)
    cases op with
    | put k v d => exact ins k v e
    | insertUnique k v d => exact ins k v e
    | insertEquals k v d => exact ins k v e
    | delete k => obtain ⟨b, d⟩ := e; rw [(d.same hs).2] at ih; exact ih
    | deleteByWholeMapping k v c =>
      rcases e with rfl | ⟨b, d⟩
      · exact ih
      · rw [(d.same hs).2] at ih; exact ih
    | deleteKeys ks => obtain ⟨c, d⟩ := e; rw [(d.same hs).2] at ih; exact ih
    | deleteRange mn mx => simp [Op.keeps] at h0
    | clear => simp [Op.keeps] at h0
    | setAt i v => simp [Op.keeps] at h0

/-- C47: without DeleteRangeByKey, Clear and SetValue, the list shows a permutation of everything ever inserted. -/
theorem keeps_everything (comp : Compare K) (hs : ∀ a b, comp a b = 0 → comp b a = 0) (zk : K) (zv : V) (ops : List (Op K V))
    (hk : ∀ op ∈ ops, op.keeps = true) :
    ∃ s L, run comp zk zv (new zk zv) ops = .ok s ∧ Shows zv s L ∧ List.Perm L (insertedBy ops) ∧
      size s = (insertedBy ops).length := by
  obtain ⟨s, L, e, E, S⟩ := history_refines_sequence comp zk zv ops
  have hp := effects_perm hs E hk
  rw [List.append_nil] at hp
  exact ⟨s, L, e, S, hp, by rw [S.size, hp.length_eq]⟩

/-! ### C51 -/

/-- C51, what holds instead: InsertUnique (and Put) always inserts and returns true, whatever is stored. -/
theorem insertUnique_always_inserts {comp : Compare K} {zk : K} {zv : V} {s : St K V} {L : List (K × V)}
    (h : Reaches comp zk zv s L) (k : K) (v : V) (draw : UInt64) :
    ∃ s' L', insertUnique comp s k v draw = .ok (s', true) ∧ Shows zv s' L' ∧ Inserted comp k v L L' ∧
      size s' = size s + 1 := by
  obtain ⟨s', L', e, H, I⟩ := insert_holds (comp := comp) h.holds k v true draw
  refine ⟨s', L', e, holds_shows H, I, ?_⟩
  rw [(holds_shows H).size, h.2.size, I.perm.length_eq]; simp

/-- C51 is false: inserting the same key twice succeeds twice and leaves two entries. -/
theorem insertUnique_refuted (comp : Compare K) (hr : ∀ k, comp k k = 0) (zk : K) (zv : V) (k : K) (v w : V) (d d' : UInt64) :
    ∃ s s', Reaches comp zk zv s [(k, v)] ∧ insertUnique comp s k w d' = .ok (s', true) ∧ size s' = 2 ∧
      Shows zv s' [(k, v), (k, w)] := by
  obtain ⟨s, L, e, E, S⟩ := history_refines_sequence comp zk zv [.put k v d]
  have hL : L = [(k, v)] := by
    cases E with
    | cons e1 e2 =>
      cases e2
      obtain ⟨pre, post, h1, h2, -, -⟩ := e1
      simp only [List.nil_eq, List.append_eq_nil_iff] at h1
      rw [h2, h1.1, h1.2]; rfl
  subst hL
  have hR : Reaches comp zk zv s [(k, v)] := ⟨⟨_, e⟩, S⟩
  obtain ⟨s', L', e', S', I, hsz⟩ := insertUnique_always_inserts hR k w d'
  refine ⟨s, s', hR, e', by rw [hsz, S.size]; rfl, ?_⟩
  obtain ⟨pre, post, h1, rfl, h3, h4⟩ := I
  cases pre with
  | nil =>
    simp only [List.nil_append] at h1
    exact absurd (hr k) (by have := h4 (k, v) (by rw [← h1]; rfl); exact this)
  | cons a pre =>
    simp only [List.cons_append, List.cons.injEq] at h1
    obtain ⟨rfl, h1⟩ := h1
    simp only [List.nil_eq, List.append_eq_nil_iff] at h1
    rw [h1.1, h1.2] at S'
    exact S'

/-! ### C50 -/

/-- C50, what holds instead: for a comparator that is symmetric about equality, `Delete` changes nothing and returns false,
    whatever is stored. -/
theorem delete_never_removes {comp : Compare K} (hs : ∀ a b, comp a b = 0 → comp b a = 0) {zk : K} {zv : V} {s : St K V}
    {L : List (K × V)} (h : Reaches comp zk zv s L) (k : K) : delete comp s k = .ok (s, false) := by
  obtain ⟨s', L', b, e, -, D, i⟩ := delete_holds (comp := comp) h.holds k
  obtain ⟨rfl, -⟩ := D.same hs
  rw [i rfl] at e; exact e

/-- C50: `DeleteKeys` removes nothing and returns 0. -/
theorem deleteKeys_never_removes {comp : Compare K} (hs : ∀ a b, comp a b = 0 → comp b a = 0) {zk : K} {zv : V} {s : St K V}
    {L : List (K × V)} (h : Reaches comp zk zv s L) (ks : List K) : deleteKeys comp s ks 0 = .ok (s, 0) := by
  obtain ⟨s', L', m, e, -, D, i⟩ := deleteKeys_holds (comp := comp) ks 0 h.holds
  obtain ⟨rfl, -⟩ := D.same hs
  rw [i rfl] at e; simpa using e

/-- C50: `DeleteByWholeMapping` removes nothing; it returns true when the value found by Get compares equal. -/
theorem deleteByWholeMapping_never_removes {comp : Compare K} (hs : ∀ a b, comp a b = 0 → comp b a = 0) {zk : K} {zv : V}
    {s : St K V} {L : List (K × V)} (h : Reaches comp zk zv s L) (k : K) (v : V) (vc : Compare V) :
    ∃ b, deleteByWholeMapping comp s k v vc = .ok (s, b) ∧
      (b = true ↔ has comp s k = .ok true ∧ ∃ w, get comp zv s k = .ok w ∧ vc v w = 0) := by
  have hd := delete_never_removes hs h k
  obtain ⟨n, P, R, rfl, -, -⟩ := h.holds
  unfold deleteByWholeMapping has get
  rcases search_ok comp k R with ⟨q, e, -, -⟩ | ⟨e, -⟩
  · rw [e]
    simp only [Res.bind_ok]
    by_cases hv : vc v (s.val (P q)) = 0
    · exact ⟨true, by simp [hv, hd], by simp [hv]⟩
    · exact ⟨false, by simp [hv], by simp [hv]⟩
  · rw [e]
    exact ⟨false, rfl, by simp⟩

/-- C50 is false: a stored key is not deleted. -/
theorem delete_refuted (comp : Compare K) (hs : ∀ a b, comp a b = 0 → comp b a = 0) (zk : K) (zv : V) (k : K) (v : V) (d : UInt64) :
    ∃ s, Reaches comp zk zv s [(k, v)] ∧ delete comp s k = .ok (s, false) := by
  obtain ⟨s, L, e, E, S⟩ := history_refines_sequence comp zk zv [.put k v d]
  have hL : L = [(k, v)] := by
    cases E with
    | cons e1 e2 =>
      cases e2
      obtain ⟨pre, post, h1, h2, -, -⟩ := e1
      simp only [List.nil_eq, List.append_eq_nil_iff] at h1
      rw [h2, h1.1, h1.2]; rfl
  subst hL
  exact ⟨s, ⟨⟨_, e⟩, S⟩, delete_never_removes hs ⟨⟨_, e⟩, S⟩ k⟩

/-! ### C49 -/

/-- C49 for keys that do not compare equal to the zero key: Has, Get and Rank report stored entries only. -/
theorem lookup_sound_partial {comp : Compare K} {zk : K} {zv : V} {s : St K V} {L : List (K × V)} (h : Reaches comp zk zv s L)
    (k : K) (hk : comp zk k ≠ 0) :
    (has comp s k = .ok false ∧ get comp zv s k = .ok zv ∧ rank comp s k = .ok 0) ∨
    (∃ (i : Nat) (e : K × V), L[i]? = some e ∧ comp e.1 k = 0 ∧ has comp s k = .ok true ∧ get comp zv s k = .ok e.2 ∧
      rank comp s k = .ok ((i : Int) + 1)) := by
  obtain ⟨n, P, R, rfl, hz1, hz2⟩ := h.holds
  unfold has get rank
  rcases search_ok comp k R with ⟨q, e, h1, h2⟩ | ⟨e, -⟩
  · right
    have hq : q ≠ 0 := by rintro rfl; rw [R.head, hz1] at h2; exact hk h2
    refine ⟨q - 1, (s.key (P q), s.val (P q)), ?_, h2, ?_, ?_, ?_⟩
    · rw [entries_get?, if_pos (by omega), show q - 1 + 1 = q by omega]
    · rw [e]; rfl
    · rw [e]; rfl
    · rw [e]; show Res.ok (q : Int) = _; congr 1; omega
  · left; rw [e]; exact ⟨rfl, rfl, rfl⟩

/-- C49 is false: `Has` of the zero key is true on the empty list. -/
theorem has_zero_refuted (comp : Compare K) (zk : K) (zv : V) (hr : comp zk zk = 0) :
    Reaches comp zk zv (new zk zv) [] ∧ has comp (new zk zv) zk = .ok true := by
  refine ⟨⟨⟨[], rfl⟩, holds_shows (new_holds zk zv)⟩, ?_⟩
  obtain ⟨n, P, R, h0, hz1, hz2⟩ := new_holds zk zv
  have hn : n = 0 := by have := congrArg List.length h0; rwa [entries_length] at this
  subst hn
  unfold has
  rcases search_ok comp zk R with ⟨q, e, h1, h2⟩ | ⟨e, q, h1, -, h3, -⟩
  · rw [e]; rfl
  · have : q = 0 := by omega
    subst this
    rw [R.head, hz1] at h3
    exact absurd hr h3

/-! ### C48 -/

/-- On a list in key order, with a three-way comparator and a key other than the zero key, lookup is complete. -/
theorem lookup_sorted {comp : Compare K} (hc : comp.ThreeWay) {zk : K} {zv : V} {s : St K V} {L : List (K × V)}
    (h : Reaches comp zk zv s L) (hs : L.Pairwise (fun a b => comp a.1 b.1 ≤ 0)) (k : K) (hk : comp zk k ≠ 0) :
    (has comp s k = .ok true ↔ ∃ e ∈ L, comp e.1 k = 0) := by
  obtain ⟨n, P, R, rfl, hz1, hz2⟩ := h.holds
  unfold has
  rcases search_ok comp k R with ⟨q, e, h1, h2⟩ | ⟨e, q, h1, h2, h3, h4⟩
  · rw [e]
    refine ⟨fun _ => ?_, fun _ => rfl⟩
    have hq : q ≠ 0 := by rintro rfl; rw [R.head, hz1] at h2; exact hk h2
    refine ⟨(s.key (P q), s.val (P q)), ?_, h2⟩
    apply List.mem_of_getElem? (i := q - 1)
    rw [entries_get?, if_pos (by omega), show q - 1 + 1 = q by omega]
  · rw [e]
    refine ⟨fun h => by simp at h, ?_⟩
    rintro ⟨x, hx, hxk⟩
    exfalso
    obtain ⟨b, hb⟩ := List.getElem?_of_mem hx
    rw [entries_get?] at hb
    have hbn : b < n := by
      by_contra hc'; rw [if_neg hc'] at hb; simp at hb
    rw [if_pos hbn] at hb
    have hbk : comp (s.key (P (b + 1))) k = 0 := by
      have := Option.some.inj hb; rw [← this] at hxk; exact hxk
    have sorted : ∀ i j, 1 ≤ i → i < j → j ≤ n → comp (s.key (P i)) (s.key (P j)) ≤ 0 := by
      intro i j hi hij hj
      have := List.pairwise_iff_getElem.1 hs (i - 1) (j - 1) (by rw [entries_length]; omega) (by rw [entries_length]; omega) (by omega)
      rw [entries_get, entries_get, show i - 1 + 1 = i by omega, show j - 1 + 1 = j by omega] at this
      exact this
    have hbq : b + 1 ≤ q := by
      by_contra hlt
      have hq1 : q + 1 ≤ n := by omega
      have h5 := h4 hq1
      rcases Nat.lt_or_eq_of_le (show q + 1 ≤ b + 1 by omega) with hl | he
      · have h6 := sorted (q + 1) (b + 1) (by omega) hl (by omega)
        have := hc.trans _ _ _ h6 (by omega : comp (s.key (P (b + 1))) k ≤ 0)
        omega
      · rw [he] at h5; omega
    have h6 : comp (s.key (P (b + 1))) (s.key (P q)) ≤ 0 := by
      rcases Nat.lt_or_eq_of_le hbq with hl | he
      · exact sorted _ _ (by omega) hl h1
      · rw [he, hc.self]; omega
    rcases h2 with rfl | h2
    · omega
    · have h7 : comp (s.key (P q)) k ≤ 0 := by
        rcases hc.range (s.key (P q)) k with h | h | h <;> omega
      have h8 : comp k (s.key (P q)) ≤ 0 := hc.trans _ _ _ (by rw [hc.zero_symm hbk]; omega) h6
      have := hc.flip (s.key (P q)) k
      omega

/-- The part of C48 about one insertion: a key comparing equal to no stored key goes to the front. -/
theorem insert_new_key_in_front {comp : Compare K} {k : K} {v : V} {L L' : List (K × V)} (h : Inserted comp k v L L')
    (hn : ∀ e ∈ L, comp e.1 k ≠ 0) : L' = (k, v) :: L := by
  obtain ⟨pre, post, rfl, rfl, h3, -⟩ := h
  cases hp : pre.getLast? with
  | none => rw [List.getLast?_eq_none_iff] at hp; subst hp; rfl
  | some e =>
    exact absurd (h3 e hp) (hn e (List.mem_append_left _ (List.mem_of_getLast? hp)))

theorem effects_decreasing {comp : Compare K} (hc : comp.Lawful) (es : List (K × V)) (draws : K × V → UInt64) {L L' : List (K × V)}
    (hd : (L.reverse ++ es).Pairwise (fun a b => comp b.1 a.1 < 0))
    (h : Effects comp (es.map (fun e => .put e.1 e.2 (draws e))) L L') : L' = es.reverse ++ L := by
  induction es generalizing L with
  | nil => cases h; rfl
  | cons e es ih =>
    cases h with
    | @cons _ _ _ L₁ _ e1 e2 =>
      have : L₁ = (e.1, e.2) :: L := by
        refine insert_new_key_in_front e1 ?_
        intro x hx h0
        have := (List.pairwise_append.1 hd).2.2 x (List.mem_reverse.2 hx) e List.mem_cons_self
        have := hc.flip e.1 x.1
        omega
      subst this
      rw [ih (by simpa using hd) e2]
      simp

/-- C48 for keys put in strictly decreasing order: the list is in key order, and every key other than the zero key is looked up
    exactly; every sequence of random draws. -/
theorem sorted_map_partial (comp : Compare K) (hc : comp.ThreeWay) (zk : K) (zv : V) (es : List (K × V)) (draws : K × V → UInt64)
    (hd : es.Pairwise (fun a b => comp b.1 a.1 < 0)) :
    ∃ s, run comp zk zv (new zk zv) (es.map (fun e => .put e.1 e.2 (draws e))) = .ok s ∧ Shows zv s es.reverse ∧
      es.reverse.Pairwise (fun a b => comp a.1 b.1 < 0) ∧
      (∀ e ∈ es, comp zk e.1 ≠ 0 → has comp s e.1 = .ok true ∧ get comp zv s e.1 = .ok e.2) ∧
      (∀ k, comp zk k ≠ 0 → (∀ e ∈ es, comp e.1 k ≠ 0) → has comp s k = .ok false) := by
  obtain ⟨s, L, e, E, S⟩ := history_refines_sequence comp zk zv (es.map (fun e => .put e.1 e.2 (draws e)))
  have hL := effects_decreasing hc.toLawful es draws (by simpa using hd) E
  rw [List.append_nil] at hL
  subst hL
  have hR : Reaches comp zk zv s es.reverse := ⟨⟨_, e⟩, S⟩
  have hlt : es.reverse.Pairwise (fun a b => comp a.1 b.1 < 0) := List.pairwise_reverse.2 hd
  have hle : es.reverse.Pairwise (fun a b => comp a.1 b.1 ≤ 0) := hlt.imp (fun h => by omega)
  refine ⟨s, e, S, hlt, ?_, ?_⟩
  · intro x hx hz
    have h1 := (lookup_sorted hc hR hle x.1 hz).2 ⟨x, List.mem_reverse.2 hx, hc.self _⟩
    refine ⟨h1, ?_⟩
    rcases lookup_sound_partial hR x.1 hz with ⟨h, -⟩ | ⟨i, y, hy, h0, -, hg, -⟩
    · rw [h] at h1; simp at h1
    · rw [hg]
      obtain ⟨j, hj⟩ := List.getElem?_of_mem (List.mem_reverse.2 hx)
      have hi' := List.getElem?_eq_some_iff.1 hy
      have hj' := List.getElem?_eq_some_iff.1 hj
      obtain ⟨hi1, hi2⟩ := hi'
      obtain ⟨hj1, hj2⟩ := hj'
      rcases Nat.lt_trichotomy i j with hl | rfl | hl
      · have := List.pairwise_iff_getElem.1 hlt i j hi1 hj1 hl
        rw [hi2, hj2] at this; omega
      · rw [← hi2, hj2]
      · have := List.pairwise_iff_getElem.1 hlt j i hj1 hi1 hl
        rw [hi2, hj2] at this
        have := hc.flip x.1 y.1; omega
  · intro k hz hn
    rcases lookup_sound_partial hR k hz with ⟨h, -⟩ | ⟨i, y, hy, h0, -⟩
    · exact h
    · exact absurd h0 (hn y (List.mem_reverse.1 (List.mem_of_getElem? hy)))

/-! ### C52 -/

/-- C52: DeleteRangeByKey removes a contiguous block of entries below `max`, returns its length, and keeps the rest in order. -/
theorem deleteRange_block {comp : Compare K} {zk : K} {zv : V} {s : St K V} {L : List (K × V)} (h : Reaches comp zk zv s L) (mn mx : K) :
    ∃ s' pre mid post, deleteRangeByKey comp s mn mx = .ok (s', mid.length) ∧ L = pre ++ mid ++ post ∧
      Shows zv s' (pre ++ post) ∧ (∀ e ∈ mid, comp e.1 mx = -1) ∧ size s' = size s - mid.length := by
  obtain ⟨s', L', c, e, H, pre, mid, post, rfl, rfl, rfl, h1, -, -, -⟩ := deleteRange_holds (comp := comp) h.holds mn mx
  refine ⟨s', pre, mid, post, e, rfl, holds_shows H, h1, ?_⟩
  rw [(holds_shows H).size, h.2.size]; simp; omega

/-- C52 on a list in key order: exactly the entries with min ≤ key < max go. -/
theorem deleteRange_sorted {comp : Compare K} (hc : comp.ThreeWay) {zk : K} {zv : V} {s : St K V} {L : List (K × V)}
    (h : Reaches comp zk zv s L) (hs : L.Pairwise (fun a b => comp a.1 b.1 ≤ 0)) (mn mx : K) :
    ∃ s', deleteRangeByKey comp s mn mx = .ok (s', (L.filter (fun e => decide (comp mn e.1 ≤ 0 ∧ comp e.1 mx < 0))).length) ∧
      Shows zv s' (L.filter (fun e => !decide (comp mn e.1 ≤ 0 ∧ comp e.1 mx < 0))) := by
  obtain ⟨s', L', c, e, H, pre, mid, post, rfl, rfl, rfl, h1, h2, h3, h4⟩ := deleteRange_holds (comp := comp) h.holds mn mx
  have hs1 := List.pairwise_append.1 hs
  have hs2 := List.pairwise_append.1 hs1.1
  have hpre : ∀ x ∈ pre, comp x.1 mn < 0 := by
    intro x hx
    obtain ⟨l, a, rfl⟩ : ∃ l a, pre = l ++ [a] := by
      rcases List.eq_nil_or_concat pre with rfl | ⟨l, a, h⟩
      · simp at hx
      · exact ⟨l, a, by simpa using h⟩
    have ha := h2 a (by simp)
    rcases List.mem_append.1 hx with hx | hx
    · have := (List.pairwise_append.1 hs2.1).2.2 x hx a (by simp)
      exact hc.lt_of_le_of_lt this (by omega)
    · rw [List.mem_singleton.1 hx]; omega
  have hge : ∀ x ∈ mid ++ post, comp mn x.1 ≤ 0 := by
    intro x hx
    have hpw : (mid ++ post).Pairwise (fun a b => comp a.1 b.1 ≤ 0) := by
      rw [List.append_assoc] at hs; exact (List.pairwise_append.1 hs).2.1
    generalize mid ++ post = M at *
    cases M with
    | nil => simp at hx
    | cons a M =>
      have ha : comp mn a.1 ≤ 0 := by
        have h3a := h3 a rfl
        have hr := hc.range a.1 mn
        have hf := hc.le_iff mn a.1
        omega
      rcases List.mem_cons.1 hx with rfl | hx
      · exact ha
      · exact hc.trans _ _ _ ha (List.rel_of_pairwise_cons hpw hx)
  have hpost : ∀ x ∈ post, ¬ comp x.1 mx < 0 := by
    intro x hx hlt
    cases post with
    | nil => simp at hx
    | cons a M =>
      have ha : comp mx a.1 ≤ 0 := by
        have h3a := h4 a rfl
        have hr := hc.range a.1 mx
        have hf := hc.le_iff mx a.1
        omega
      have : comp mx x.1 ≤ 0 := by
        rcases List.mem_cons.1 hx with rfl | hx
        · exact ha
        · exact hc.trans _ _ _ ha (List.rel_of_pairwise_cons hs1.2.1 hx)
      have := hc.flip x.1 mx
      omega
  have f1 : pre.filter (fun e => decide (comp mn e.1 ≤ 0 ∧ comp e.1 mx < 0)) = [] := by
    rw [List.filter_eq_nil_iff]
    intro x hx
    have := hpre x hx; have := hc.flip x.1 mn
    simp; omega
  have f2 : mid.filter (fun e => decide (comp mn e.1 ≤ 0 ∧ comp e.1 mx < 0)) = mid := by
    rw [List.filter_eq_self]
    intro x hx
    have := hge x (List.mem_append_left _ hx); have := h1 x hx
    simp; omega
  have f3 : post.filter (fun e => decide (comp mn e.1 ≤ 0 ∧ comp e.1 mx < 0)) = [] := by
    rw [List.filter_eq_nil_iff]
    intro x hx
    have := hpost x hx
    simp; omega
  have g1 : pre.filter (fun e => !decide (comp mn e.1 ≤ 0 ∧ comp e.1 mx < 0)) = pre := by
    rw [List.filter_eq_self]
    intro x hx
    have := hpre x hx; have := hc.flip x.1 mn
    simp; omega
  have g2 : mid.filter (fun e => !decide (comp mn e.1 ≤ 0 ∧ comp e.1 mx < 0)) = [] := by
    rw [List.filter_eq_nil_iff]
    intro x hx
    have := hge x (List.mem_append_left _ hx); have := h1 x hx
    simp; omega
  have g3 : post.filter (fun e => !decide (comp mn e.1 ≤ 0 ∧ comp e.1 mx < 0)) = post := by
    rw [List.filter_eq_self]
    intro x hx
    have := hpost x hx
    simp; omega
  refine ⟨s', ?_, ?_⟩
  · rw [e, List.filter_append, List.filter_append, f1, f2, f3]; simp
  · rw [List.filter_append, List.filter_append, g1, g2, g3, List.append_nil]
    exact holds_shows H

/-! ### C48 refuted -/

def cmpInt : Compare Int := fun a b => if a < b then -1 else if b < a then 1 else 0

theorem cmpInt_threeWay : cmpInt.ThreeWay := by
  refine ⟨⟨?_, ?_⟩, ?_⟩
  · intro a b; unfold cmpInt; grind
  · intro a b c; unfold cmpInt; grind
  · intro a b; unfold cmpInt; grind

theorem randomLevel_one : randomLevel 4294967294 = .ok 1 := by
  unfold randomLevel
  rw [randomLoop, if_neg (by decide)]; rfl

theorem setFwd_level {s s' : St K V} {x i : Nat} {p : Option Nat} (h : s.setFwd x i p = .ok s') : s'.level = s.level := by
  unfold St.setFwd at h; split at h <;> simp at h; rw [← h]

theorem setSpan_level {s s' : St K V} {x i : Nat} {p : Int} (h : s.setSpan x i p = .ok s') : s'.level = s.level := by
  unfold St.setSpan at h; split at h <;> simp at h; rw [← h]

theorem bind_eq_ok {α β : Type _} {x : Res α} {f : α → Res β} {b : β} (h : (x >>= f) = .ok b) : ∃ a, x = .ok a ∧ f a = .ok b := by
  cases x with
  | ok a => exact ⟨a, rfl, h⟩
  | panic k => simp at h
  | hang => simp at h

theorem linkLoop_level (u : Upd) (x : Nat) (n i : Nat) {s s' : St K V} (h : linkLoop s u x n i = .ok s') : s'.level = s.level := by
  induction n generalizing s i with
  | zero => simp [linkLoop] at h; rw [h]
  | succ n ih =>
    rw [linkLoop] at h
    obtain ⟨_, -, h⟩ := bind_eq_ok h
    obtain ⟨_, -, h⟩ := bind_eq_ok h
    obtain ⟨s1, e1, h⟩ := bind_eq_ok h
    obtain ⟨s2, e2, h⟩ := bind_eq_ok h
    obtain ⟨_, -, h⟩ := bind_eq_ok h
    obtain ⟨s3, e3, h⟩ := bind_eq_ok h
    obtain ⟨s4, e4, h⟩ := bind_eq_ok h
    rw [ih _ h, setSpan_level e4, setSpan_level e3, setFwd_level e2, setFwd_level e1]

theorem spanLoop_level (u : Upd) (n i : Nat) {s s' : St K V} (h : spanLoop s u n i = .ok s') : s'.level = s.level := by
  induction n generalizing s i with
  | zero => simp [spanLoop] at h; rw [h]
  | succ n ih =>
    rw [spanLoop] at h
    obtain ⟨_, -, h⟩ := bind_eq_ok h
    obtain ⟨_, -, h⟩ := bind_eq_ok h
    obtain ⟨s1, e1, h⟩ := bind_eq_ok h
    rw [ih _ h, setSpan_level e1]

theorem insert_level_one {comp : Compare K} {s s' : St K V} {k : K} {v : V} {b : Bool} (hl : s.level = 1)
    (h : insertUnique comp s k v 4294967294 = .ok (s', b)) : s'.level = 1 := by
  unfold insertUnique insert at h
  obtain ⟨d, -, h⟩ := bind_eq_ok h
  obtain ⟨p, -, h⟩ := bind_eq_ok h
  obtain ⟨f, -, h⟩ := bind_eq_ok h
  dsimp only at h
  have hif : ∀ (c : Bool) (X Y : Res (St K V × Bool)), (if c = true then X else Y) = .ok (s', b) → X = .ok (s', b) ∨ Y = .ok (s', b) := by
    intro c X Y hc; cases c
    · exact .inr (by simpa using hc)
    · exact .inl (by simpa using hc)
  rcases hif _ _ _ h with h | h
  · simp at h; rw [← h.1]; exact hl
  · rw [randomLevel_one, Res.bind_ok] at h
    obtain ⟨s1, e1, h⟩ := bind_eq_ok h
    simp only [Res.pure_eq, Res.ok.injEq, Prod.mk.injEq] at h
    rw [← h.1]
    unfold insertAt at e1
    rw [if_neg (by omega)] at e1
    obtain ⟨s2, e2, e1⟩ := bind_eq_ok e1
    simp only [Res.pure_eq, Res.ok.injEq] at e2
    subst e2
    obtain ⟨s3, e3, e1⟩ := bind_eq_ok e1
    obtain ⟨s4, e4, e1⟩ := bind_eq_ok e1
    have : s4.level = 1 := by rw [spanLoop_level _ _ _ e4, linkLoop_level _ _ _ _ e3]; exact hl
    unfold insertEnd at e1
    obtain ⟨f, -, e1⟩ := bind_eq_ok e1
    cases f <;> simp at e1 <;> rw [← e1] <;> exact this

/-- C48 is false: put 1, then 2; the list is out of order and key 1 is not found. -/
theorem sorted_map_refuted (v w : Int) :
    ∃ s, run cmpInt 0 0 (new 0 0) [.put 1 v 4294967294, .put 2 w 4294967294] = .ok s ∧
      has cmpInt s 1 = .ok false ∧ Shows 0 s [(2, w), (1, v)] := by
  obtain ⟨s1, L1, e1, H1, I1⟩ := insert_holds (comp := cmpInt) (new_holds (0 : Int) (0 : Int)) 1 v true 4294967294
  have h1 := insert_new_key_in_front I1 (by simp)
  subst h1
  obtain ⟨s2, L2, e2, H2, I2⟩ := insert_holds (comp := cmpInt) H1 2 w true 4294967294
  have h2 := insert_new_key_in_front I2 (by simp [cmpInt])
  subst h2
  have l1 : s1.level = 1 := insert_level_one (v := v) (k := 1) (comp := cmpInt) rfl e1
  have l2 : s2.level = 1 := insert_level_one (v := w) (k := 2) (comp := cmpInt) l1 e2
  refine ⟨s2, ?_, ?_, holds_shows H2⟩
  · simp [run, step, insertUnique, e1, e2]
  · obtain ⟨n, P, R, h0, hz, -⟩ := H2
    have hn : n = 2 := by have := congrArg List.length h0; rwa [entries_length] at this
    subst hn
    have hk : s2.key (P 1) = 2 := by
      have := congrArg (fun l => l[0]?) h0
      simp only [entries_get?] at this
      simpa using (Prod.mk.inj (by simpa using this)).1
    obtain ⟨p, ew, -, -, -, -, -, h6⟩ := walk_ok R 0 (by omega) (fun k => cmpInt k 1 != 1) 0 (by omega) (by rw [R.head, R.hh]; omega)
    have hp : p = 0 := by
      have := h6 1 (by omega) (by omega) (R.hpos 1 (by omega)) (by rw [hk]; decide)
      omega
    subst hp
    unfold has search
    rw [l2, searchLoop, ← R.head]
    simp only [Int.ofNat_eq_natCast, Int.natCast_zero] at ew
    rw [ew, Res.bind_ok]
    simp only [R.head, hz]
    rw [if_neg (by decide)]
    rfl

/-! ### Non-vacuity -/

/-- Three entries put in decreasing order: the hypotheses of the theorems about `Reaches … L` with a sorted list and of
    `sorted_map_partial` hold. -/
example : ∃ s, Reaches cmpInt 0 0 s [(1, 10), (2, 20), (3, 30)] ∧
    ([(1, 10), (2, 20), (3, 30)] : List (Int × Int)).Pairwise (fun a b => cmpInt a.1 b.1 ≤ 0) ∧ cmpInt 0 2 ≠ 0 := by
  obtain ⟨s, e, S, -⟩ := sorted_map_partial cmpInt cmpInt_threeWay 0 0 [(3, 30), (2, 20), (1, 10)] (fun _ => 7) (by simp [cmpInt])
  exact ⟨s, ⟨⟨_, e⟩, S⟩, by simp [cmpInt], by decide⟩

/-- An unsorted list is reached as well, and DeleteRangeByKey(1, 3) on the list above returns 2. -/
example : ∃ s s', Reaches cmpInt 0 0 s [(1, 10), (2, 20), (3, 30)] ∧ deleteRangeByKey cmpInt s 1 3 = .ok (s', 2) ∧
    Shows 0 s' [(3, 30)] := by
  obtain ⟨s, e, S, -⟩ := sorted_map_partial cmpInt cmpInt_threeWay 0 0 [(3, 30), (2, 20), (1, 10)] (fun _ => 7) (by simp [cmpInt])
  obtain ⟨s', e', S'⟩ := deleteRange_sorted cmpInt_threeWay ⟨⟨_, e⟩, S⟩ (by simp [cmpInt]) 1 3
  exact ⟨s, s', ⟨⟨_, e⟩, S⟩, e', S'⟩

/-- A history of `keeps_everything` with equal keys, deletions and lookups in between. -/
example : ∃ s L, run cmpInt 0 0 (new 0 0) [.put 1 10 5, .insertEquals 1 11 99, .delete 1, .put 0 1 3, .deleteKeys [0, 1]] = .ok s ∧
    Shows 0 s L ∧ L.Perm [(1, 10), (1, 11), (0, 1)] ∧ size s = 3 :=
  keeps_everything cmpInt (fun _ _ h => cmpInt_threeWay.zero_symm h) 0 0 _ (by decide)

end Gds.SkipList
