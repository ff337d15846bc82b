import Verif.SkipList.Insert
import Verif.SkipList.Delete
import Verif.Iter.Props

/-! The skip list refines a sequence of entries. -/

namespace Gds.SkipList

variable {K V : Type}

/-! ### Specification side: histories and what they do to the sequence of entries -/

/-- The mutating operations; `draw` is the random number an insertion consumes, `setAt i v` is
    `SetValue(v)` on the i-th node reached by `First()`, `Next()`, … (nothing if the list is shorter). -/
inductive Op (K V : Type) where
  | put (k : K) (v : V) (draw : UInt64)
  | insertUnique (k : K) (v : V) (draw : UInt64)
  | insertEquals (k : K) (v : V) (draw : UInt64)
  | delete (k : K)
  | deleteByWholeMapping (k : K) (v : V) (valComp : Compare V)
  | deleteKeys (ks : List K)
  | deleteRange (min max : K)
  | clear
  | setAt (i : Nat) (v : V)

/-- `First()` followed by `i` times `Next()`, stopping at nil. -/
def nodeAt (s : St K V) (i : Nat) : Res (Option Nat) := do
  let f ← first s
  advance s i f

/-- One operation of a history. -/
def step (comp : Compare K) (zk : K) (zv : V) (s : St K V) : Op K V → Res (St K V)
  | .put k v d => do let r ← insertUnique comp s k v d; pure r.1
  | .insertUnique k v d => do let r ← insertUnique comp s k v d; pure r.1
  | .insertEquals k v d => do let r ← insertEquals comp s k v d; pure r.1
  | .delete k => do let r ← delete comp s k; pure r.1
  | .deleteByWholeMapping k v c => do let r ← deleteByWholeMapping comp s k v c; pure r.1
  | .deleteKeys ks => do let r ← deleteKeys comp s ks 0; pure r.1
  | .deleteRange mn mx => do let r ← deleteRangeByKey comp s mn mx; pure r.1
  | .clear => pure (clear zk zv s)
  | .setAt i v => do
    let x ← nodeAt s i
    match x with
    | none => pure s
    | some x => pure (setValue s x v)

/-- A history. -/
def run (comp : Compare K) (zk : K) (zv : V) (s : St K V) : List (Op K V) → Res (St K V)
  | [] => pure s
  | op :: ops => do
    let s ← step comp zk zv s op
    run comp zk zv s ops

/-- An insertion of `(k, v)`: behind entries equal to `k`, or at the front. -/
def Inserted (comp : Compare K) (k : K) (v : V) (L L' : List (K × V)) : Prop :=
  ∃ pre post, L = pre ++ post ∧ L' = pre ++ (k, v) :: post ∧
    (∀ e, pre.getLast? = some e → comp e.1 k = 0) ∧ (∀ e, post.head? = some e → comp e.1 k ≠ 0)

/-- A `Delete(k)`: nothing is removed unless the comparator disagrees with itself about an entry. -/
def Deleted (comp : Compare K) (k : K) (L L' : List (K × V)) (b : Bool) : Prop :=
  (b = false ∧ L' = L) ∨
    (b = true ∧ ∃ pre e post, L = pre ++ e :: post ∧ L' = pre ++ post ∧ comp k e.1 = 0 ∧ comp e.1 k ≠ 0)

/-- A run of `Delete`s. -/
inductive DeletedAll (comp : Compare K) : List K → List (K × V) → List (K × V) → Nat → Prop
  | nil (L) : DeletedAll comp [] L L 0
  | cons {k ks L L₁ L₂ b c} : Deleted comp k L L₁ b → DeletedAll comp ks L₁ L₂ c →
      DeletedAll comp (k :: ks) L L₂ (if b then c + 1 else c)

/-- A `DeleteRangeByKey(min, max)`: a block `mid` goes, starting behind the leading entries below `min`. -/
def RangeDeleted (comp : Compare K) (min max : K) (L L' : List (K × V)) (c : Nat) : Prop :=
  ∃ pre mid post, L = pre ++ mid ++ post ∧ L' = pre ++ post ∧ c = mid.length ∧
    (∀ e ∈ mid, comp e.1 max = -1) ∧ (∀ e, pre.getLast? = some e → comp e.1 min = -1) ∧
    (∀ e, (mid ++ post).head? = some e → comp e.1 min ≠ -1) ∧ (∀ e, post.head? = some e → comp e.1 max ≠ -1)

/-- What one operation does to the sequence of entries. -/
def Effect (comp : Compare K) (L : List (K × V)) : Op K V → List (K × V) → Prop
  | .put k v _, L' => Inserted comp k v L L'
  | .insertUnique k v _, L' => Inserted comp k v L L'
  | .insertEquals k v _, L' => Inserted comp k v L L'
  | .delete k, L' => ∃ b, Deleted comp k L L' b
  | .deleteByWholeMapping k _ _, L' => L' = L ∨ ∃ b, Deleted comp k L L' b
  | .deleteKeys ks, L' => ∃ c, DeletedAll comp ks L L' c
  | .deleteRange mn mx, L' => ∃ c, RangeDeleted comp mn mx L L' c
  | .clear, L' => L' = []
  | .setAt i v, L' => L' = L.modify i (fun e => (e.1, v))

/-- What a history does to the sequence of entries. -/
inductive Effects (comp : Compare K) : List (Op K V) → List (K × V) → List (K × V) → Prop
  | nil (L) : Effects comp [] L L
  | cons {op ops L L₁ L₂} : Effect comp L op L₁ → Effects comp ops L₁ L₂ → Effects comp (op :: ops) L L₂

/-! ### Representation -/

/-- The list holds the entries `L`, and the header carries zero values. -/
def Holds (zk : K) (zv : V) (s : St K V) (L : List (K × V)) : Prop :=
  ∃ n P, Rep s n P ∧ entries s n P = L ∧ s.key s.header = zk ∧ s.val s.header = zv

section
variable {s : St K V} {n : Nat} {P : Nat → Nat}

theorem entries_length : (entries s n P).length = n := by simp [entries]

theorem entries_get (i : Nat) (h : i < (entries s n P).length) :
    (entries s n P)[i] = (s.key (P (i + 1)), s.val (P (i + 1))) := by simp [entries]

theorem entries_get? (i : Nat) :
    (entries s n P)[i]? = if i < n then some (s.key (P (i + 1)), s.val (P (i + 1))) else none := by
  by_cases h : i < n <;> simp [entries, h]

theorem entries_take_last {k : Nat} (hk : k ≤ n) {e : K × V} (h : ((entries s n P).take k).getLast? = some e) :
    1 ≤ k ∧ e = (s.key (P k), s.val (P k)) := by
  rcases Nat.eq_zero_or_pos k with rfl | hp
  · simp at h
  · refine ⟨hp, ?_⟩
    rw [List.getLast?_eq_getElem?, List.length_take, entries_length, Nat.min_eq_left hk, List.getElem?_take,
      if_pos (by omega), entries_get?, if_pos (by omega)] at h
    rw [show k - 1 + 1 = k by omega] at h
    simpa using h.symm

theorem entries_drop_head {k : Nat} {e : K × V} (h : ((entries s n P).drop k).head? = some e) :
    k + 1 ≤ n ∧ e = (s.key (P (k + 1)), s.val (P (k + 1))) := by
  rw [List.head?_drop, entries_get?] at h
  by_cases hk : k < n
  · rw [if_pos hk] at h; exact ⟨hk, by simpa using h.symm⟩
  · rw [if_neg hk] at h; simp at h

theorem entries_ins {s' : St K V} (k : Nat) (hk : k ≤ n) (A : Nat) (key : K) (val : V) (hA : ∀ p, p ≤ n → P p ≠ A)
    (h1 : s'.key = fun y => if y = A then key else s.key y) (h2 : s'.val = fun y => if y = A then val else s.val y) :
    entries s' (n + 1) (insPos P k A) = (entries s n P).take k ++ (key, val) :: (entries s n P).drop k := by
  apply List.ext_getElem?
  intro i
  rw [entries_get?, List.getElem?_append, List.length_take, entries_length, Nat.min_eq_left hk, h1, h2]
  by_cases h : i < k
  · have := hA (i + 1) (by omega)
    rw [if_pos h, List.getElem?_take, if_pos h, entries_get?]
    have e : insPos P k A (i + 1) = P (i + 1) := by simp [insPos]; omega
    simp only [e, if_pos (show i < n + 1 by omega), if_pos (show i < n by omega), if_neg this]
  · rw [if_neg h]
    by_cases h' : i = k
    · subst h'
      have e : insPos P i A (i + 1) = A := by simp [insPos]; omega
      simp [e, show i < n + 1 by omega]
    · have hm : i - k = (i - k - 1) + 1 := by omega
      rw [hm, List.getElem?_cons_succ, List.getElem?_drop, entries_get?, show k + (i - k - 1) = i - 1 by omega]
      have e : insPos P k A (i + 1) = P i := by
        simp only [insPos]
        rw [if_neg (by omega), if_neg (by omega), show i + 1 - 1 = i by omega]
      by_cases hi : i < n + 1
      · have := hA i (by omega)
        simp only [e, if_pos hi, if_pos (show i - 1 < n by omega), if_neg this, show i - 1 + 1 = i by omega]
      · simp only [if_neg hi, if_neg (show ¬ i - 1 < n by omega)]

theorem entries_del {s' : St K V} (k : Nat) (hk : k ≤ n) (h1 : s'.key = s.key) (h2 : s'.val = s.val) :
    entries s' n (delPos P k) = (entries s (n + 1) P).take k ++ (entries s (n + 1) P).drop (k + 1) := by
  apply List.ext_getElem?
  intro i
  rw [entries_get?, List.getElem?_append, List.length_take, entries_length, h1, h2, Nat.min_eq_left (by omega)]
  by_cases h : i < k
  · rw [if_pos h, List.getElem?_take, if_pos h, entries_get?, if_pos (by omega), if_pos (by omega)]
    have e : delPos P k (i + 1) = P (i + 1) := by simp [delPos]; omega
    rw [e]
  · rw [if_neg h, List.getElem?_drop, entries_get?, show k + 1 + (i - k) = i + 1 by omega]
    have e : delPos P k (i + 1) = P (i + 1 + 1) := by simp [delPos]; omega
    rw [e]
    by_cases hi : i < n
    · rw [if_pos hi, if_pos (by omega)]
    · rw [if_neg hi, if_neg (by omega)]

/-- `insert`, with the place of the new node. -/
theorem insert_ok {comp : Compare K} (R : Rep s n P) (k : K) (v : V) (uniq : Bool) (draw : UInt64) :
    ∃ s' p, insert comp s k v uniq draw = .ok (s', true) ∧ p ≤ n ∧ Rep s' (n + 1) (insPos P p s.alloc) ∧
      s'.header = s.header ∧ s'.key = (fun y => if y = s.alloc then k else s.key y) ∧
      s'.val = (fun y => if y = s.alloc then v else s.val y) ∧
      (p = 0 ∨ comp (s.key (P p)) k = 0) ∧ (p + 1 ≤ n → comp (s.key (P (p + 1))) k ≠ 0) := by
  obtain ⟨p, u, f, e, F, c1, c2⟩ := descend_header R (fun x => comp x k == 0)
  obtain ⟨H, eH, hH1, hH2⟩ := randomLevel_ok draw
  obtain ⟨s', e', R', -, b2, b3, b4⟩ := insertAt_ok R F k v H hH1 hH2
  refine ⟨s', p, ?_, F.k_le, R', b2, b3, b4, ?_, ?_⟩
  · unfold insert
    rw [e, Res.bind_ok]
    have hu0 := (F.upd 0 R.l1).1
    rw [F.f0] at hu0
    simp only [hu0, deref, Res.bind_ok, R.fwd0 p F.k_le]
    have hdup : (match (if p + 1 ≤ n then some (P (p + 1)) else none : Option Nat) with
        | some y => uniq && comp (s.key y) k == 0
        | none => false) = false := by
      by_cases hp : p + 1 ≤ n
      · simp only [hp, if_true]
        have := c2 hp
        simp [this]
      · simp only [hp, if_false]
    have hd2 : ∀ b : Bool, b = false → ∀ (X Y : Res (St K V × Bool)), (if b = true then X else Y) = Y := by
      intro b hb X Y; simp [hb]
    refine (hd2 _ hdup _ _).trans ?_
    rw [eH, Res.bind_ok, e', Res.bind_ok]; rfl
  · rcases c1 with rfl | c1
    · exact .inl rfl
    · exact .inr (by simpa using c1)
  · intro h1; simpa using c2 h1

/-- `InsertUnique` / `InsertEquals`. -/
theorem insert_holds {comp : Compare K} {zk : K} {zv : V} {L : List (K × V)} (h : Holds zk zv s L) (k : K) (v : V)
    (uniq : Bool) (draw : UInt64) :
    ∃ s' L', insert comp s k v uniq draw = .ok (s', true) ∧ Holds zk zv s' L' ∧ Inserted comp k v L L' := by
  obtain ⟨n, P, R, rfl, hz1, hz2⟩ := h
  obtain ⟨s', p, e, hp, R', b2, b3, b4, c1, c2⟩ := insert_ok (comp := comp) R k v uniq draw
  have hA : ∀ q, q ≤ n → P q ≠ s.alloc := fun q hq => by have := R.old q hq; omega
  have hhd : s.header ≠ s.alloc := by have := hA 0 (by omega); rwa [R.head] at this
  refine ⟨s', (entries s n P).take p ++ (k, v) :: (entries s n P).drop p, e,
    ⟨n + 1, _, R', entries_ins p hp s.alloc k v hA b3 b4, ?_, ?_⟩,
    (entries s n P).take p, (entries s n P).drop p, by simp, rfl, ?_, ?_⟩
  · rw [b2, b3]; simp [hhd, hz1]
  · rw [b2, b4]; simp [hhd, hz2]
  · intro x hx
    obtain ⟨h1, rfl⟩ := entries_take_last hp hx
    rcases c1 with rfl | c1
    · omega
    · simpa using c1
  · intro x hx
    obtain ⟨h1, rfl⟩ := entries_drop_head hx
    simpa using c2 h1

/-- `Delete`. -/
theorem delete_holds {comp : Compare K} {zk : K} {zv : V} {L : List (K × V)} (h : Holds zk zv s L) (k : K) :
    ∃ s' L' b, delete comp s k = .ok (s', b) ∧ Holds zk zv s' L' ∧ Deleted comp k L L' b ∧ (b = false → s' = s) := by
  obtain ⟨n, P, R, rfl, hz1, hz2⟩ := h
  obtain ⟨p, u, f, e, F, c1, c2⟩ := descend_header R (fun x => comp x k == 0)
  unfold delete
  rw [e, Res.bind_ok, R.fwd0 p F.k_le, Res.bind_ok]
  by_cases hp : p + 1 ≤ n
  · simp only [if_pos hp]
    by_cases hc : comp k (s.key (P (p + 1))) = 0
    · obtain ⟨m, rfl⟩ : ∃ m, n = m + 1 := ⟨n - 1, by omega⟩
      obtain ⟨s', e', R', -, -, b1, b2, -, b4, -, -⟩ := deleteNode_ok R F (Nat.le_refl _) (by omega)
      refine ⟨s', _, true, ?_, ⟨m, _, R', entries_del p (by omega) b1 b2, ?_, ?_⟩, ?_, by simp⟩
      · simp [hc, e']
      · rw [b1, b4]; exact hz1
      · rw [b2, b4]; exact hz2
      · refine .inr ⟨rfl, (entries s (m + 1) P).take p, (s.key (P (p + 1)), s.val (P (p + 1))), (entries s (m + 1) P).drop (p + 1), ?_, rfl, hc, ?_⟩
        · have hl : p < (entries s (m + 1) P).length := by rw [entries_length]; omega
          rw [← entries_get p hl, ← List.drop_eq_getElem_cons hl]; simp
        · simpa using c2 hp
    · refine ⟨s, _, false, ?_, ⟨n, P, R, rfl, hz1, hz2⟩, .inl ⟨rfl, rfl⟩, fun _ => rfl⟩
      simp [hc]
  · simp only [if_neg hp]
    exact ⟨s, _, false, rfl, ⟨n, P, R, rfl, hz1, hz2⟩, .inl ⟨rfl, rfl⟩, fun _ => rfl⟩

theorem deleteKeys_holds {comp : Compare K} {zk : K} {zv : V} (ks : List K) (c : Int) {s : St K V} {L : List (K × V)}
    (h : Holds zk zv s L) :
    ∃ s' L' m, deleteKeys comp s ks c = .ok (s', c + (m : Nat)) ∧ Holds zk zv s' L' ∧ DeletedAll comp ks L L' m ∧
      (m = 0 → s' = s) := by
  induction ks generalizing s L c with
  | nil => exact ⟨s, L, 0, by simp [deleteKeys], h, .nil _, fun _ => rfl⟩
  | cons k ks ih =>
    obtain ⟨s1, L1, b, e1, H1, d1, i1⟩ := delete_holds (comp := comp) h k
    obtain ⟨s2, L2, m, e2, H2, d2, i2⟩ := ih (if b then c + 1 else c) H1
    refine ⟨s2, L2, if b then m + 1 else m, ?_, H2, .cons d1 d2, ?_⟩
    · rw [deleteKeys, e1, Res.bind_ok, e2]
      cases b <;> simp; omega
    · intro hm
      cases b
      · rw [i2 (by simpa using hm), i1 rfl]
      · simp at hm

/-- The loop of `DeleteRangeByKey` from position `k + 1`. -/
theorem rangeLoop_ok {comp : Compare K} (max : K) {u : Upd} {f : Nat → Nat} {lv k : Nat} (removed : Nat)
    (R : Rep s n P) (F : Finger s n P lv k u f) (hlv : s.level ≤ lv) :
    ∃ s' n' P' mid post, rangeLoop comp max u s (if k + 1 ≤ n then some (P (k + 1)) else none) removed =
        .ok (s', removed + mid.length) ∧ Rep s' n' P' ∧
      (entries s n P).drop k = mid ++ post ∧ entries s' n' P' = (entries s n P).take k ++ post ∧
      (∀ e ∈ mid, comp e.1 max = -1) ∧ (∀ e, post.head? = some e → comp e.1 max ≠ -1) ∧
      s'.header = s.header ∧ s'.key = s.key ∧ s'.val = s.val ∧ s'.height = s.height ∧
      (∀ y, y ≠ P k → s'.fwd y 0 = s.fwd y 0) ∧ (∀ r, r ≤ k → P' r = P r) := by
  induction n generalizing s P removed with
  | zero =>
    refine ⟨s, 0, P, [], (entries s 0 P).drop k, ?_, R, rfl, by simp, by simp, ?_, rfl, rfl, rfl, rfl, fun _ _ => rfl, fun _ _ => rfl⟩
    · rw [if_neg (by omega), rangeLoop]; simp
    · simp [entries]
  | succ n ih =>
    have stop : ∀ (hs : k + 1 ≤ n + 1 → comp (s.key (P (k + 1))) max ≠ -1),
        ∀ e, ((entries s (n + 1) P).drop k).head? = some e → comp e.1 max ≠ -1 := by
      intro hs e he
      obtain ⟨h1, rfl⟩ := entries_drop_head he
      exact hs h1
    by_cases hk : k + 1 ≤ n + 1
    · rw [if_pos hk, rangeLoop]
      by_cases hc : comp (s.key (P (k + 1))) max = -1
      · simp only [if_pos hc]
        rw [R.fwd0 (k + 1) hk, Res.bind_ok]
        obtain ⟨s1, e1, R1, F1, b0, b1, b2, -, b4, b5, b6⟩ := deleteNode_ok R F hlv (by omega)
        obtain ⟨s', n', P', mid, post, e2, R2, d1, d2, d3, d4, d5, d6, d7, d8, d9, d10⟩ := ih (removed + 1) R1 F1 (by omega)
        have hl : k < (entries s (n + 1) P).length := by rw [entries_length]; omega
        have htk : (entries s1 n (delPos P k)).take k = (entries s (n + 1) P).take k := by
          rw [entries_del k (by omega) b1 b2, List.take_append_of_le_length (by simp; omega), List.take_take, Nat.min_self]
        have hdr : (entries s1 n (delPos P k)).drop k = (entries s (n + 1) P).drop (k + 1) := by
          rw [entries_del k (by omega) b1 b2, List.drop_append_of_le_length (by simp; omega)]
          simp
        refine ⟨s', n', P', (entries s (n + 1) P)[k] :: mid, post, ?_, R2, ?_, ?_, ?_, d4, ?_, ?_, ?_, ?_, ?_, ?_⟩
        · rw [e1, Res.bind_ok]
          have e3 : (if k + 1 + 1 ≤ n + 1 then some (P (k + 1 + 1)) else none : Option Nat) =
              if k + 1 ≤ n then some (delPos P k (k + 1)) else none := by
            have : delPos P k (k + 1) = P (k + 1 + 1) := by simp [delPos]; omega
            rw [this]
            by_cases h : k + 1 ≤ n
            · rw [if_pos h, if_pos (by omega)]
            · rw [if_neg h, if_neg (by omega)]
          rw [e3, e2]
          simp; omega
        · rw [List.cons_append, ← d1, hdr, ← List.drop_eq_getElem_cons hl]
        · rw [d2, htk]
        · intro x hx
          rcases List.mem_cons.1 hx with rfl | hx
          · rw [entries_get k hl]; exact hc
          · exact d3 x hx
        · rw [d5, b4]
        · rw [d6, b1]
        · rw [d7, b2]
        · rw [d8, b5]
        · intro y hy
          rw [d9 y (by simpa [delPos] using hy), b6 y hy]
        · intro r hr
          rw [d10 r hr]; simp [delPos, hr]
      · simp only [if_neg hc]
        exact ⟨s, n + 1, P, [], _, rfl, R, rfl, by simp, by simp, stop (fun _ => hc), rfl, rfl, rfl, rfl, fun _ _ => rfl, fun _ _ => rfl⟩
    · rw [if_neg hk, rangeLoop]
      exact ⟨s, n + 1, P, [], _, rfl, R, rfl, by simp, by simp, stop (fun h => absurd h hk), rfl, rfl, rfl, rfl, fun _ _ => rfl, fun _ _ => rfl⟩

theorem deleteRange_holds {comp : Compare K} {zk : K} {zv : V} {L : List (K × V)} (h : Holds zk zv s L) (mn mx : K) :
    ∃ s' L' c, deleteRangeByKey comp s mn mx = .ok (s', c) ∧ Holds zk zv s' L' ∧ RangeDeleted comp mn mx L L' c := by
  obtain ⟨n, P, R, rfl, hz1, hz2⟩ := h
  obtain ⟨p, u, f, e, F, c1, c2⟩ := descend_header R (fun x => comp x mn == -1)
  obtain ⟨s', n', P', mid, post, e2, R2, d1, d2, d3, d4, d5, d6, d7, -, -, -⟩ := rangeLoop_ok (comp := comp) mx 0 R F (Nat.le_refl _)
  refine ⟨s', _, mid.length, ?_, ⟨n', P', R2, d2, ?_, ?_⟩, (entries s n P).take p, mid, post, ?_, rfl, rfl, d3, ?_, ?_, d4⟩
  · unfold deleteRangeByKey
    rw [e, Res.bind_ok, R.fwd0 p F.k_le, Res.bind_ok, e2]; simp
  · rw [d5, d6]; exact hz1
  · rw [d5, d7]; exact hz2
  · rw [List.append_assoc, ← d1]; simp
  · intro x hx
    obtain ⟨h1, rfl⟩ := entries_take_last F.k_le hx
    rcases c1 with rfl | c1
    · omega
    · simpa using c1
  · intro x hx
    rw [← d1] at hx
    obtain ⟨h1, rfl⟩ := entries_drop_head hx
    simpa using c2 h1

theorem init_holds (zk : K) (zv : V) (s : St K V) : Holds zk zv (init zk zv s) [] := by
  refine ⟨0, fun _ => s.alloc, ⟨rfl, fun p q h1 h2 _ => by omega, ?_, ?_, ?_, ?_, fun p h1 h2 => by omega, rfl, ?_, fun p h1 h2 => by omega, rfl⟩, rfl, ?_, ?_⟩
  · intro p _; simp [init, newNode]
  · simp [init, newNode, maxLevel]
  · simp [init]
  · simp [init]
  · intro i p q hp hi hq
    have := hq.lt; have := hq.le
    have : q = 1 := by omega
    subst this
    have : p = 0 := by omega
    subst this
    simp [init, newNode]
  · simp [init, newNode]
  · simp [init, newNode]

theorem advance_ok (R : Rep s n P) (i p : Nat) (hp : 1 ≤ p) :
    advance s i (if p ≤ n then some (P p) else none) = .ok (if p + i ≤ n then some (P (p + i)) else none) := by
  induction i generalizing p with
  | zero => rfl
  | succ i ih =>
    by_cases h : p ≤ n
    · rw [if_pos h, advance, next, R.fwd0 p h, Res.bind_ok, ih (p + 1) (by omega), show p + 1 + i = p + (i + 1) by omega]
    · rw [if_neg h, if_neg (by omega), advance]; rfl

theorem nodeAt_ok (R : Rep s n P) (i : Nat) : nodeAt s i = .ok (if i < n then some (P (i + 1)) else none) := by
  unfold nodeAt first
  rw [← R.head, R.fwd0 0 (by omega), Res.bind_ok, advance_ok R i 1 (by omega), show 1 + i = i + 1 by omega]
  rfl

theorem setAt_holds {zk : K} {zv : V} {L : List (K × V)} (h : Holds zk zv s L) (i : Nat) (v : V) :
    ∃ s', (do let x ← nodeAt s i
              match x with
              | none => pure s
              | some x => pure (setValue s x v) : Res (St K V)) = .ok s' ∧
      Holds zk zv s' (L.modify i (fun e => (e.1, v))) := by
  obtain ⟨n, P, R, rfl, hz1, hz2⟩ := h
  rw [nodeAt_ok R, Res.bind_ok]
  by_cases hi : i < n
  · rw [if_pos hi]
    refine ⟨_, rfl, n, P, ⟨R.head, R.inj, R.old, R.hh, R.l1, R.l32, R.ht, R.size, R.link, R.back, R.tail⟩, ?_, hz1, ?_⟩
    · apply List.ext_getElem?
      intro j
      rw [List.getElem?_modify, entries_get?, entries_get?]
      by_cases hj : j < n
      · rw [if_pos hj, if_pos hj]
        simp only [setValue]
        by_cases hij : i = j
        · subst hij; simp
        · have : P (j + 1) ≠ P (i + 1) := by
            intro he; have := R.inj _ _ (by omega) (by omega) he; omega
          simp [this, hij]
      · simp [hj]
    · show (if s.header = P (i + 1) then v else s.val s.header) = zv
      rw [if_neg, hz2]
      intro he; rw [← R.head] at he; have := R.inj _ _ (by omega) (by omega) he; omega
  · rw [if_neg hi]
    refine ⟨s, rfl, n, P, R, ?_, hz1, hz2⟩
    rw [List.modify_eq_self (by rw [entries_length]; omega)]

end

/-! ### Search -/

section
variable {s : St K V} {n : Nat} {P : Nat → Nat}

/-- `search` answers a position with an equal key, or nothing. -/
theorem searchLoop_ok (comp : Compare K) (key : K) (R : Rep s n P) (i : Nat) (hi : i ≤ s.level) (p : Nat) (hp : p ≤ n)
    (hh : ∀ j, j < i → j < s.height (P p)) (hc : p = 0 ∨ comp (s.key (P p)) key ≠ 1) :
    (∃ q, searchLoop comp s key i (P p) p = .ok (some (P q), (q : Int)) ∧ q ≤ n ∧ comp (s.key (P q)) key = 0) ∨
    (searchLoop comp s key i (P p) p = .ok (none, 0) ∧
      (1 ≤ i → ∃ q, q ≤ n ∧ (q = 0 ∨ comp (s.key (P q)) key ≠ 1) ∧ comp (s.key (P q)) key ≠ 0 ∧
        (q + 1 ≤ n → comp (s.key (P (q + 1))) key = 1))) := by
  induction i generalizing p with
  | zero => exact .inr ⟨rfl, by omega⟩
  | succ i ih =>
    obtain ⟨p', e, h1, h2, h3, h4, h5, h6⟩ := walk_ok R i (by omega) (fun k => comp k key != 1) p hp (hh i (by omega))
    have hc' : p' = 0 ∨ comp (s.key (P p')) key ≠ 1 := by
      rcases h5 with rfl | h5
      · exact hc
      · exact .inr (by simpa using h5)
    rw [searchLoop, e, Res.bind_ok]
    by_cases hz : comp (s.key (P p')) key = 0
    · left; exact ⟨p', by simp [hz], h2, hz⟩
    · simp only [if_neg hz]
      rcases ih (by omega) p' h2 (fun j hj => by
        by_cases h0 : p' = 0
        · have := R.hh; have := R.l32; rw [h0, R.head]; omega
        · omega) hc' with h | ⟨h, h'⟩
      · exact .inl h
      · refine .inr ⟨h, fun _ => ?_⟩
        rcases Nat.eq_zero_or_pos i with rfl | hpos
        · refine ⟨p', h2, hc', hz, fun hn => ?_⟩
          have := h4 (p' + 1) (R.next0 p' h2) hn
          simpa using this
        · exact h' hpos

theorem search_ok (comp : Compare K) (key : K) (R : Rep s n P) :
    (∃ q, search comp s key = .ok (some (P q), (q : Int)) ∧ q ≤ n ∧ comp (s.key (P q)) key = 0) ∨
    (search comp s key = .ok (none, 0) ∧
      ∃ q, q ≤ n ∧ (q = 0 ∨ comp (s.key (P q)) key ≠ 1) ∧ comp (s.key (P q)) key ≠ 0 ∧
        (q + 1 ≤ n → comp (s.key (P (q + 1))) key = 1)) := by
  have := searchLoop_ok comp key R s.level (Nat.le_refl _) 0 (by omega)
    (fun j hj => by rw [R.head, R.hh]; have := R.l32; omega) (.inl rfl)
  rw [R.head] at this
  rcases this with h | ⟨h, h'⟩
  · exact .inl h
  · exact .inr ⟨h, h' R.l1⟩

theorem deleteByWholeMapping_holds {comp : Compare K} {zk : K} {zv : V} {L : List (K × V)} (h : Holds zk zv s L) (k : K) (v : V)
    (vc : Compare V) :
    ∃ s' L' b, deleteByWholeMapping comp s k v vc = .ok (s', b) ∧ Holds zk zv s' L' ∧
      (L' = L ∨ ∃ b, Deleted comp k L L' b) ∧
      ((b = true ∧ ∃ r x, search comp s k = .ok (some x, r) ∧ vc v (s.val x) = 0) ∨
       (b = false ∧ s' = s ∧ ∀ r x, search comp s k = .ok (some x, r) → vc v (s.val x) ≠ 0)) := by
  have h' := h
  obtain ⟨n, P, R, rfl, hz1, hz2⟩ := h
  unfold deleteByWholeMapping
  rcases search_ok comp k R with ⟨q, e, -, -⟩ | ⟨e, -⟩
  · rw [e, Res.bind_ok]
    simp only
    by_cases hv : vc v (s.val (P q)) = 0
    · obtain ⟨s', L', b, e', H', D, -⟩ := delete_holds (comp := comp) h' k
      exact ⟨s', L', true, by simp [hv, e'], H', .inr ⟨b, D⟩, .inl ⟨rfl, _, _, rfl, hv⟩⟩
    · refine ⟨s, _, false, by simp [hv], h', .inl rfl, .inr ⟨rfl, rfl, ?_⟩⟩
      intro r x hx
      simp only [Res.ok.injEq, Prod.mk.injEq, Option.some.injEq] at hx
      rw [← hx.1]; exact hv
  · rw [e, Res.bind_ok]
    refine ⟨s, _, false, rfl, h', .inl rfl, .inr ⟨rfl, rfl, by simp⟩⟩

end

/-! ### Histories -/

theorem step_holds {comp : Compare K} {zk : K} {zv : V} {s : St K V} {L : List (K × V)} (h : Holds zk zv s L) (op : Op K V) :
    ∃ s' L', step comp zk zv s op = .ok s' ∧ Holds zk zv s' L' ∧ Effect comp L op L' := by
  cases op with
  | put k v d =>
    obtain ⟨s', L', e, H, I⟩ := insert_holds (comp := comp) h k v true d
    exact ⟨s', L', by simp [step, insertUnique, e], H, I⟩
  | insertUnique k v d =>
    obtain ⟨s', L', e, H, I⟩ := insert_holds (comp := comp) h k v true d
    exact ⟨s', L', by simp [step, insertUnique, e], H, I⟩
  | insertEquals k v d =>
    obtain ⟨s', L', e, H, I⟩ := insert_holds (comp := comp) h k v false d
    exact ⟨s', L', by simp [step, insertEquals, e], H, I⟩
  | delete k =>
    obtain ⟨s', L', b, e, H, D, -⟩ := delete_holds (comp := comp) h k
    exact ⟨s', L', by simp [step, e], H, b, D⟩
  | deleteByWholeMapping k v c =>
    obtain ⟨s', L', b, e, H, D, -⟩ := deleteByWholeMapping_holds (comp := comp) h k v c
    exact ⟨s', L', by simp [step, e], H, D⟩
  | deleteKeys ks =>
    obtain ⟨s', L', m, e, H, D, -⟩ := deleteKeys_holds (comp := comp) ks 0 h
    exact ⟨s', L', by simp [step, e], H, m, D⟩
  | deleteRange mn mx =>
    obtain ⟨s', L', c, e, H, D⟩ := deleteRange_holds (comp := comp) h mn mx
    exact ⟨s', L', by simp [step, e], H, c, D⟩
  | clear => exact ⟨_, [], rfl, init_holds zk zv s, rfl⟩
  | setAt i v =>
    obtain ⟨s', e, H⟩ := setAt_holds h i v
    exact ⟨s', _, e, H, rfl⟩

theorem run_holds {comp : Compare K} {zk : K} {zv : V} (ops : List (Op K V)) {s : St K V} {L : List (K × V)} (h : Holds zk zv s L) :
    ∃ s' L', run comp zk zv s ops = .ok s' ∧ Holds zk zv s' L' ∧ Effects comp ops L L' := by
  induction ops generalizing s L with
  | nil => exact ⟨s, L, rfl, h, .nil _⟩
  | cons op ops ih =>
    obtain ⟨s1, L1, e1, H1, E1⟩ := step_holds (comp := comp) h op
    obtain ⟨s2, L2, e2, H2, E2⟩ := ih H1
    exact ⟨s2, L2, by rw [run, e1, Res.bind_ok, e2], H2, .cons E1 E2⟩

end Gds.SkipList
