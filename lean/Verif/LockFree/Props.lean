import Verif.LockFree.LockFree
import Verif.LockFree.Elements
import Verif.LockFree.Sched

/-!
Properties C53–C56 and C80–C82 of the lock-free skip list.

A run (`IsRun`) is any interleaving of the atomic accesses of any number of goroutines, with any coin flips; instant `k`
is the state before step `k`.
-/

namespace Gds.LockFree
variable {T : Type _} {cmp : Compare T} {zero : T} {tr : Nat → St T} {lab : Nat → Label T} {n : Nat}

/-! ### C53 -/

/-- C53: every run is linearizable (Herlihy–Wing, see `Linearization`) with respect to a sequential set with `Add`, `Del`,
    `Has` and `Get`; the set the sequential history ends with is the one in the list. -/
theorem linearizable (hc : cmp.Lawful) (hr : IsRun cmp zero tr lab n) :
    ∃ L, Linearization cmp zero lab n L (Contains cmp (tr n).mem) := ⟨_, linearization hc hr⟩

/-- C53: what `Add` returns.  `true`: one step of the call inserted the absent value and no other step of the call
    changed the set; `false`: the call changed nothing and the value was in the set at some instant of the call. -/
theorem add_result (hc : cmp.Lawful) (hr : IsRun cmp zero tr lab n) {i t r : Nat} {v : T} {o : Out T}
    (hi : lab i = .call t (.add v)) (hret : Returned lab n i t o r) :
    ∃ b, o = .bool b ∧
      (b = true → ∃ j, i < j ∧ j < r ∧ (lab j).tid = t ∧
        ¬ Contains cmp (tr j).mem v ∧ (∀ w, Contains cmp (tr (j + 1)).mem w ↔ Contains cmp (tr j).mem w ∨ cmp v w = 0) ∧
        ∀ j', i < j' → j' < r → j' ≠ j → (lab j').tid = t → ∀ w, Contains cmp (tr (j' + 1)).mem w ↔ Contains cmp (tr j').mem w) ∧
      (b = false → (∃ j, i < j ∧ j ≤ r ∧ Contains cmp (tr j).mem v) ∧
        ∀ j', i < j' → j' < r → (lab j').tid = t → ∀ w, Contains cmp (tr (j' + 1)).mem w ↔ Contains cmp (tr j').mem w) := by
  have h := returned hc hr hi hret.lt hret.le hret.ret hret.first
  cases o with
  | bool b =>
    refine ⟨b, rfl, ?_, ?_⟩
    · rintro rfl
      obtain ⟨j, h1, h2, h3, h4, h5⟩ := h
      exact ⟨j, by omega, h2, h3, h4.1, h4.2, fun j' a b c d => h5 j' (by omega) b c d⟩
    · rintro rfl
      obtain ⟨h1, j, h2, h3, h4⟩ := h
      exact ⟨⟨j, by omega, h3, h4⟩, fun j' a b c => h1 j' (by omega) b c⟩
  | val w => exact absurd h id
  | num w => exact absurd h id

/-- C53: what `Del` returns.  `true`: one step of the call removed the value, which was present, and no other step of the
    call changed the set; `false`: the call changed nothing and the value was absent at some instant of the call. -/
theorem del_result (hc : cmp.Lawful) (hr : IsRun cmp zero tr lab n) {i t r : Nat} {v : T} {o : Out T}
    (hi : lab i = .call t (.del v)) (hret : Returned lab n i t o r) :
    ∃ b, o = .bool b ∧
      (b = true → ∃ j, i < j ∧ j < r ∧ (lab j).tid = t ∧
        Contains cmp (tr j).mem v ∧ (∀ w, Contains cmp (tr (j + 1)).mem w ↔ Contains cmp (tr j).mem w ∧ cmp v w ≠ 0) ∧
        ∀ j', i < j' → j' < r → j' ≠ j → (lab j').tid = t → ∀ w, Contains cmp (tr (j' + 1)).mem w ↔ Contains cmp (tr j').mem w) ∧
      (b = false → (∃ j, i < j ∧ j ≤ r ∧ ¬ Contains cmp (tr j).mem v) ∧
        ∀ j', i < j' → j' < r → (lab j').tid = t → ∀ w, Contains cmp (tr (j' + 1)).mem w ↔ Contains cmp (tr j').mem w) := by
  have h := returned hc hr hi hret.lt hret.le hret.ret hret.first
  cases o with
  | bool b =>
    refine ⟨b, rfl, ?_, ?_⟩
    · rintro rfl
      obtain ⟨j, h1, h2, h3, h4, h5⟩ := h
      exact ⟨j, by omega, h2, h3, h4.1, h4.2, fun j' a b c d => h5 j' (by omega) b c d⟩
    · rintro rfl
      obtain ⟨h1, j, h2, h3, h4⟩ := h
      exact ⟨⟨j, by omega, h3, h4⟩, fun j' a b c => h1 j' (by omega) b c⟩
  | val w => exact absurd h id
  | num w => exact absurd h id

/-- C53: `Has` reports whether the value was in the set at some instant of the call, and changes nothing. -/
theorem has_result (hc : cmp.Lawful) (hr : IsRun cmp zero tr lab n) {i t r : Nat} {v : T} {o : Out T}
    (hi : lab i = .call t (.has v)) (hret : Returned lab n i t o r) :
    ∃ b, o = .bool b ∧ (∃ j, i < j ∧ j ≤ r ∧ (b = true ↔ Contains cmp (tr j).mem v)) ∧
      ∀ j', i < j' → j' < r → (lab j').tid = t → ∀ w, Contains cmp (tr (j' + 1)).mem w ↔ Contains cmp (tr j').mem w := by
  have h := returned hc hr hi hret.lt hret.le hret.ret hret.first
  cases o with
  | bool b =>
    obtain ⟨h1, j, h2, h3, h4⟩ := h
    exact ⟨b, rfl, ⟨j, by omega, h3, h4⟩, fun j' a b c => h1 j' (by omega) b c⟩
  | val w => exact absurd h id
  | num w => exact absurd h id

/-! ### C54 -/

/-- C54: at every instant the bottom level leads from the head to the tail through strictly increasing values, and the
    unmarked nodes met are exactly the elements. -/
theorem bottom_sorted (hc : cmp.Lawful) (hr : IsRun cmp zero tr lab n) {k : Nat} (hk : k ≤ n) :
    ∃ P : List Nat, Walk (tr k).mem 0 headA P tailA ∧ (P.map (tr k).mem.val).Pairwise (fun a b => cmp a b < 0) ∧
      ∀ v, Contains cmp (tr k).mem v ↔ ∃ x ∈ P, ¬ Mk (tr k).mem x ∧ cmp ((tr k).mem.val x) v = 0 := by
  obtain ⟨P, h1, h2, h3, -⟩ := bottom hc (RInv.all hc hr k hk).mem
  refine ⟨P, h1, h2, fun v => ⟨?_, ?_⟩⟩
  · rintro ⟨a, ha, hv⟩
    exact ⟨a, ((h3 a).1 ha).1, ((h3 a).1 ha).2, hv⟩
  · rintro ⟨a, ha, hu, hv⟩
    exact ⟨a, (h3 a).2 ⟨ha, hu⟩, hv⟩

/-- C54: the elements form a finite set without duplicates, at every instant. -/
theorem elements (hc : cmp.Lawful) (hr : IsRun cmp zero tr lab n) {k : Nat} (hk : k ≤ n) : ∃ l, Elements cmp (tr k).mem l := by
  obtain ⟨L, -, -, h⟩ := elements_exists hc (RInv.all hc hr k hk).mem
  exact ⟨_, h⟩

/-- C54: only `Add(v)` and `Del(v)` calls in progress change the set, by exactly `v`. -/
theorem set_changes (hc : cmp.Lawful) (hr : IsRun cmp zero tr lab n) {k : Nat} (hk : k < n) :
    (∀ w, Contains cmp (tr (k + 1)).mem w ↔ Contains cmp (tr k).mem w) ∨
    ∃ i t v, lab k = .tau t ∧
      ((InProgress lab k i t (.add v) ∧ ¬ Contains cmp (tr k).mem v ∧
          ∀ w, Contains cmp (tr (k + 1)).mem w ↔ Contains cmp (tr k).mem w ∨ cmp v w = 0) ∨
       (InProgress lab k i t (.del v) ∧ Contains cmp (tr k).mem v ∧
          ∀ w, Contains cmp (tr (k + 1)).mem w ↔ Contains cmp (tr k).mem w ∧ cmp v w ≠ 0)) := by
  by_cases h : Keeps cmp (tr k).mem (tr (k + 1)).mem
  · exact .inl h
  · obtain ⟨i, t, op, h1, h2, h3, h4, h5⟩ := change hc hr hk h
    right
    cases op with
    | add v => exact ⟨i, t, v, h2, .inl ⟨⟨h1, h3, h4⟩, h5.1, h5.2⟩⟩
    | del v => exact ⟨i, t, v, h2, .inr ⟨⟨h1, h3, h4⟩, h5.1, h5.2⟩⟩
    | has v => exact absurd h5 id
    | get v => exact absurd h5 id
    | rank v => exact absurd h5 id
    | len => exact absurd h5 id

/-- C54: the list starts empty. -/
theorem starts_empty (hr : IsRun cmp zero tr lab n) (v : T) : ¬ Contains cmp (tr 0).mem v := by
  rw [hr.start]; exact not_contains_new v

/-! ### C55 -/

theorem cnt_mem (L : List Nat) (N : Nat) : cnt (fun x => x ∈ L) N ≤ L.length := by
  induction L with
  | nil =>
    induction N with
    | zero => exact Nat.le_refl _
    | succ N ih => simp only [cnt]; rw [if_neg (by simp)]; exact ih
  | cons a L ih =>
    have h1 : ∀ N, cnt (fun x => x ∈ a :: L) N ≤ cnt (fun x => x ∈ L) N + cnt (fun x => x = a) N := by
      intro N
      induction N with
      | zero => exact Nat.le_refl _
      | succ N ih =>
        simp only [cnt]
        by_cases e1 : N = a
        · rw [if_pos e1]; split <;> split <;> omega
        · by_cases e2 : N ∈ L
          · rw [if_pos e2]; split <;> omega
          · rw [if_neg (by simp [e1, e2])]; omega
    have h2 : ∀ N, cnt (fun x => x = a) N ≤ if N ≤ a then 0 else 1 := by
      intro N
      induction N with
      | zero => simp [cnt]
      | succ N ih =>
        simp only [cnt]
        by_cases e1 : N = a
        · subst e1
          rw [if_pos (Nat.le_refl _)] at ih
          rw [if_pos rfl, if_neg (by omega)]; omega
        · rw [if_neg e1]
          by_cases e2 : N ≤ a
          · rw [if_pos e2] at ih; rw [if_pos (by omega)]; exact ih
          · rw [if_neg e2] at ih; rw [if_neg (by omega)]; exact ih
    have h3 := h1 N
    have h4 := h2 N
    have : (if N ≤ a then 0 else 1) ≤ 1 := by split <;> omega
    rw [List.length_cons]; omega

theorem sumTo_bounds {f : Nat → Int} {P Q : Nat → Prop} (h1 : ∀ u, f u ≤ 1) (h2 : ∀ u, -1 ≤ f u) (h3 : ∀ u, 0 < f u → P u) (h4 : ∀ u, f u < 0 → Q u) :
    ∀ N, sumTo f N ≤ cnt P N ∧ -(cnt Q N : Int) ≤ sumTo f N := by
  intro N
  induction N with
  | zero => simp [sumTo, cnt]
  | succ N ih =>
    have a1 := h1 N
    have a2 := h2 N
    have a3 := h3 N
    have a4 := h4 N
    simp only [sumTo, cnt]
    refine ⟨?_, ?_⟩
    · by_cases e : P N
      · rw [if_pos e]; omega
      · rw [if_neg e]
        have : ¬ 0 < f N := fun h => e (a3 h)
        omega
    · by_cases e : Q N
      · rw [if_pos e]; omega
      · rw [if_neg e]
        have : ¬ f N < 0 := fun h => e (a4 h)
        omega

theorem pend_inProgress (hc : cmp.Lawful) (hr : IsRun cmp zero tr lab n) {k : Nat} (hk : k ≤ n) (u : Nat) :
    ((tr k).pc u).pend ≤ 1 ∧ -1 ≤ ((tr k).pc u).pend ∧ (0 < ((tr k).pc u).pend → ∃ i v, InProgress lab k i u (.add v)) ∧
    (((tr k).pc u).pend < 0 → ∃ i v, InProgress lab k i u (.del v)) := by
  cases hp : (tr k).pc u with
  | idle => simp [Pc.pend]
  | run op c =>
    have hct := (RInv.all hc hr k hk).ctl u op c hp
    obtain ⟨i, h1, h2, h3⟩ := called hr k hk c hp
    have hadd : ∀ v, op = .add v → ∃ i v, InProgress lab k i u (.add v) := by rintro v rfl; exact ⟨i, v, h1, h2, h3⟩
    have hdel : ∀ v, op = .del v → ∃ i v, InProgress lab k i u (.del v) := by rintro v rfl; exact ⟨i, v, h1, h2, h3⟩
    simp only [Pc.pend]
    cases c with
    | find f kt =>
      cases kt with
      | addUp nn top level => exact ⟨by simp [pend], by simp [pend], fun _ => hadd _ hct.2.1, fun h => by simp [pend] at h⟩
      | _ => simp [pend]
    | addUp f nn top level => exact ⟨by simp [pend], by simp [pend], fun _ => hadd _ hct.1, fun h => by simp [pend] at h⟩
    | addSize => obtain ⟨v, e, -⟩ := hct; exact ⟨by simp [pend], by simp [pend], fun _ => hadd _ e, fun h => by simp [pend] at h⟩
    | delSize => obtain ⟨v, e, -⟩ := hct; exact ⟨by simp [pend], by simp [pend], fun h => by simp [pend] at h, fun _ => hdel _ e⟩
    | _ => simp [pend]

/-- C55: at every instant the counter is at most behind by the number of goroutines inside `Add` and at most ahead by the number
    of goroutines inside `Del`. -/
theorem size_bounds (hc : cmp.Lawful) (hr : IsRun cmp zero tr lab n) {k : Nat} (hk : k ≤ n) {l : List T} {LA LD : List Nat}
    (hl : Elements cmp (tr k).mem l) (hA : ∀ i t v, InProgress lab k i t (.add v) → t ∈ LA) (hD : ∀ i t v, InProgress lab k i t (.del v) → t ∈ LD)
    (hbig : l.length + LA.length + LD.length < 2 ^ 31) :
    (l.length : Int) - LA.length ≤ (tr k).mem.size.toInt ∧ (tr k).mem.size.toInt ≤ l.length + LD.length := by
  obtain ⟨L, h1, h2, h3⟩ := size_inv hc hr k hk
  have hlen : l.length = L.length := by
    obtain ⟨L', g1, g2, g3⟩ := elements_exists hc (RInv.all hc hr k hk).mem
    rw [hl.length hc g3, List.length_map]
    exact ((List.perm_ext_iff_of_nodup g1 h1).2 fun x => (g2 x).trans (h2 x).symm).length_eq
  have hb := sumTo_bounds (f := fun t => ((tr k).pc t).pend) (P := fun x => x ∈ LA) (Q := fun x => x ∈ LD)
    (fun u => (pend_inProgress hc hr hk u).1) (fun u => (pend_inProgress hc hr hk u).2.1)
    (fun u h => by obtain ⟨i, v, g⟩ := (pend_inProgress hc hr hk u).2.2.1 h; exact hA i u v g)
    (fun u h => by obtain ⟨i, v, g⟩ := (pend_inProgress hc hr hk u).2.2.2 h; exact hD i u v g) (bound lab n)
  have c1 := cnt_mem LA (bound lab n)
  have c2 := cnt_mem LD (bound lab n)
  rw [h3]
  generalize sumTo (fun t => ((tr k).pc t).pend) (bound lab n) = S at hb ⊢
  rw [BitVec.toInt_ofInt, ← hlen]
  rw [Int.bmod_eq_of_le] <;> omega

/-- C55: what `Len` returns is the counter at some instant of the call. -/
theorem len_result (hc : cmp.Lawful) (hr : IsRun cmp zero tr lab n) {i t r : Nat} {o : Out T}
    (hi : lab i = .call t .len) (hret : Returned lab n i t o r) : ∃ j, i < j ∧ j ≤ r ∧ o = .num (tr j).mem.size.toInt := by
  have h := returned hc hr hi hret.lt hret.le hret.ret hret.first
  cases o with
  | num z => obtain ⟨-, j, h2, h3, h4⟩ := h; exact ⟨j, by omega, h3, by rw [h4]⟩
  | bool w => exact absurd h id
  | val w => exact absurd h id

/-- The set does not change while no `Add` or `Del` is in progress. -/
theorem quiet_keeps (hc : cmp.Lawful) (hr : IsRun cmp zero tr lab n) {j r : Nat} (hjr : j ≤ r) (hrn : r ≤ n)
    (hq : ∀ k, j ≤ k → k ≤ r → ∀ i t op, InProgress lab k i t op → ¬ op.isWrite) : ∀ w, Contains cmp (tr r).mem w ↔ Contains cmp (tr j).mem w := by
  induction r with
  | zero => have : j = 0 := by omega
            subst this; exact fun _ => Iff.rfl
  | succ r ih =>
    by_cases e : j = r + 1
    · subst e; exact fun _ => Iff.rfl
    · intro w
      rw [← ih (by omega) (by omega) (fun k h1 h2 => hq k h1 (by omega)) w]
      rcases set_changes hc hr (show r < n by omega) with h | ⟨i, t, v, -, ⟨h, -⟩ | ⟨h, -⟩⟩
      · exact h w
      · exact absurd trivial (hq r (by omega) (by omega) i t _ h)
      · exact absurd trivial (hq r (by omega) (by omega) i t _ h)

/-- C55: a `Len` call during which no `Add` or `Del` is in progress returns the number of elements (if that fits an `int32`). -/
theorem len_quiescent (hc : cmp.Lawful) (hr : IsRun cmp zero tr lab n) {i t r : Nat} {o : Out T}
    (hi : lab i = .call t .len) (hret : Returned lab n i t o r)
    (hq : ∀ k, i < k → k ≤ r → ∀ i' t' op, InProgress lab k i' t' op → ¬ op.isWrite)
    {l : List T} (hl : Elements cmp (tr r).mem l) (hbig : l.length < 2 ^ 31) : o = .num l.length := by
  obtain ⟨j, h1, h2, h3⟩ := len_result hc hr hi hret
  have hrn := hret.le
  have hk := quiet_keeps hc hr h2 (by omega) fun k g1 g2 => hq k (by omega) g2
  have hl' : Elements cmp (tr j).mem l := ⟨hl.sorted, fun v => (hk v).symm.trans (hl.mem v)⟩
  have := size_bounds hc hr (k := j) (by omega) (LA := []) (LD := []) hl'
    (fun i' t' v g => absurd trivial (hq j h1 h2 i' t' _ g)) (fun i' t' v g => absurd trivial (hq j h1 h2 i' t' _ g)) (by simpa using hbig)
  rw [h3]
  simp only [List.length_nil] at this
  congr 1; omega

/-! ### C56 -/

/-- C56: the height of a new node is between 1 and 20, whatever the coin flips. -/
theorem randomLevel_range (coin : Nat → Bool) : 1 ≤ randomLevel coin ∧ randomLevel coin ≤ 20 :=
  ⟨randomLevel_pos coin, randomLevel_le coin⟩

/-- C56: every height from 1 to 20 is possible. -/
theorem randomLevel_onto {h : Nat} (h1 : 1 ≤ h) (h2 : h ≤ 20) : ∃ coin, randomLevel coin = h := by
  refine ⟨fun l => decide (l < h), ?_⟩
  have key : ∀ k level, level ≤ h → h ≤ level + k → randomLevelLoop (fun l => decide (l < h)) k level = h := by
    intro k
    induction k with
    | zero => intro level a b; simp only [randomLevelLoop]; omega
    | succ k ih =>
      intro level a b
      simp only [randomLevelLoop]
      by_cases e : level < h
      · rw [if_pos (by simpa using e)]; exact ih _ (by omega) (by omega)
      · rw [if_neg (by simpa using e)]; omega
  exact key _ 1 h1 (by simp only [maxLevel]; omega)

/-- C56: `Get(v)` returns the stored element that was, at some instant of the call, the least one not below `v`; or the zero
    value if there was none.  It changes nothing. -/
theorem get_result (hc : cmp.Lawful) (hr : IsRun cmp zero tr lab n) {i t r : Nat} {v : T} {o : Out T}
    (hi : lab i = .call t (.get v)) (hret : Returned lab n i t o r) :
    (∃ j w, i < j ∧ j ≤ r ∧ o = .val w ∧
      ((∃ a, Live (tr j).mem a ∧ (tr j).mem.val a = w ∧ 0 ≤ cmp w v ∧ ∀ x, Contains cmp (tr j).mem x → 0 ≤ cmp x v → cmp w x ≤ 0) ∨
       ((∀ x, Contains cmp (tr j).mem x → cmp x v < 0) ∧ w = zero))) ∧
    ∀ j', i < j' → j' < r → (lab j').tid = t → ∀ w, Contains cmp (tr (j' + 1)).mem w ↔ Contains cmp (tr j').mem w := by
  have h := returned hc hr hi hret.lt hret.le hret.ret hret.first
  have hrn := hret.le
  cases o with
  | val w =>
    obtain ⟨h1, j, c, h2, h3, h4, h5⟩ := h
    refine ⟨⟨j, w, by omega, h3, rfl, ?_⟩, fun j' a b c => h1 j' (by omega) b c⟩
    have htail : (tr j).mem.val tailA = zero := by
      obtain ⟨g1, g2, g3⟩ := (RInv.all hc hr j (by omega)).hist 0 (by omega)
      rw [g3 tailA g1.tail_lt, hr.start]; exact new_val zero tailA
    subst h5
    rcases (ceil_seq hc zero h4 htail).1 with ⟨-, g1, g2⟩ | g
    · rcases h4.elem with e | e
      · rw [e]
        rcases (ceil_seq hc zero h4 htail).1 with ⟨g, -⟩ | ⟨-, g⟩
        · right
          refine ⟨fun x hx => ?_, htail⟩
          obtain ⟨d, hd, hdx⟩ := hx
          by_contra hcon
          have hnb : ¬ Below cmp (tr j).mem d v := by
            rintro (q | ⟨-, q⟩)
            · exact hd.ne_head q
            · have := hc.zero_symm hdx
              exact hcon (hc.lt_of_le_of_lt (by omega) q)
          have := h4.least d hd hnb (by rw [e]; exact hd.ne_tail)
          exact this.1 e
        · right
          refine ⟨fun x hx => ?_, htail⟩
          obtain ⟨d, hd, hdx⟩ := hx
          by_contra hcon
          have hnb : ¬ Below cmp (tr j).mem d v := by
            rintro (q | ⟨-, q⟩)
            · exact hd.ne_head q
            · have := hc.zero_symm hdx
              exact hcon (hc.lt_of_le_of_lt (by omega) q)
          have := h4.least d hd hnb (by rw [e]; exact hd.ne_tail)
          exact this.1 e
      · exact .inl ⟨c, e, rfl, g1, g2⟩
    · exact .inr g
  | bool w => exact absurd h id
  | num w => exact absurd h id

/-- The position of `v` among the elements, which one might expect `Rank` to return. -/
def RankIsPosition (cmp : Compare T) (zero : T) : Prop :=
  ∀ tr lab n, IsRun cmp zero tr lab n → ∀ i t r v z, lab i = .call t (.rank v) → Returned lab n i t (.num z) r →
    (∀ k, i < k → k ≤ r → ∀ i' t' op, InProgress lab k i' t' op → ¬ op.isWrite) →
    ∀ l, Elements cmp (tr r).mem l → 2 ≤ l.length → z = 1 + (l.filter fun w => decide (cmp w v < 0)).length

/-! ### C80–C82 -/

/-- C80: no method ever panics (no nil pointer and no tagged pointer is dereferenced, no index is out of range). -/
theorem never_panics (hc : cmp.Lawful) (hr : IsRun cmp zero tr lab n) {k : Nat} (hk : k ≤ n) (t : Nat) (op : Op T) (e : Panic) :
    (tr k).pc t ≠ .run op (.panicked e) := fun h => (RInv.all hc hr k hk).ctl t op _ h

/-- C80: a goroutine inside a method always has a next step: nobody waits for anybody. -/
theorem never_blocks (hc : cmp.Lawful) (hr : IsRun cmp zero tr lab n) {k : Nat} (hk : k ≤ n) {t : Nat} {op : Op T} {c : Ctl T}
    (h : (tr k).pc t = .run op c) : ∃ l s, l.tid = t ∧ Step cmp (tr k) l s := by
  by_cases hret : ∃ o, c = .ret o
  · obtain ⟨o, rfl⟩ := hret
    exact ⟨.ret t o, _, rfl, .ret _ t op o h⟩
  · refine ⟨.tau t, _, rfl, .tau (tr k) t op c (fun _ => false) h (fun o e => hret ⟨o, e⟩) fun e he => ?_⟩
    subst he
    exact never_panics hc hr hk t op e h

/-- C81: lock-freedom.  In every infinite run of finitely many goroutines, calls return again and again: no schedule makes all
    the goroutines spin forever. -/
theorem lock_free (hc : cmp.Lawful) (hr : ∀ n, IsRun cmp zero tr lab n) (N : Nat) (hN : ∀ k, (lab k).tid < N) (K : Nat) :
    ∃ r, K ≤ r ∧ ∃ t o, lab r = .ret t o := by
  by_contra hcon
  refine lock_free_aux hc hr N hN K fun r hr' t o h => hcon ⟨r, hr', t, o, h⟩

/-- C82: at every instant every level leads from the head to the tail through allocated nodes with non-decreasing values. -/
theorem levels_sorted (hc : cmp.Lawful) (hr : IsRun cmp zero tr lab n) {k : Nat} (hk : k ≤ n) {l : Nat} (hl : l < 20) :
    ∃ P : List Nat, Walk (tr k).mem l headA P tailA ∧ P.Nodup ∧ (P.map (tr k).mem.val).Pairwise (fun a b => cmp a b ≤ 0) ∧
      ∀ x ∈ P, x < (tr k).mem.alloc ∧ x ≠ headA ∧ x ≠ tailA := by
  obtain ⟨P, h1, h2, h3⟩ := walk_head hc (RInv.all hc hr k hk).mem (l := l) hl
  refine ⟨P, h1, h2.imp fun {a b} h e => by subst e; exact h.irrefl hc, List.pairwise_map.2 (h2.imp_of_mem fun {a b} ha hb h => ?_), h3⟩
  rcases h with h | h
  · rcases h.2.2 with e | e | e
    · exact absurd e (h3 a ha).2.1
    · exact absurd e (h3 b hb).2.2
    · exact Int.le_of_lt e
  · omega

end Gds.LockFree
