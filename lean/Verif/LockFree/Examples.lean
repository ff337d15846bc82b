import Verif.LockFree.Props

/-! Concrete runs: what `Rank` does not return, a negative `Len`, `Get` of an absent value; and for each theorem of
    `Props` a run that meets its hypotheses. -/

namespace Gds.LockFree
variable {T : Type _} {cmp : Compare T} {zero : T} {tr : Nat → St T} {lab : Nat → Label T} {n : Nat}

theorem Walk.unique {m : Mem T} {l b : Nat} (hb : (m.next b l).addr = none) :
    ∀ {a : Nat} {P Q : List Nat}, Walk m l a P b → Walk m l a Q b → P = Q := by
  intro a P
  induction P generalizing a with
  | nil =>
    intro Q h1 h2
    cases Q with
    | nil => rfl
    | cons c Q =>
      have e : b = c := Option.some.inj (h1.symm.trans h2.1)
      subst e
      have h3 := h2.2
      cases Q with
      | nil => simp only [Walk] at h3; rw [hb] at h3; cases h3
      | cons d Q => have h4 := h3.1; rw [hb] at h4; cases h4
  | cons c P ih =>
    intro Q h1 h2
    cases Q with
    | nil =>
      have e : b = c := Option.some.inj (Eq.trans (Eq.symm h2) h1.1)
      subst e
      have h3 := h1.2
      cases P with
      | nil => simp only [Walk] at h3; rw [hb] at h3; cases h3
      | cons d P => have h4 := h3.1; rw [hb] at h4; cases h4
    | cons d Q =>
      have e : c = d := Option.some.inj (h1.1.symm.trans h2.1)
      subst e
      rw [ih h1.2 h2.2]

/-- The elements can be read off the bottom level. -/
theorem elements_of_walk (hc : cmp.Lawful) (hr : IsRun cmp zero tr lab n) {k : Nat} (hk : k ≤ n) {P : List Nat} (hP : Walk (tr k).mem 0 headA P tailA)
    (ht : ((tr k).mem.next tailA 0).addr = none) (hu : ∀ x ∈ P, ((tr k).mem.next x 0).mark = false) :
    Elements cmp (tr k).mem (P.map (tr k).mem.val) := by
  obtain ⟨Q, h1, h2, h3⟩ := bottom_sorted hc hr hk
  have : P = Q := hP.unique ht h1
  subst this
  refine ⟨h2, fun v => (h3 v).trans ⟨?_, ?_⟩⟩
  · rintro ⟨x, hx, -, he⟩; exact ⟨_, List.mem_map_of_mem hx, he⟩
  · rintro ⟨w, hw, he⟩
    obtain ⟨x, hx, rfl⟩ := List.mem_map.1 hw
    exact ⟨x, hx, by simp [Mk, hu x hx], he⟩

instance (m : Mem T) (l : Nat) : ∀ (P : List Nat) (a b : Nat), Decidable (Walk m l a P b)
  | [], a, b => inferInstanceAs (Decidable ((m.next a l).addr = some b))
  | c :: P, a, b =>
    have := instDecidableWalk m l P c b
    inferInstanceAs (Decidable ((m.next a l).addr = some c ∧ Walk m l c P b))

deriving instance DecidableEq for Label

def Op.isWriteB : Op T → Bool
  | .add _ | .del _ => true
  | _ => false

theorem Op.isWriteB_iff (op : Op T) : op.isWriteB = true ↔ op.isWrite := by cases op <;> simp [Op.isWriteB, Op.isWrite]

/-- The goroutines inside `Add` or `Del` at instant `k`. -/
def writers (lab : Nat → Label T) : Nat → List Nat
  | 0 => []
  | k + 1 => match lab k with
    | .call t op => if op.isWriteB then t :: writers lab k else writers lab k
    | .ret t _ => (writers lab k).filter (· ≠ t)
    | .tau _ => writers lab k

theorem mem_writers {i t : Nat} {op : Op T} (hw : op.isWrite) : ∀ k, InProgress lab k i t op → t ∈ writers lab k := by
  intro k
  induction k with
  | zero => intro h; exact absurd h.lt (by omega)
  | succ k ih =>
    intro h
    by_cases e : i = k
    · subst e
      simp only [writers, h.call]
      rw [if_pos ((Op.isWriteB_iff op).2 hw)]
      exact List.mem_cons_self ..
    · have hlt := h.lt
      have h' := ih ⟨by omega, h.call, fun x h1 h2 => h.open_ x h1 (by omega)⟩
      simp only [writers]
      cases hl : lab k with
      | call t' op' => simp only; split <;> simp [h']
      | tau t' => exact h'
      | ret t' o' =>
        refine List.mem_filter.2 ⟨h', ?_⟩
        have := h.open_ k (by omega) (by omega) o'
        rw [hl] at this
        simp only [ne_eq, decide_not, Bool.not_eq_eq_eq_not, Bool.not_true, decide_eq_false_iff_not]
        rintro rfl; exact this rfl

/-- The states and labels of a schedule. -/
def runOf (zero : T) (cmp : Compare T) (as : List (Act T)) : List (Label T × St T) := (play cmp (St.init zero) as).getD []
def trOf (zero : T) (cmp : Compare T) (as : List (Act T)) : Nat → St T := stateAt (St.init zero) (runOf zero cmp as)
def labOf (zero : T) (cmp : Compare T) (as : List (Act T)) : Nat → Label T := labelAt (runOf zero cmp as)

theorem runOf_isRun {as : List (Act T)} (h : (play cmp (St.init zero) as).isSome = true) :
    IsRun cmp zero (trOf zero cmp as) (labOf zero cmp as) as.length := by
  obtain ⟨r, hr⟩ := Option.isSome_iff_exists.1 h
  have := play_run hr
  simpa [trOf, labOf, runOf, hr] using this

def Label.isRetOf (t : Nat) : Label T → Bool
  | .ret t' _ => decide (t' = t)
  | _ => false

instance [DecidableEq T] (lab : Nat → Label T) (n i t : Nat) (o : Out T) (r : Nat) : Decidable (Returned lab n i t o r) :=
  decidable_of_iff (i < r ∧ r < n ∧ lab r = .ret t o ∧ ∀ x, x < r → i < x → (lab x).isRetOf t = false) <| by
    constructor
    · rintro ⟨h1, h2, h3, h4⟩
      refine ⟨h1, h2, h3, fun x a b o' e => ?_⟩
      have := h4 x b a
      rw [e] at this
      simp [Label.isRetOf] at this
    · rintro ⟨h1, h2, h3, h4⟩
      refine ⟨h1, h2, h3, fun x a b => ?_⟩
      have := h4 x b a
      cases e : lab x with
      | ret t' o' =>
        simp only [Label.isRetOf, decide_eq_false_iff_not]
        rintro rfl; exact this o' e
      | _ => rfl

/-! ### `Rank` -/

/-- Add 1 (height 1), 2 (height 2) and 3 (height 1), then ask for the rank of 3. -/
def rankSchedule : List (Act Nat) :=
  wholeOf 0 (.add 1) 43 1 ++ wholeOf 0 (.add 2) 45 2 ++ wholeOf 0 (.add 3) 44 1 ++ wholeOf 0 (.rank 3) 42 1

theorem rankSchedule_run : IsRun Fn.comp 0 (trOf 0 Fn.comp rankSchedule) (labOf 0 Fn.comp rankSchedule) 182 :=
  runOf_isRun (as := rankSchedule) (by decide +kernel)

/-- C56: `Rank` is not the position of the element: it counts the nodes the search moves over. -/
theorem rank_is_position_refuted : ¬ RankIsPosition Fn.comp (0 : Nat) := by
  intro h
  have hl : Elements Fn.comp (trOf 0 Fn.comp rankSchedule 181).mem ([2, 3, 4].map (trOf 0 Fn.comp rankSchedule 181).mem.val) :=
    elements_of_walk Fn.comp_strict.toLawful rankSchedule_run (by decide) (by decide +kernel) (by decide +kernel) (by decide +kernel)
  have e : [2, 3, 4].map (trOf 0 Fn.comp rankSchedule 181).mem.val = [1, 2, 3] := by decide +kernel
  rw [e] at hl
  have hw : ∀ k, k ≤ 181 → 138 < k → writers (labOf 0 Fn.comp rankSchedule) k = [] := by decide +kernel
  have := h _ _ _ rankSchedule_run 138 0 181 3 2 (by decide +kernel) (by decide +kernel)
    (fun k h1 h2 i t op g w => by have := mem_writers w k g; rw [hw k h2 h1] at this; cases this) _ hl (by decide)
  revert this
  decide +kernel

/-! ### `Len` and `Get` -/

/-- Goroutine 0 has inserted 5 but not yet counted it, goroutine 1 removes it, goroutine 2 asks for the length. -/
def lenSchedule : List (Act Nat) := partOf 0 (.add 5) 42 1 ++ wholeOf 1 (.del 5) 43 1 ++ wholeOf 2 .len 1 1

/-- C55: while calls are in progress `Len` can be negative. -/
theorem len_can_be_negative : ∃ tr lab n, IsRun Fn.comp (0 : Nat) tr lab n ∧ ∃ i r, lab i = .call 2 .len ∧ Returned lab n i 2 (.num (-1)) r :=
  ⟨_, _, _, runOf_isRun (as := lenSchedule) (by decide +kernel), 88, 90, by decide +kernel, by decide +kernel⟩

/-- Add 7, then get 5. -/
def getSchedule : List (Act Nat) := wholeOf 0 (.add 7) 43 1 ++ wholeOf 0 (.get 5) 40 1

/-- C56: `Get` does not tell whether the value is present: the list `{7}` answers `Get(5)` with 7. -/
theorem get_of_absent : ∃ tr lab n, IsRun Fn.comp (0 : Nat) tr lab n ∧ ∃ i r, lab i = .call 0 (.get 5) ∧ Returned lab n i 0 (.val 7) r ∧
    Elements Fn.comp (tr r).mem [7] := by
  have hr : IsRun Fn.comp 0 (trOf 0 Fn.comp getSchedule) (labOf 0 Fn.comp getSchedule) 87 := runOf_isRun (as := getSchedule) (by decide +kernel)
  refine ⟨_, _, _, hr, 45, 86, by decide +kernel, by decide +kernel, ?_⟩
  have hl := elements_of_walk (P := [2]) Fn.comp_strict.toLawful hr (k := 86) (by decide) (by decide +kernel) (by decide +kernel) (by decide +kernel)
  have e : [2].map (trOf 0 Fn.comp getSchedule 86).mem.val = [7] := by decide +kernel
  rwa [e] at hl

/-! ### The hypotheses of the theorems can be met -/

/-- Two goroutines add the same value; the second loses the race for the compare-and-swap, searches again, finds the value and
    reports `false`; then one of them removes it and the other looks for it. -/
def raceSchedule : List (Act Nat) :=
  partOf 0 (.add 5) 41 1 ++ partOf 1 (.add 5) 41 1 ++ [.step 0 1, .step 0 1, .ret 0] ++ List.replicate 41 (.step 1 1) ++ [.ret 1] ++
  wholeOf 0 (.del 5) 43 1 ++ wholeOf 1 (.has 5) 43 1

theorem raceSchedule_run : IsRun Fn.comp 0 (trOf 0 Fn.comp raceSchedule) (labOf 0 Fn.comp raceSchedule) 219 :=
  runOf_isRun (as := raceSchedule) (by decide +kernel)

example : labOf 0 Fn.comp raceSchedule 0 = .call 0 (.add 5) ∧ Returned (labOf 0 Fn.comp raceSchedule) 219 0 0 (.bool true) 86 := by decide +kernel
example : labOf 0 Fn.comp raceSchedule 42 = .call 1 (.add 5) ∧ Returned (labOf 0 Fn.comp raceSchedule) 219 42 1 (.bool false) 128 := by decide +kernel
example : labOf 0 Fn.comp raceSchedule 129 = .call 0 (.del 5) ∧ Returned (labOf 0 Fn.comp raceSchedule) 219 129 0 (.bool true) 173 := by decide +kernel
example : labOf 0 Fn.comp raceSchedule 174 = .call 1 (.has 5) ∧ Returned (labOf 0 Fn.comp raceSchedule) 219 174 1 (.bool false) 218 := by decide +kernel
example : Elements Fn.comp (trOf 0 Fn.comp raceSchedule 129).mem [5] := by
  have hl := elements_of_walk (P := [2]) Fn.comp_strict.toLawful raceSchedule_run (k := 129) (by decide) (by decide +kernel) (by decide +kernel) (by decide +kernel)
  have e : [2].map (trOf 0 Fn.comp raceSchedule 129).mem.val = [5] := by decide +kernel
  rwa [e] at hl

/-- Goroutine 0 asks for the length again and again. -/
def spin (k : Nat) : St Nat := match k % 3 with
  | 0 => St.init 0
  | 1 => (St.init 0).goto (Mem.new 0) 0 (.run .len .lenLoad)
  | _ => (St.init 0).goto (Mem.new 0) 0 (.run .len (.ret (.num 0)))

def spinLab (k : Nat) : Label Nat := match k % 3 with
  | 0 => .call 0 .len
  | 1 => .tau 0
  | _ => .ret 0 (.num 0)

theorem goto_goto {s : St T} {m m' : Mem T} {t : Nat} {p q : Pc T} : (s.goto m t p).goto m' t q = s.goto m' t q := by
  simp only [St.goto]; congr 1; funext u; split <;> rfl

theorem goto_self {s : St T} {t : Nat} (h : s.pc t = .idle) : s.goto s.mem t .idle = s := by
  cases s with
  | mk m pc =>
    simp only [St.goto]; congr 1; funext u
    split
    · subst u; exact h.symm
    · rfl

example : (∀ n, IsRun Fn.comp 0 spin spinLab n) ∧ ∀ k, (spinLab k).tid < 1 := by
  refine ⟨fun n => ⟨rfl, fun k _ => ?_⟩, fun k => ?_⟩
  · have h : k % 3 = 0 ∨ k % 3 = 1 ∨ k % 3 = 2 := by omega
    rcases h with h | h | h
    · have h' : (k + 1) % 3 = 1 := by omega
      simp only [spin, spinLab, h, h']
      exact .call _ 0 .len rfl
    · have h' : (k + 1) % 3 = 2 := by omega
      simp only [spin, spinLab, h, h']
      have := Step.tau (cmp := Fn.comp) ((St.init 0).goto (Mem.new 0) 0 (.run .len .lenLoad)) 0 .len .lenLoad (fun _ => false) rfl (by simp) (by simp)
      rw [goto_goto] at this
      exact this
    · have h' : (k + 1) % 3 = 0 := by omega
      simp only [spin, spinLab, h, h']
      have := Step.ret (cmp := Fn.comp) ((St.init 0).goto (Mem.new 0) 0 (.run .len (.ret (.num 0)))) 0 .len (.num 0) rfl
      rw [goto_goto] at this
      have e : (St.init 0).goto (Mem.new 0) 0 .idle = St.init (0 : Nat) := goto_self rfl
      have e' : ((St.init 0).goto (Mem.new 0) 0 (.run .len (.ret (.num 0)))).mem = Mem.new (0 : Nat) := rfl
      rw [e', e] at this
      exact this
  · simp only [spinLab]; split <;> simp [Label.tid]

end Gds.LockFree
