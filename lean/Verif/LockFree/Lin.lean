import Verif.LockFree.Run

/-! From instants to a sequential history. -/

namespace Gds.LockFree
variable {T : Type _} {cmp : Compare T} {zero : T} {tr : Nat → St T} {lab : Nat → Label T} {n : Nat}

/-- The effect of the one changing step of a successful `Add` or `Del`. -/
def Effect (cmp : Compare T) (m m' : Mem T) : Op T → Prop
  | .add v => Adds cmp m m' v
  | .del v => Removes cmp m m' v
  | _ => False

theorem Effect.not_keeps (hc : cmp.Lawful) {m m' : Mem T} {op : Op T} (h : Effect cmp m m' op) : ¬ Keeps cmp m m' := by
  intro hk
  cases op with
  | add v => exact h.1 ((hk v).1 ((h.2 v).2 (.inr (hc.self v))))
  | del v => exact ((h.2 v).1 ((hk v).2 h.1)).2 (hc.self v)
  | has v => exact h
  | get v => exact h
  | rank v => exact h
  | len => exact h

/-- Where a goroutine stands: it has not changed the set yet, or has done so once, as its method says. -/
theorem CtlOK.cases {t i k : Nat} {op : Op T} {c : Ctl T} (h : CtlOK cmp tr lab t i k op c) :
    Unch cmp tr lab t i k ∨ Lin cmp tr lab t i k (fun m m' => Effect cmp m m' op) := by
  cases c with
  | find f kt =>
    obtain ⟨-, h⟩ := h
    cases kt with
    | addUp nn top level => obtain ⟨rfl, h, -⟩ := h; exact .inr h
    | _ => exact .inl h.2
  | addNew f => exact .inl h.2.1
  | addCas f nn top => exact .inl h.2.1
  | addUp f nn top level => obtain ⟨rfl, h, -⟩ := h; exact .inr h
  | addSize => obtain ⟨v, rfl, h⟩ := h; exact .inr h
  | delLoad r level => obtain ⟨v, a, -, h, -⟩ := h; exact .inl h
  | delCas r level nx => obtain ⟨v, a, -, h, -⟩ := h; exact .inl h
  | delLoad0 r => obtain ⟨v, a, -, h, -⟩ := h; exact .inl h
  | delCas0 r nx => obtain ⟨v, a, -, h, -⟩ := h; exact .inl h
  | delSize => obtain ⟨v, rfl, h⟩ := h; exact .inr h
  | rankLen v => exact .inl h.2
  | lenLoad => exact .inl h.2
  | ret o =>
    change RetOK cmp tr lab t i k op o at h
    unfold RetOK at h
    split at h
    · exact .inr h
    · exact .inl h.1
    · exact .inr h
    · exact .inl h.1
    · exact .inl h.1
    · exact .inl h.1
    · exact .inl h
    · exact .inl h.1
    · exact absurd h id
  | panicked x => exact absurd h id

/-- A goroutine inside a method has called it. -/
theorem called (hr : IsRun cmp zero tr lab n) {t : Nat} {op : Op T} : ∀ k, k ≤ n → ∀ c, (tr k).pc t = .run op c →
    ∃ i, i < k ∧ lab i = .call t op ∧ (∀ x, i < x → x < k → ∀ o, lab x ≠ .ret t o) := by
  intro k
  induction k with
  | zero => intro _ c h; rw [hr.start] at h; cases h
  | succ k ih =>
    intro hk c h
    have hs := hr.step k (by omega)
    generalize hl : lab k = l at hs
    generalize hs1 : tr k = s1 at hs
    generalize hs2 : tr (k + 1) = s2 at hs
    have ext : ∀ c', (tr k).pc t = .run op c' → (∀ o, lab k ≠ .ret t o) →
        ∃ i, i < k + 1 ∧ lab i = .call t op ∧ (∀ x, i < x → x < k + 1 → ∀ o, lab x ≠ .ret t o) := by
      intro c' hc' hnr
      obtain ⟨i, h1, h2, h3⟩ := ih (by omega) c' hc'
      refine ⟨i, by omega, h2, fun x g1 g2 => ?_⟩
      by_cases ex : x = k
      · subst ex; exact hnr
      · exact h3 x g1 (by omega)
    cases hs with
    | call u op' hidle =>
      by_cases hut : t = u
      · subst hut
        rw [hs2, goto_pc_same] at h
        cases h
        exact ⟨k, by omega, hl, fun x g1 g2 => by omega⟩
      · rw [hs2, goto_pc_ne _ _ _ hut, ← hs1] at h
        exact ext c h (by rw [hl]; nofun)
    | tau u op' c' coin hpc hr' hp' =>
      by_cases hut : t = u
      · subst hut
        rw [hs2, goto_pc_same] at h
        cases h
        exact ext c' (by rw [hs1]; exact hpc) (by rw [hl]; nofun)
      · rw [hs2, goto_pc_ne _ _ _ hut, ← hs1] at h
        exact ext c h (by rw [hl]; nofun)
    | ret u op' o hpc =>
      by_cases hut : t = u
      · subst hut
        rw [hs2, goto_pc_same] at h
        cases h
      · rw [hs2, goto_pc_ne _ _ _ hut, ← hs1] at h
        exact ext c h (by rw [hl]; intro o' e; injection e with e1; exact hut e1.symm)

/-- A step that changes the set is the one changing step of an `Add` or `Del` in progress. -/
theorem change (hc : cmp.Lawful) (hr : IsRun cmp zero tr lab n) {k : Nat} (hk : k < n) (hnk : ¬ Keeps cmp (tr k).mem (tr (k + 1)).mem) :
    ∃ i t op, i < k ∧ lab k = .tau t ∧ lab i = .call t op ∧ (∀ x, i < x → x < k → ∀ o, lab x ≠ .ret t o) ∧
      Effect cmp (tr k).mem (tr (k + 1)).mem op := by
  have hs := hr.step k hk
  have hinv := RInv.all hc hr (k + 1) (by omega)
  generalize hl : lab k = l at hs
  generalize hs1 : tr k = s1 at hs
  generalize hs2 : tr (k + 1) = s2 at hs
  cases hs with
  | call u op' hidle => exact absurd (by rw [hs1, hs2]; exact fun _ => Iff.rfl) hnk
  | ret u op' o hpc => exact absurd (by rw [hs1, hs2]; exact fun _ => Iff.rfl) hnk
  | tau t op c coin hpc hr' hp' =>
    rw [← hs1] at hpc
    obtain ⟨i, h1, h2, h3⟩ := called hr k (by omega) c hpc
    have hpc' : (tr (k + 1)).pc t = .run op (exec cmp coin s1.mem c).2 := by rw [hs2]; exact goto_pc_same _ _ _ _
    have hno : ∀ x, i < x → x < k + 1 → ∀ o, lab x ≠ .ret t o := by
      intro x g1 g2
      by_cases ex : x = k
      · subst ex; rw [hl]; nofun
      · exact h3 x g1 (by omega)
    have hsn := (running hr h2 (k + 1) (by omega) (by omega) hno).2
    have hct := hinv.ctl t op _ hpc'
    rw [hsn] at hct
    refine ⟨i, t, op, h1, rfl, h2, h3, ?_⟩
    rw [hs1, hs2] at hnk
    rcases hct.cases with hu | ⟨j, g1, g2, g3, g4, g5⟩
    · exact absurd (by have := hu k (by omega) (by omega) (by rw [hl]; rfl); rw [hs1, hs2] at this; exact this) hnk
    · by_cases ej : j = k
      · subst ej; rw [hs1, hs2] at g4; exact g4
      · exact absurd (by have := g5 k (by omega) (by omega) (Ne.symm ej) (by rw [hl]; rfl); rw [hs1, hs2] at this; exact this) hnk

/-- The linearization points of the call made at step `i`: an even number `2 * p` for an observation at instant `p`, an odd one
    `2 * k + 1` for a change made by step `k`. -/
def Point (cmp : Compare T) (tr : Nat → St T) (lab : Nat → Label T) (n i q : Nat) (op : Op T) (o : Out T) : Prop :=
  ∃ t, lab i = .call t op ∧
   ((∃ r p, Returned lab n i t o r ∧ i < p ∧ p ≤ r ∧ q = 2 * p ∧ op.isSet ∧ Unch cmp tr lab t (i + 1) r ∧
      SeqStep cmp ((tr 0).mem.val tailA) (Contains cmp (tr p).mem) op o (Contains cmp (tr p).mem)) ∨
    (∃ k, i < k ∧ k < n ∧ lab k = .tau t ∧ (∀ x, i < x → x < k → ∀ o, lab x ≠ .ret t o) ∧ q = 2 * k + 1 ∧ o = .bool true ∧
      Effect cmp (tr k).mem (tr (k + 1)).mem op))

theorem ceil_seq (hc : cmp.Lawful) {m : Mem T} (z : T) {v : T} {c : Nat} (h : Ceil cmp m v c) (hz : m.val tailA = z) :
    SeqStep cmp z (Contains cmp m) (.get v) (.val (m.val c)) (Contains cmp m) := by
  have hc0 : c ≠ headA := fun e => h.ge (.inl e)
  refine ⟨?_, fun _ => Iff.rfl⟩
  by_cases e : c = tailA
  · right
    subst e
    refine ⟨?_, hz⟩
    rintro x ⟨d, hd, hdx⟩
    have hb : Below cmp m d v := by
      by_contra hcon
      have := h.least d hd hcon (fun e => hd.ne_tail e)
      exact this.1 rfl
    have := hb.resolve_left hd.ne_head
    exact hc.lt_of_le_of_lt (by have := hc.zero_symm hdx; omega) this.2
  · left
    have hl := h.elem.resolve_left e
    refine ⟨⟨c, hl, hc.self _⟩, ?_, ?_⟩
    · by_contra hcon
      exact h.ge (.inr ⟨e, by omega⟩)
    · rintro x ⟨d, hd, hdx⟩ hxv
      by_cases hne : d = c
      · subst hne; omega
      · have hdb : ¬ Below cmp m d v := by
          rintro (e | ⟨-, e⟩)
          · exact hd.ne_head e
          · have q := hc.lt_of_le_of_lt (show cmp x (m.val d) ≤ 0 by have := hc.zero_symm hdx; omega) e
            omega
        obtain ⟨-, -, g⟩ := h.least d hd hdb hne
        rcases g with g | g | g
        · exact absurd g hc0
        · exact absurd g hd.ne_tail
        · have := hc.lt_of_lt_of_le g (show cmp (m.val d) x ≤ 0 by omega)
          omega

/-- Every returned call of the sequential object has a linearization point. -/
theorem point_exists (hc : cmp.Lawful) (hr : IsRun cmp zero tr lab n) {i t r : Nat} {op : Op T} {o : Out T}
    (hi : lab i = .call t op) (hs : op.isSet) (hret : Returned lab n i t o r) : ∃ q, Point cmp tr lab n i q op o := by
  have h := returned hc hr hi hret.lt hret.le hret.ret hret.first
  have obs : ∀ p, i + 1 ≤ p → p ≤ r → Unch cmp tr lab t (i + 1) r →
      SeqStep cmp ((tr 0).mem.val tailA) (Contains cmp (tr p).mem) op o (Contains cmp (tr p).mem) → ∃ q, Point cmp tr lab n i q op o :=
    fun p h1 h2 h3 h4 => ⟨2 * p, t, hi, .inl ⟨r, p, hret, by omega, h2, rfl, hs, h3, h4⟩⟩
  have chg : Lin cmp tr lab t (i + 1) r (fun m m' => Effect cmp m m' op) → o = .bool true → ∃ q, Point cmp tr lab n i q op o := by
    rintro ⟨j, h1, h2, h3, h4, h5⟩ ho
    have hle := hret.le
    obtain ⟨i', t', op', g1, g2, g3, g4, g5⟩ := change hc hr (show j < n by omega) (h4.not_keeps hc)
    have : t' = t := by rw [g2] at h3; exact h3
    subst this
    exact ⟨2 * j + 1, t', hi, .inr ⟨j, by omega, by omega, g2, fun x a b => hret.first x a (by omega), rfl, ho, h4⟩⟩
  have htail : ∀ p, p ≤ n → (tr p).mem.val tailA = (tr 0).mem.val tailA := by
    intro p hp
    obtain ⟨h1, h2, h3⟩ := (RInv.all hc hr p hp).hist 0 (by omega)
    exact h3 tailA h1.tail_lt
  have hle := hret.le
  cases op with
  | add v =>
    cases o with
    | bool b =>
      cases b with
      | true => exact chg h rfl
      | false => obtain ⟨h1, j, h2, h3, h4⟩ := h; exact obs j h2 h3 h1 ⟨h4, fun _ => Iff.rfl⟩
    | val w => exact absurd h id
    | num w => exact absurd h id
  | del v =>
    cases o with
    | bool b =>
      cases b with
      | true => exact chg h rfl
      | false => obtain ⟨h1, j, h2, h3, h4⟩ := h; exact obs j h2 h3 h1 ⟨h4, fun _ => Iff.rfl⟩
    | val w => exact absurd h id
    | num w => exact absurd h id
  | has v =>
    cases o with
    | bool b => obtain ⟨h1, j, h2, h3, h4⟩ := h; exact obs j h2 h3 h1 ⟨h4, fun _ => Iff.rfl⟩
    | val w => exact absurd h id
    | num w => exact absurd h id
  | get v =>
    cases o with
    | val w =>
      obtain ⟨h1, j, c, h2, h3, h4, h5⟩ := h
      subst h5
      exact obs j h2 h3 h1 (ceil_seq hc _ h4 (htail j (by omega)))
    | bool w => exact absurd h id
    | num w => exact absurd h id
  | rank v => exact absurd hs id
  | len => exact absurd hs id

/-- A changing step lies in the interval of the call it belongs to. -/
theorem step_before_return {i t k : Nat} {o : Out T} {r : Nat} (hret : Returned lab n i t o r) (hk : lab k = .tau t)
    (hno : ∀ x, i < x → x < k → ∀ o, lab x ≠ .ret t o) : k < r := by
  by_contra hcon
  have h1 := hret.lt
  by_cases e : k = r
  · subst e; rw [hret.ret] at hk; cases hk
  · exact hno r h1 (by omega) o hret.ret

/-- A call with a changing step returns true, if it returns. -/
theorem change_returns (hc : cmp.Lawful) (hr : IsRun cmp zero tr lab n) {i t k r : Nat} {op : Op T} {o : Out T} (hi : lab i = .call t op)
    (hik : i < k) (hk : lab k = .tau t) (hno : ∀ x, i < x → x < k → ∀ o, lab x ≠ .ret t o)
    (he : Effect cmp (tr k).mem (tr (k + 1)).mem op) (hret : Returned lab n i t o r) : o = .bool true := by
  have h := returned hc hr hi hret.lt hret.le hret.ret hret.first
  have hkr := step_before_return hret hk hno
  have hun : Unch cmp tr lab t (i + 1) r → False := fun hu =>
    he.not_keeps hc (hu k (by omega) hkr (by rw [hk]; rfl))
  cases op with
  | add v =>
    cases o with
    | bool b =>
      cases b with
      | true => rfl
      | false => exact absurd h.1 hun
    | val w => exact absurd h id
    | num w => exact absurd h id
  | del v =>
    cases o with
    | bool b =>
      cases b with
      | true => rfl
      | false => exact absurd h.1 hun
    | val w => exact absurd h id
    | num w => exact absurd h id
  | has v => exact absurd he id
  | get v => exact absurd he id
  | rank v => exact absurd he id
  | len => exact absurd he id

/-- A call has at most one changing step, and then no observation point. -/
theorem point_unique (hc : cmp.Lawful) (hr : IsRun cmp zero tr lab n) {i t k q : Nat} {op op' : Op T} {o : Out T} (hi : lab i = .call t op)
    (hik : i < k) (hkn : k < n) (hk : lab k = .tau t) (hno : ∀ x, i < x → x < k → ∀ o, lab x ≠ .ret t o)
    (he : Effect cmp (tr k).mem (tr (k + 1)).mem op) (hp : Point cmp tr lab n i q op' o) : q = 2 * k + 1 ∧ op' = op ∧ o = .bool true := by
  obtain ⟨t', h1, h2⟩ := hp
  rw [hi] at h1
  injection h1 with e1 e2
  subst e1; subst e2
  rcases h2 with ⟨r, p, g1, g2, g3, g4, g5, g6, -⟩ | ⟨k', g1, g2, g3, g4, g5, g6, g7⟩
  · exfalso
    exact he.not_keeps hc (g6 k (by omega) (step_before_return g1 hk hno) (by rw [hk]; rfl))
  · refine ⟨?_, rfl, g6⟩
    -- both steps lie in one run of the method
    have key : ∀ a b, i < a → a < b → b < n → lab a = .tau t → lab b = .tau t → (∀ x, i < x → x < b → ∀ o, lab x ≠ .ret t o) →
        Effect cmp (tr a).mem (tr (a + 1)).mem op → Effect cmp (tr b).mem (tr (b + 1)).mem op → False := by
      intro a b ha hab hb hla hlb hnb hea heb
      have hno' : ∀ x, i < x → x < b + 1 → ∀ o, lab x ≠ .ret t o := by
        intro x y1 y2
        by_cases ex : x = b
        · subst ex; rw [hlb]; nofun
        · exact hnb x y1 (by omega)
      obtain ⟨⟨c, hpc⟩, hsn⟩ := running hr hi (b + 1) (by omega) (by omega) hno'
      have hct := (RInv.all hc hr (b + 1) (by omega)).ctl t op c hpc
      rw [hsn] at hct
      rcases hct.cases with hu | ⟨j, y1, y2, y3, y4, y5⟩
      · exact hea.not_keeps hc (hu a (by omega) (by omega) (by rw [hla]; rfl))
      · by_cases ej : j = a
        · exact heb.not_keeps hc (y5 b (by omega) (by omega) (by omega) (by rw [hlb]; rfl))
        · exact hea.not_keeps hc (y5 a (by omega) (by omega) (Ne.symm ej) (by rw [hla]; rfl))
    rcases Nat.lt_trichotomy k k' with h | h | h
    · exact absurd (key k k' hik h g2 hk g3 g4 he g7) id
    · omega
    · exact absurd (key k' k g1 h hkn g3 hk hno g7 he) id

/-! ### The sequential history -/

/-- The chosen point of each call. -/
noncomputable def lp (cmp : Compare T) (tr : Nat → St T) (lab : Nat → Label T) (n i : Nat) : Option (Nat × Entry T) :=
  open Classical in
  if h : ∃ x : Nat × Op T × Out T, Point cmp tr lab n i x.1 x.2.1 x.2.2 then
    some (h.choose.1, ⟨i, h.choose.2.1, h.choose.2.2⟩)
  else none

theorem lp_some {i q : Nat} {e : Entry T} (h : lp cmp tr lab n i = some (q, e)) : e.call = i ∧ Point cmp tr lab n i q e.op e.out := by
  unfold lp at h
  split at h
  · rename_i hx
    have hx' := hx.choose_spec
    simp only [Option.some.injEq, Prod.mk.injEq] at h
    obtain ⟨rfl, rfl⟩ := h
    exact ⟨rfl, hx'⟩
  · cases h

theorem lp_of_point {i q : Nat} {op : Op T} {o : Out T} (h : Point cmp tr lab n i q op o) : ∃ q' e, lp cmp tr lab n i = some (q', e) := by
  unfold lp
  rw [dif_pos ⟨(q, op, o), h⟩]
  exact ⟨_, _, rfl⟩

/-- The calls with point `q`. -/
noncomputable def slot (cmp : Compare T) (tr : Nat → St T) (lab : Nat → Label T) (n q : Nat) : List (Entry T) :=
  open Classical in
  (List.range n).filterMap fun i => (lp cmp tr lab n i).bind fun x => if x.1 = q then some x.2 else none

theorem mem_slot {q : Nat} {e : Entry T} : e ∈ slot cmp tr lab n q ↔ e.call < n ∧ lp cmp tr lab n e.call = some (q, e) := by
  unfold slot
  rw [List.mem_filterMap]
  constructor
  · rintro ⟨i, hi, h⟩
    rw [List.mem_range] at hi
    rw [Option.bind_eq_some_iff] at h
    obtain ⟨⟨q', e'⟩, h1, h2⟩ := h
    simp only at h2
    split at h2
    · rename_i hq
      cases h2
      subst hq
      have := (lp_some h1).1
      subst this
      exact ⟨hi, h1⟩
    · cases h2
  · rintro ⟨h1, h2⟩
    refine ⟨e.call, List.mem_range.2 h1, ?_⟩
    rw [h2]; simp

theorem slot_nodup (q : Nat) : ((slot cmp tr lab n q).map Entry.call).Nodup := by
  unfold slot
  rw [List.map_filterMap]
  have : ∀ l : List Nat, l.Nodup → (l.filterMap fun i => Option.map Entry.call ((lp cmp tr lab n i).bind fun x => open Classical in if x.1 = q then some x.2 else none)).Nodup ∧
      ∀ j ∈ l.filterMap fun i => Option.map Entry.call ((lp cmp tr lab n i).bind fun x => open Classical in if x.1 = q then some x.2 else none), j ∈ l := by
    intro l hl
    induction l with
    | nil => simp
    | cons a l ih =>
      obtain ⟨ih1, ih2⟩ := ih (List.nodup_cons.1 hl).2
      rw [List.filterMap_cons]
      split
      · exact ⟨ih1, fun j hj => List.mem_cons_of_mem _ (ih2 j hj)⟩
      · rename_i b hb
        have hba : b = a := by
          rw [Option.map_eq_some_iff] at hb
          obtain ⟨e, he1, he2⟩ := hb
          rw [Option.bind_eq_some_iff] at he1
          obtain ⟨x, h1, h2⟩ := he1
          split at h2
          · cases h2
            rw [← he2]
            exact (lp_some (q := x.1) (e := x.2) h1).1
          · cases h2
        subst hba
        refine ⟨List.nodup_cons.2 ⟨fun hb => (List.nodup_cons.1 hl).1 (ih2 b hb), ih1⟩, fun j hj => ?_⟩
        rcases List.mem_cons.1 hj with rfl | hj
        · exact List.mem_cons_self
        · exact List.mem_cons_of_mem _ (ih2 j hj)
  exact (this _ List.nodup_range).1

/-- The calls with a point below `q`, in order. -/
noncomputable def seqs (cmp : Compare T) (tr : Nat → St T) (lab : Nat → Label T) (n : Nat) : Nat → List (Entry T)
  | 0 => []
  | q + 1 => seqs cmp tr lab n q ++ slot cmp tr lab n q

theorem mem_seqs {q : Nat} {e : Entry T} : e ∈ seqs cmp tr lab n q ↔ ∃ q', q' < q ∧ e ∈ slot cmp tr lab n q' := by
  induction q with
  | zero => simp [seqs]
  | succ q ih =>
    simp only [seqs, List.mem_append, ih]
    constructor
    · rintro (⟨q', h1, h2⟩ | h)
      · exact ⟨q', by omega, h2⟩
      · exact ⟨q, by omega, h⟩
    · rintro ⟨q', h1, h2⟩
      by_cases e : q' = q
      · subst e; exact .inr h2
      · exact .inl ⟨q', by omega, h2⟩

theorem seqs_nodup (q : Nat) : ((seqs cmp tr lab n q).map Entry.call).Nodup := by
  induction q with
  | zero => simp [seqs]
  | succ q ih =>
    simp only [seqs, List.map_append]
    refine List.nodup_append.2 ⟨ih, slot_nodup q, ?_⟩
    intro a ha b hb hab
    subst hab
    obtain ⟨e, he, rfl⟩ := List.mem_map.1 ha
    obtain ⟨e', he', hee⟩ := List.mem_map.1 hb
    obtain ⟨q', h1, h2⟩ := mem_seqs.1 he
    have h3 := (mem_slot.1 h2).2
    have h4 := (mem_slot.1 he').2
    rw [hee, h3] at h4
    simp only [Option.some.injEq, Prod.mk.injEq] at h4
    omega

theorem Legal.snoc {s s1 s2 : T → Prop} {l l' : List (Op T × Out T)} (h1 : Legal cmp zero s l s1) (h2 : Legal cmp zero s1 l' s2)
    (hcg : ∀ (s s1 s2 : T → Prop) l, (∀ w, s1 w ↔ s w) → Legal cmp zero s1 l s2 → Legal cmp zero s l s2) : Legal cmp zero s (l ++ l') s2 := by
  induction l generalizing s with
  | nil => exact hcg s s1 s2 l' h1 h2
  | cons a l ih =>
    obtain ⟨s3, h3, h4⟩ := h1
    exact ⟨s3, h3, ih h4⟩

theorem Legal.congr (s s1 s2 : T → Prop) (l : List (Op T × Out T)) (hs : ∀ w, s1 w ↔ s w) (h : Legal cmp zero s1 l s2) : Legal cmp zero s l s2 := by
  have : s1 = s := funext fun w => propext (hs w)
  rw [← this]; exact h

theorem Legal.append {s s1 s2 : T → Prop} {l l' : List (Op T × Out T)} (h1 : Legal cmp zero s l s1) (h2 : Legal cmp zero s1 l' s2) :
    Legal cmp zero s (l ++ l') s2 := h1.snoc h2 Legal.congr

theorem Legal.obs {s : T → Prop} {l : List (Op T × Out T)} (h : ∀ x ∈ l, SeqStep cmp zero s x.1 x.2 s) : Legal cmp zero s l s := by
  induction l with
  | nil => exact fun _ => Iff.rfl
  | cons a l ih => exact ⟨s, h a List.mem_cons_self, ih fun x hx => h x (List.mem_cons_of_mem _ hx)⟩

theorem singleton_of {α : Type _} {l : List α} {a : α} (hm : a ∈ l) (hall : ∀ x ∈ l, x = a) (hn : l.Nodup) : l = [a] := by
  match l, hm, hall, hn with
  | [x], _, hall, _ => rw [hall x (by simp)]
  | x :: y :: l, _, hall, hn =>
    exfalso
    have h1 := hall x (by simp)
    have h2 := hall y (by simp)
    simp [h1, h2] at hn

theorem seqs_legal (hc : cmp.Lawful) (hr : IsRun cmp zero tr lab n) : ∀ q, q ≤ 2 * n + 1 →
    Legal cmp zero (Contains cmp (tr 0).mem) ((seqs cmp tr lab n q).map fun e => (e.op, e.out)) (Contains cmp (tr (q / 2)).mem) := by
  have hzero : (tr 0).mem.val tailA = zero := by rw [hr.start]; exact new_val zero _
  intro q
  induction q with
  | zero => intro _; exact fun _ => Iff.rfl
  | succ q ih =>
    intro hq
    simp only [seqs, List.map_append]
    refine (ih (by omega)).append ?_
    have hpar : q = 2 * (q / 2) ∨ q = 2 * (q / 2) + 1 := by omega
    rcases hpar with hpar | hpar
    · have e1 : (q + 1) / 2 = q / 2 := by omega
      rw [e1]
      refine Legal.obs ?_
      intro x hx
      obtain ⟨e, he, rfl⟩ := List.mem_map.1 hx
      obtain ⟨-, hp⟩ := lp_some (mem_slot.1 he).2
      obtain ⟨t, h1, ⟨r, p, g1, g2, g3, g4, g5, g6, g7⟩ | ⟨k, g1, g2, g3, g4, g5, -⟩⟩ := hp
      · have : p = q / 2 := by omega
        subst this
        rw [hzero] at g7
        exact g7
      · omega
    · have e1 : (q + 1) / 2 = q / 2 + 1 := by omega
      rw [e1]
      generalize hk : q / 2 = k at *
      have hkn : k < n := by omega
      by_cases hkeep : Keeps cmp (tr k).mem (tr (k + 1)).mem
      · have hnil : slot cmp tr lab n q = [] := by
          rw [List.eq_nil_iff_forall_not_mem]
          intro e he
          obtain ⟨-, hp⟩ := lp_some (mem_slot.1 he).2
          obtain ⟨t, h1, ⟨r, p, g1, g2, g3, g4, -⟩ | ⟨k', g1, g2, g3, g4, g5, g6, g7⟩⟩ := hp
          · omega
          · have : k' = k := by omega
            subst this
            exact g7.not_keeps hc hkeep
        rw [hnil]
        exact hkeep
      · obtain ⟨i, t, op, h1, h2, h3, h4, h5⟩ := change hc hr hkn hkeep
        have hpt : Point cmp tr lab n i (2 * k + 1) op (.bool true) := ⟨t, h3, .inr ⟨k, h1, hkn, h2, h4, rfl, rfl, h5⟩⟩
        obtain ⟨q', e, hlp⟩ := lp_of_point hpt
        obtain ⟨he, hp⟩ := lp_some hlp
        obtain ⟨hq', hop, hout⟩ := point_unique hc hr h3 h1 hkn h2 h4 h5 hp
        have hee : e = ⟨i, op, .bool true⟩ := by cases e; simp only at he hop hout; subst he hop hout; rfl
        subst hee
        rw [hq', ← hpar] at hlp
        have hmem : (⟨i, op, .bool true⟩ : Entry T) ∈ slot cmp tr lab n q := mem_slot.2 ⟨by show i < n; omega, hlp⟩
        have hsng : slot cmp tr lab n q = [⟨i, op, .bool true⟩] := by
          refine singleton_of hmem ?_ ((List.pairwise_map.1 (slot_nodup q)).imp fun h e => h (congrArg _ e))
          intro e' he'
          obtain ⟨y0, y1⟩ := mem_slot.1 he'
          obtain ⟨-, hp'⟩ := lp_some y1
          obtain ⟨t', z1, ⟨r, p, g1, g2, g3, g4, -⟩ | ⟨k', g1, g2, g3, g4, g5, g6, g7⟩⟩ := hp'
          · omega
          · have : k' = k := by omega
            subst this
            rw [h2] at g3
            cases g3
            have s1 := (running hr z1 k' g1 (by omega) g4).2
            have s2 := (running hr h3 k' h1 (by omega) h4).2
            have : e'.call = i := by omega
            rw [this] at y1
            rw [hlp] at y1
            simp only [Option.some.injEq, Prod.mk.injEq] at y1
            exact y1.2.symm
        rw [hsng]
        refine ⟨Contains cmp (tr (k + 1)).mem, ?_, fun _ => Iff.rfl⟩
        cases op with
        | add v => exact h5
        | del v => exact h5
        | has v => exact absurd h5 id
        | get v => exact absurd h5 id
        | rank v => exact absurd h5 id
        | len => exact absurd h5 id

theorem not_contains_new (v : T) : ¬ Contains cmp (Mem.new zero) v := by
  rintro ⟨a, ha, -⟩
  have hp := ha.path
  cases hp with
  | refl => exact ha.ne_head rfl
  | step h1 h2 =>
    have : Nx (Mem.new zero) headA tailA := by unfold Nx; rw [new_next]; rfl
    rw [← this.unique h1] at h2
    cases h2 with
    | refl => exact ha.ne_tail rfl
    | step h3 _ => exact (inv_new (cmp := cmp) zero).ne_tail_of_nx h3 rfl

theorem slot_pairwise (q : Nat) (P : Entry T → Entry T → Prop) (h : ∀ e ∈ slot cmp tr lab n q, ∀ e' ∈ slot cmp tr lab n q, P e e') :
    (slot cmp tr lab n q).Pairwise P := by
  generalize slot cmp tr lab n q = l at h
  induction l with
  | nil => exact .nil
  | cons a l ih =>
    exact .cons (fun b hb => h a List.mem_cons_self b (List.mem_cons_of_mem _ hb))
      (ih fun e he e' he' => h e (List.mem_cons_of_mem _ he) e' (List.mem_cons_of_mem _ he'))

/-- A call's point is within the call. -/
theorem point_within (hc : cmp.Lawful) (hr : IsRun cmp zero tr lab n) {i q t r : Nat} {op op' : Op T} {o o' : Out T}
    (h : Point cmp tr lab n i q op o) (hi : lab i = .call t op') (hret : Returned lab n i t o' r) : 2 * i + 2 ≤ q ∧ q ≤ 2 * r ∧ o = o' := by
  obtain ⟨t', h1, h2⟩ := h
  rw [hi] at h1
  injection h1 with e1 e2
  subst e1; subst e2
  rcases h2 with ⟨r', p, g1, g2, g3, g4, g5, -⟩ | ⟨k, g1, g2, g3, g4, g5, g6, g7⟩
  · have hrr : r' = r := by
      rcases Nat.lt_trichotomy r r' with h | h | h
      · exact absurd hret.ret (g1.first r hret.lt h o')
      · exact h.symm
      · exact absurd g1.ret (hret.first r' g1.lt h o)
    subst hrr
    have ho : o = o' := by have := g1.ret; rw [hret.ret] at this; injection this with _ e; exact e.symm
    exact ⟨by omega, by omega, ho⟩
  · have := step_before_return hret g3 g4
    have ho := change_returns hc hr hi g1 g3 g4 g7 hret
    exact ⟨by omega, by omega, by rw [g6, ho]⟩

theorem point_start {i q : Nat} {op : Op T} {o : Out T} (h : Point cmp tr lab n i q op o) : 2 * i + 2 ≤ q ∧ q < 2 * n + 1 := by
  obtain ⟨t', h1, ⟨r', p, g1, g2, g3, g4, g5, -⟩ | ⟨k, g1, g2, g3, g4, g5, g6, g7⟩⟩ := h
  · have := g1.le; omega
  · omega

theorem linearization (hc : cmp.Lawful) (hr : IsRun cmp zero tr lab n) :
    Linearization cmp zero lab n (seqs cmp tr lab n (2 * n + 1)) (Contains cmp (tr n).mem) where
  calls e he := by
    obtain ⟨q, h1, h2⟩ := mem_seqs.1 he
    obtain ⟨h3, h4⟩ := mem_slot.1 h2
    obtain ⟨-, hp⟩ := lp_some h4
    obtain ⟨t, h5, -⟩ := id hp
    exact ⟨h3, t, h5, fun o r hret => (point_within hc hr hp h5 hret).2.2⟩
  once := seqs_nodup _
  all i t op o r hi hs hret := by
    obtain ⟨q, hp⟩ := point_exists hc hr hi hs hret
    obtain ⟨q', e, hlp⟩ := lp_of_point hp
    obtain ⟨he, hp'⟩ := lp_some hlp
    have hw := point_within hc hr hp' hi hret
    have hop : e.op = op := by
      obtain ⟨t', h1, -⟩ := hp'
      rw [hi] at h1; injection h1 with _ e2; exact e2.symm
    have hee : e = ⟨i, op, o⟩ := by
      cases e; simp only at he hop hw; obtain ⟨-, -, hw⟩ := hw; subst he hop hw; rfl
    rw [← hee]
    have h1 := hret.lt
    have h2 := hret.le
    exact mem_seqs.2 ⟨q', (point_start hp').2, mem_slot.2 ⟨by rw [he]; omega, by rw [he]; exact hlp⟩⟩
  order := by
    have key : ∀ q e q' e', e ∈ slot cmp tr lab n q → e' ∈ slot cmp tr lab n q' → q ≤ q' →
        ∀ t o r, lab e'.call = .call t e'.op → Returned lab n e'.call t o r → ¬ r < e.call := by
      intro q e q' e' he he' hqq t o r hl hret hlt
      obtain ⟨-, hp⟩ := lp_some (mem_slot.1 he).2
      obtain ⟨-, hp'⟩ := lp_some (mem_slot.1 he').2
      have h1 := (point_start hp).1
      have h2 := (point_within hc hr hp' hl hret).2.1
      omega
    generalize 2 * n + 1 = N
    induction N with
    | zero => exact .nil
    | succ q ih =>
      simp only [seqs]
      refine List.pairwise_append.2 ⟨ih, slot_pairwise q _ fun e he e' he' => key q e q e' he he' (Nat.le_refl _), ?_⟩
      intro e he e' he'
      obtain ⟨q', h1, h2⟩ := mem_seqs.1 he
      exact key q' e q e' h2 he' (by omega)
  legal := by
    have h := seqs_legal hc hr (2 * n + 1) (Nat.le_refl _)
    have e : (2 * n + 1) / 2 = n := by omega
    rw [e] at h
    refine Legal.congr _ _ _ _ ?_ h
    intro w
    rw [hr.start]
    exact ⟨fun x => not_contains_new w x, fun x => absurd x id⟩

end Gds.LockFree
