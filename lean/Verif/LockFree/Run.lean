import Verif.LockFree.Moves

/-! The invariant of runs. -/

namespace Gds.LockFree
variable {T : Type _} {cmp : Compare T}

theorem since_le (lab : Nat → Label T) (t k : Nat) : since lab t k ≤ k := by
  induction k with
  | zero => simp [since]
  | succ k ih =>
    unfold since
    split
    · split <;> omega
    · omega

theorem since_other {lab : Nat → Label T} {t k : Nat} (h : (lab k).tid ≠ t) : since lab t (k + 1) = since lab t k := by
  rw [since]
  split
  · rename_i u op hl
    rw [hl] at h
    rw [if_neg (by exact h)]
  · rfl

theorem since_nocall {lab : Nat → Label T} {t k : Nat} (h : ∀ op, lab k ≠ .call t op) : since lab t (k + 1) = since lab t k := by
  rw [since]
  split
  · rename_i u op hl
    rw [if_neg]; rintro rfl; exact h op hl
  · rfl

structure RInv (cmp : Compare T) (tr : Nat → St T) (lab : Nat → Label T) (k : Nat) : Prop where
  mem : MInv cmp (tr k).mem
  ctl : ∀ t op c, (tr k).pc t = .run op c → CtlOK cmp tr lab t (since lab t k) k op c
  dist : ∀ t u op op' f nn top f' nn' top', t ≠ u → (tr k).pc t = .run op (.addCas f nn top) →
    (tr k).pc u = .run op' (.addCas f' nn' top') → nn ≠ nn'
  hist : ∀ j, j ≤ k → MInv cmp (tr j).mem ∧ (tr j).mem.alloc ≤ (tr k).mem.alloc ∧
    ∀ a, a < (tr j).mem.alloc → (tr k).mem.val a = (tr j).mem.val a

theorem goto_pc_same (s : St T) (m : Mem T) (t : Nat) (p : Pc T) : (s.goto m t p).pc t = p := by simp [St.goto]
theorem goto_pc_ne (s : St T) (m : Mem T) {t u : Nat} (p : Pc T) (h : u ≠ t) : (s.goto m t p).pc u = s.pc u := by simp [St.goto, h]

section
variable {tr : Nat → St T} {lab : Nat → Label T} {k : Nat}

theorem RInv.hist_next (h : RInv cmp tr lab k) {own : Option Nat} (hm : MInv cmp (tr (k + 1)).mem)
    (e : Evo cmp (tr k).mem (tr (k + 1)).mem own) : ∀ j, j ≤ k + 1 → MInv cmp (tr j).mem ∧ (tr j).mem.alloc ≤ (tr (k + 1)).mem.alloc ∧
    ∀ a, a < (tr j).mem.alloc → (tr (k + 1)).mem.val a = (tr j).mem.val a := by
  intro j hj
  by_cases ej : j = k + 1
  · subst ej; exact ⟨hm, Nat.le_refl _, fun _ _ => rfl⟩
  · obtain ⟨h1, h2, h3⟩ := h.hist j (by omega)
    have := e.alloc
    exact ⟨h1, by omega, fun a ha => by rw [e.val a (by omega)]; exact h3 a ha⟩

theorem RInv.ceil_val (h : RInv cmp tr lab k) {v : T} {j c : Nat} (hj : j ≤ k) (hcl : Ceil cmp (tr j).mem v c) :
    c < (tr k).mem.alloc ∧ (tr j).mem.val c = (tr k).mem.val c := by
  obtain ⟨h1, h2, h3⟩ := h.hist j hj
  have : c < (tr j).mem.alloc := by
    rcases hcl.elem with e | e
    · rw [e]; exact h1.tail_lt
    · exact h1.live_lt e
  exact ⟨by omega, (h3 c this).symm⟩

/-- A goroutine's own access. -/
theorem RInv.moved (hc : cmp.Lawful) (h : RInv cmp tr lab k) {t : Nat} {op : Op T} {c : Ctl T} {coin : Nat → Bool} (ht : (lab k).tid = t)
    (hpc : (tr k).pc t = .run op c) (hr : ∀ o, c ≠ .ret o) (hp : ∀ x, c ≠ .panicked x)
    (hm : (tr (k + 1)).mem = (exec cmp coin (tr k).mem c).1) :
    ∃ own, Moved cmp tr lab t (since lab t k) k op c (exec cmp coin (tr k).mem c).2 own := by
  have hi := since_le lab t k
  have hct := h.ctl t op c hpc
  have h0 := h.mem
  cases c with
  | find f kt => exact ⟨_, move_find hc hi h0 (fun j c hj hcl => h.ceil_val hj hcl) hm hct⟩
  | addNew f => exact ⟨_, move_addNew hc h0 hm hct⟩
  | addCas f nn top => exact move_addCas hc hi h0 ht hm hct
  | addUp f nn top level => exact ⟨_, move_addUp hc hi h0 hm hct⟩
  | addSize => exact ⟨_, move_addSize h0 hm hct⟩
  | delLoad r level => exact ⟨_, move_delLoad h0 hm hct⟩
  | delCas r level nx => exact ⟨_, move_delCas h0 hm hct⟩
  | delLoad0 r => exact ⟨_, move_delLoad0 h0 hm hct⟩
  | delCas0 r nx => exact ⟨_, move_delCas0 hc hi h0 ht hm hct⟩
  | delSize => exact ⟨_, move_delSize h0 hm hct⟩
  | rankLen v => exact ⟨_, move_rankLen hc hi h0 hm hct⟩
  | lenLoad => exact ⟨_, move_lenLoad hi h0 hm hct⟩
  | ret o => exact absurd rfl (hr o)
  | panicked x => exact absurd rfl (hp x)

/-- The control point `addCas` is entered only with a node just made. -/
theorem exec_addCas {m : Mem T} {coin : Nat → Bool} {c : Ctl T} {f : Frame T} {nn top : Nat}
    (h : (exec cmp coin m c).2 = .addCas f nn top) : (nn = m.alloc ∧ ∃ g, c = .addNew g) ∨ c = .addCas f nn top := by
  cases c with
  | find g kt =>
    exfalso
    simp only [exec] at h
    rcases hx : findStep cmp m g with ⟨m', r⟩
    rw [hx] at h
    cases r with
    | cont f' => simp at h
    | done f' =>
      simp only at h
      cases kt with
      | add => simp only [Cont.resume] at h; split at h <;> simp at h
      | addUp nn top level => simp [Cont.resume] at h
      | del =>
        simp only [Cont.resume] at h
        split at h
        · split at h
          · unfold delLevel at h; split at h <;> simp at h
          · simp at h
        · simp at h
      | has => simp [Cont.resume] at h
      | get => simp only [Cont.resume] at h; split at h <;> simp at h
      | rank => simp [Cont.resume] at h
    | panic e => simp at h
  | addNew g =>
    simp only [exec, newNode] at h
    injection h with h1 h2 h3
    exact .inl ⟨h2.symm, g, rfl⟩
  | addCas g nn' top' =>
    simp only [exec] at h
    split at h
    · unfold addLevel at h; split at h <;> simp at h
    · simp at h
    · simp at h
    · simp only at h; exact .inr h
  | addUp g nn' top' level =>
    exfalso
    simp only [exec] at h
    split at h
    · unfold addLevel at h; split at h <;> simp at h
    · simp at h
    · simp at h
    · simp at h
  | addSize => simp [exec] at h
  | delLoad r level =>
    exfalso
    simp only [exec] at h
    split at h
    · simp only at h
      split at h
      · unfold delLevel at h; split at h <;> simp at h
      · simp at h
    · simp at h
    · simp at h
  | delCas r level nx => simp only [exec] at h; split at h <;> simp at h
  | delLoad0 r =>
    simp only [exec] at h
    split at h
    · simp only at h; split at h <;> simp at h
    · simp at h
    · simp at h
  | delCas0 r nx => simp only [exec] at h; split at h <;> simp at h
  | delSize => simp [exec] at h
  | rankLen v => simp only [exec] at h; split at h <;> simp at h
  | lenLoad => simp [exec] at h
  | ret o => simp [exec] at h
  | panicked x => simp [exec] at h

/-- What a goroutine other than the moving one knows stays true. -/
theorem RInv.others (hc : cmp.Lawful) (h : RInv cmp tr lab k) {own : Option Nat} (hm : MInv cmp (tr (k + 1)).mem)
    (e : Evo cmp (tr k).mem (tr (k + 1)).mem own)
    (hlv : ∀ a, 2 ≤ a → a < (tr k).mem.alloc → Pub (tr k).mem a → ¬ Mk (tr k).mem a → Mk (tr (k + 1)).mem a →
      ∀ x, Live (tr (k + 1)).mem x → Live (tr k).mem x)
    {u : Nat} (hu : u ≠ (lab k).tid) (hpc : (tr (k + 1)).pc u = (tr k).pc u) {op : Op T} {c : Ctl T}
    (hown : ∀ f nn top, c = .addCas f nn top → some nn ≠ own)
    (hrun : (tr (k + 1)).pc u = .run op c) : CtlOK cmp tr lab u (since lab u (k + 1)) (k + 1) op c := by
  rw [since_other (Ne.symm hu)]
  exact CtlOK.stable hc (since_le lab u k) h.mem hm e hlv (fun x => absurd x.symm hu) hown (h.ctl u op c (by rw [← hpc]; exact hrun))

theorem RInv.step (hc : cmp.Lawful) (h : RInv cmp tr lab k) (hs : Step cmp (tr k) (lab k) (tr (k + 1))) : RInv cmp tr lab (k + 1) := by
  generalize hs1 : tr k = s1 at hs
  generalize hs2 : tr (k + 1) = s2 at hs
  generalize hl : lab k = l at hs
  cases hs with
  | call t op hidle =>
    have hm : (tr (k + 1)).mem = (tr k).mem := by rw [hs2, hs1]; rfl
    have hmi : MInv cmp (tr (k + 1)).mem := by rw [hm]; exact h.mem
    have e : Evo cmp (tr k).mem (tr (k + 1)).mem none := by rw [hm]; exact Evo.refl h.mem
    have hne : ∀ u, u ≠ t → (tr (k + 1)).pc u = (tr k).pc u := fun u hu => by rw [hs2, hs1]; exact goto_pc_ne _ _ _ hu
    have hsame : (tr (k + 1)).pc t = .run op op.enter := by rw [hs2]; exact goto_pc_same _ _ _ _
    have hent : ∀ f nn top, op.enter ≠ .addCas f nn top := by intro f nn top; cases op <;> simp [Op.enter]
    refine ⟨hmi, ?_, ?_, h.hist_next hmi e⟩
    · intro u op' c hrun
      by_cases hu : u = t
      · subst hu
        rw [hsame] at hrun
        cases hrun
        have hsn : since lab u (k + 1) = k + 1 := by simp [since, hl]
        rw [hsn]
        have hun : Unch cmp tr lab u (k + 1) (k + 1) := fun j h1 h2 => by omega
        have hst : ∀ v, FInv cmp (tr (k + 1)).mem (Seen cmp tr (k + 1) (k + 1) v) (Frame.enter v (fun _ => nil) (fun _ => nil)) :=
          fun v => FInv.start hc hmi rfl rfl rfl fun c hc' => Seen.now (Nat.le_refl _) hc'
        cases op with
        | add v => exact ⟨hst v, rfl, hun⟩
        | del v => exact ⟨hst v, rfl, hun⟩
        | has v => exact ⟨hst v, rfl, hun⟩
        | get v => exact ⟨hst v, rfl, hun⟩
        | rank v => exact ⟨rfl, hun⟩
        | len => exact ⟨rfl, hun⟩
      · exact h.others hc hmi e (fun _ _ _ _ _ _ x hx => by rw [hm] at hx; exact hx) (by rw [hl]; exact hu) (hne u hu)
          (fun _ _ _ _ => nofun) hrun
    · intro u w op1 op2 f nn top f' nn' top' huw h1 h2
      by_cases hu : u = t
      · subst hu; rw [hsame] at h1; simp only [Pc.run.injEq] at h1; exact absurd h1.2 (hent _ _ _)
      · by_cases hw : w = t
        · subst hw; rw [hsame] at h2; simp only [Pc.run.injEq] at h2; exact absurd h2.2 (hent _ _ _)
        · rw [hne u hu] at h1; rw [hne w hw] at h2
          exact h.dist u w _ _ _ _ _ _ _ _ huw h1 h2
  | ret t op o hpc =>
    have hm : (tr (k + 1)).mem = (tr k).mem := by rw [hs2, hs1]; rfl
    have hmi : MInv cmp (tr (k + 1)).mem := by rw [hm]; exact h.mem
    have e : Evo cmp (tr k).mem (tr (k + 1)).mem none := by rw [hm]; exact Evo.refl h.mem
    have hne : ∀ u, u ≠ t → (tr (k + 1)).pc u = (tr k).pc u := fun u hu => by rw [hs2, hs1]; exact goto_pc_ne _ _ _ hu
    have hsame : (tr (k + 1)).pc t = .idle := by rw [hs2]; exact goto_pc_same _ _ _ _
    refine ⟨hmi, ?_, ?_, h.hist_next hmi e⟩
    · intro u op' c hrun
      by_cases hu : u = t
      · subst hu; rw [hsame] at hrun; cases hrun
      · exact h.others hc hmi e (fun _ _ _ _ _ _ x hx => by rw [hm] at hx; exact hx) (by rw [hl]; exact hu) (hne u hu)
          (fun _ _ _ _ => nofun) hrun
    · intro u w op1 op2 f nn top f' nn' top' huw h1 h2
      by_cases hu : u = t
      · subst hu; rw [hsame] at h1; cases h1
      · by_cases hw : w = t
        · subst hw; rw [hsame] at h2; cases h2
        · rw [hne u hu] at h1; rw [hne w hw] at h2
          exact h.dist u w _ _ _ _ _ _ _ _ huw h1 h2
  | tau t op c coin hpc hr hp =>
    have hm : (tr (k + 1)).mem = (exec cmp coin (tr k).mem c).1 := by rw [hs2, hs1]; rfl
    have hne : ∀ u, u ≠ t → (tr (k + 1)).pc u = (tr k).pc u := fun u hu => by rw [hs2, hs1]; exact goto_pc_ne _ _ _ hu
    have hsame : (tr (k + 1)).pc t = .run op (exec cmp coin (tr k).mem c).2 := by rw [hs2, hs1]; exact goto_pc_same _ _ _ _
    rw [← hs1] at hpc
    obtain ⟨own, hmv⟩ := h.moved hc (by rw [hl]; rfl) hpc hr hp hm
    refine ⟨hmv.inv, ?_, ?_, h.hist_next hmv.inv hmv.evo⟩
    · intro u op' c' hrun
      by_cases hu : u = t
      · subst hu
        rw [hsame] at hrun
        cases hrun
        rw [since_nocall (by intro o; rw [hl]; nofun)]
        exact hmv.ctl
      · refine h.others hc hmv.inv hmv.evo hmv.lv (by rw [hl]; exact hu) (hne u hu) ?_ hrun
        intro f nn top hcc
        rcases hmv.own with ho | ⟨f', nn', top', h1, h2⟩
        · rw [ho]; nofun
        · rw [h2]
          intro heq
          rw [hne u hu, hcc] at hrun
          rw [h1] at hpc
          exact h.dist u t _ _ _ _ _ _ _ _ hu hrun hpc (Option.some.inj heq)
    · have key : ∀ u op1 op2 f nn top f' nn' top', u ≠ t → (tr (k + 1)).pc t = .run op1 (.addCas f nn top) →
          (tr (k + 1)).pc u = .run op2 (.addCas f' nn' top') → nn ≠ nn' := by
        intro u op1 op2 f nn top f' nn' top' hu h1 h2
        rw [hne u hu] at h2
        rw [hsame] at h1
        simp only [Pc.run.injEq] at h1
        rcases exec_addCas h1.2 with ⟨e1, -⟩ | e1
        · have := (h.ctl u _ _ h2).2.2.2.2.priv.lt
          omega
        · rw [e1] at hpc
          exact h.dist t u _ _ _ _ _ _ _ _ (Ne.symm hu) hpc h2
      intro u w op1 op2 f nn top f' nn' top' huw h1 h2
      by_cases hu : u = t
      · subst hu; exact key w _ _ _ _ _ _ _ _ (Ne.symm huw) h1 h2
      · by_cases hw : w = t
        · subst hw; exact Ne.symm (key u _ _ _ _ _ _ _ _ hu h2 h1)
        · rw [hne u hu] at h1; rw [hne w hw] at h2
          exact h.dist u w _ _ _ _ _ _ _ _ huw h1 h2

theorem RInv.all {zero : T} {n : Nat} (hc : cmp.Lawful) (hr : IsRun cmp zero tr lab n) : ∀ k, k ≤ n → RInv cmp tr lab k := by
  intro k
  induction k with
  | zero =>
    intro _
    have h0 : MInv cmp (tr 0).mem := by rw [hr.start]; exact inv_new zero
    refine ⟨h0, ?_, ?_, ?_⟩
    · intro t op c h; rw [hr.start] at h; cases h
    · intro t u op op' f nn top f' nn' top' _ h; rw [hr.start] at h; cases h
    · intro j hj
      have : j = 0 := by omega
      subst this
      exact ⟨h0, Nat.le_refl _, fun _ _ => rfl⟩
  | succ k ih => intro hk; exact (ih (by omega)).step hc (hr.step k (by omega))

/-- While a call is in progress its goroutine is inside the method, and its start is remembered. -/
theorem running {zero : T} {n i t : Nat} {op : Op T} (hr : IsRun cmp zero tr lab n) (hi : lab i = .call t op) :
    ∀ j, i < j → j ≤ n → (∀ x, i < x → x < j → ∀ o, lab x ≠ .ret t o) →
      (∃ c, (tr j).pc t = .run op c) ∧ since lab t j = i + 1 := by
  intro j
  induction j with
  | zero => intro h; omega
  | succ j ih =>
    intro h1 h2 h3
    have hs := hr.step j (by omega)
    by_cases e : j = i
    · subst e
      refine ⟨⟨op.enter, ?_⟩, by simp [since, hi]⟩
      rw [hi] at hs
      generalize hs2 : tr (j + 1) = s2 at hs
      cases hs with
      | call _ _ hidle => exact goto_pc_same _ _ _ _
    · obtain ⟨⟨c, hc⟩, hsn⟩ := ih (by omega) (by omega) (fun x g1 g2 => h3 x g1 (by omega))
      have hnr := h3 j (by omega) (by omega)
      generalize hl : lab j = l at hs
      generalize hs1 : tr j = s1 at hs
      generalize hs2 : tr (j + 1) = s2 at hs
      cases hs with
      | call u op' hidle =>
        have hut : u ≠ t := by rintro rfl; rw [hs1, hidle] at hc; cases hc
        refine ⟨⟨c, ?_⟩, ?_⟩
        · rw [goto_pc_ne _ _ _ (Ne.symm hut), ← hs1]; exact hc
        · rw [since_nocall]; exact hsn
          intro o; rw [hl]; simp [hut]
      | tau u op' c' coin hpc hr' hp' =>
        refine ⟨?_, ?_⟩
        · by_cases hut : t = u
          · subst hut
            rw [← hs1, hc] at hpc
            cases hpc
            exact ⟨_, goto_pc_same _ _ _ _⟩
          · exact ⟨c, by rw [goto_pc_ne _ _ _ hut, ← hs1]; exact hc⟩
        · rw [since_nocall]; exact hsn
          intro o; rw [hl]; nofun
      | ret u op' o hpc =>
        have hut : t ≠ u := by rintro rfl; exact hnr o hl
        refine ⟨⟨c, by rw [goto_pc_ne _ _ _ hut, ← hs1]; exact hc⟩, ?_⟩
        rw [since_nocall]; exact hsn
        intro o; rw [hl]; nofun

/-- The meaning of a result, at the instant it is returned. -/
theorem returned {zero : T} {n i j t : Nat} {op : Op T} {o : Out T} (hc : cmp.Lawful) (hr : IsRun cmp zero tr lab n)
    (hi : lab i = .call t op) (hij : i < j) (hj : j < n) (hret : lab j = .ret t o)
    (hfirst : ∀ x, i < x → x < j → ∀ o', lab x ≠ .ret t o') : RetOK cmp tr lab t (i + 1) j op o := by
  obtain ⟨⟨c, hpc⟩, hsn⟩ := running hr hi j hij (by omega) hfirst
  have hs := hr.step j hj
  rw [hret] at hs
  generalize hs1 : tr j = s1 at hs
  generalize hs2 : tr (j + 1) = s2 at hs
  cases hs with
  | ret _ op' _ hpc' =>
    rw [← hs1, hpc] at hpc'
    cases hpc'
    have := (RInv.all hc hr j (by omega)).ctl t op _ hpc
    rw [hsn] at this
    exact this

end

end Gds.LockFree
