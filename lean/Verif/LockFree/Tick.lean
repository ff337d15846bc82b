import Verif.LockFree.Progress

/-! One access: it uses up budget, bypasses a deleted node, or brings its goroutine closer to its return. -/

namespace Gds.LockFree
variable {T : Type _} {cmp : Compare T}

/-- Nothing that another goroutine can see happens. -/
structure Calm (m m' : Mem T) : Prop where
  alloc : m.alloc ≤ m'.alloc
  next : ∀ a l, a < m.alloc → m'.next a l = m.next a l
  val : ∀ a, a < m.alloc → m'.val a = m.val a
  lvl : ∀ a, a < m.alloc → m'.lvl a = m.lvl a
  pub : ∀ b, b < m'.alloc → Pub m' b → b < m.alloc ∧ Pub m b

theorem Calm.refl (m : Mem T) : Calm m m := ⟨Nat.le_refl _, fun _ _ _ => rfl, fun _ _ => rfl, fun _ _ => rfl, fun _ h1 h2 => ⟨h1, h2⟩⟩

theorem Calm.size (m : Mem T) (z : BitVec 32) : Calm m { m with size := z } :=
  ⟨Nat.le_refl _, fun _ _ _ => rfl, fun _ _ => rfl, fun _ _ => rfl, fun b h1 h2 => ⟨h1, (pub_size b).1 h2⟩⟩

/-- The three outcomes of an access. -/
def Tick (cmp : Compare T) (m : Mem T) (c : Ctl T) (m' : Mem T) (c' : Ctl T) : Prop :=
  budget m' c' < budget m c ∨
  (budget m' c' ≤ budget m c ∧
    (Unlinked cmp m m' ∨
      (Calm m m' ∧ ∀ A, (∀ b, b < m.alloc → Pub m b → b < A) → loc cmp m' A c' < loc cmp m A c)))

theorem budget_delLevel {m : Mem T} {a l : Nat} : budget m (delLevel (ref a) l : Ctl T) ≤ l + 1 := by
  unfold delLevel
  by_cases h : 0 < l
  · rw [if_pos h]; simp only [budget, ref]; split <;> omega
  · rw [if_neg h]; simp only [budget, ref]; split <;> omega

theorem base_delLevel {m : Mem T} {A : Nat} {r : Ptr} {l : Nat} : base cmp m A (delLevel r l : Ctl T) ≤ 2 * l + 4 := by
  unfold delLevel
  by_cases h : 0 < l
  · rw [if_pos h]; simp only [base]; omega
  · rw [if_neg h]; simp only [base]; omega

theorem fresh_delLevel {m : Mem T} {r : Ptr} {l : Nat} : Fresh m (delLevel r l : Ctl T) := by
  unfold delLevel; split <;> exact trivial

theorem base_enter {m : Mem T} {A : Nat} {v : T} {ps ns : Nat → Ptr} {kt : Cont} :
    base cmp m A (.find (Frame.enter v ps ns) kt) < maxLevel * wid A + 50 := by
  have := findM_start (cmp := cmp) (m := m) (A := A) (Frame.enter v ps ns) rfl rfl
  simp only [base]; omega

theorem nextIs_unique {m : Mem T} {a l : Nat} {q : Ptr} (h : NextIs m (ref a) l q) : m.next a l = q := by
  obtain ⟨a', h1, h2⟩ := h
  have : a = a' := by simpa [ref] using h1
  subst this; exact h2

section
variable {tr : Nat → St T} {lab : Nat → Label T} {t k : Nat}

theorem resume_tick {m : Mem T} {f f0 : Frame T} {kt : Cont} {A : Nat} (hx : XInv m) (hn : kt = .del → ∃ a, f.nexts 0 = ref a ∧ a < m.alloc ∧ 0 < m.lvl a)
    (hcur : ∃ a, f.cur = ref a) :
    budget m (kt.resume cmp m f) ≤ budget m (.find f0 kt) ∧ base cmp m A (kt.resume cmp m f) < 50 ∧
    (FreshArr m f 0 → (∀ nn top level, kt = .addUp nn top level → level < maxLevel) → Fresh m (kt.resume cmp m f)) := by
  cases kt with
  | add =>
    simp only [Cont.resume]
    split
    · exact ⟨Nat.zero_le _, by simp [base], fun _ _ => trivial⟩
    · exact ⟨Nat.le_refl _, by simp [base], fun h _ => h⟩
  | addUp nn top level =>
    exact ⟨Nat.le_refl _, by simp [base, Cont.resume], fun h hl => h level (Nat.zero_le _) (hl _ _ _ rfl)⟩
  | del =>
    obtain ⟨a, h1, h2, h3⟩ := hn rfl
    have h4 := hx.lvl a h2
    simp only [Cont.resume]
    split
    · rw [h1]
      refine ⟨Nat.le_trans budget_delLevel ?_, Nat.lt_of_le_of_lt base_delLevel ?_, fun _ _ => fresh_delLevel⟩
      · simp only [budget]; omega
      · simp only [maxLevel] at h4; omega
    · exact ⟨Nat.zero_le _, by simp [base], fun _ _ => trivial⟩
  | has => exact ⟨Nat.zero_le _, by simp [base, Cont.resume], fun _ _ => trivial⟩
  | get =>
    obtain ⟨a, ha⟩ := hcur
    simp only [Cont.resume, ha, ref]
    exact ⟨Nat.zero_le _, by simp [base], fun _ _ => trivial⟩
  | rank => exact ⟨Nat.zero_le _, by simp [base, Cont.resume], fun _ _ => trivial⟩

theorem tick (hc : cmp.Lawful) (h : RInv cmp tr lab k) (hx : XInv (tr k).mem) {op : Op T} {c : Ctl T} {coin : Nat → Bool}
    (hpc : (tr k).pc t = .run op c) (hnr : ∀ o, c ≠ .ret o) :
    Eff (tr k).mem (exec cmp coin (tr k).mem c).1 ∧
    Tick cmp (tr k).mem c (exec cmp coin (tr k).mem c).1 (exec cmp coin (tr k).mem c).2 := by
  have hct := h.ctl t op c hpc
  have h0 := h.mem
  have hi := since_le lab t k
  have calm : ∀ {c' : Ctl T}, budget (tr k).mem c' ≤ budget (tr k).mem c →
      (∀ A, (∀ b, b < (tr k).mem.alloc → Pub (tr k).mem b → b < A) → loc cmp (tr k).mem A c' < loc cmp (tr k).mem A c) →
      Eff (tr k).mem (tr k).mem ∧ Tick cmp (tr k).mem c (tr k).mem c' := fun h1 h2 => ⟨.same, .inr ⟨h1, .inr ⟨.refl _, h2⟩⟩⟩
  cases c with
  | find f kt =>
    obtain ⟨hf, hk⟩ := hct
    have fs := findStep_spec hc h0 hf (fun c hc' => Seen.now hi hc')
    have hft := fun A hA => find_tick (A := A) hc h0 hx hf hA
    have hbf : ∀ f', budget (tr k).mem (.find f' kt) = budget (tr k).mem (.find f kt : Ctl T) := by intro f'; cases kt <;> rfl
    rcases hst : findStep cmp (tr k).mem f with ⟨m', r⟩
    rw [hst] at hft fs
    simp only at hft fs
    simp only [exec, hst]
    rcases hft (tr k).mem.alloc (fun b hb _ => hb) with ⟨hu, f', rfl⟩ | ⟨rfl, -⟩
    · simp only
      obtain ⟨a, l, b, d, g1, g1', g2, g3, g4, g5, g6, g7, g8⟩ := id hu
      refine ⟨by rw [g7]; exact .link a l b d g3, .inr ⟨?_, .inl hu⟩⟩
      cases kt <;> exact Nat.le_refl _
    · rcases fs.res (fun _ => True) (fun _ _ => trivial) (fun _ _ => trivial) with ⟨f', rfl, -⟩ | ⟨f', c, rfl, hv, hd, hcu, -⟩
      · refine calm (by rw [hbf]; exact Nat.le_refl _) fun A hA => ?_
        rcases hft A hA with ⟨hu, -⟩ | ⟨-, ⟨f'', g1, g2, g3⟩ | ⟨f'', g1, g2, g3, g4⟩ | ⟨f'', g1, g2⟩⟩
        · obtain ⟨a, l, b, d, g1, g1', g2, g3, g4, g5, g6, g7, g8⟩ := hu
          exfalso
          have : ((tr k).mem.setNext a l (ref d)).next a l = (tr k).mem.next a l := by rw [← g7]
          rw [setNext_same, g3] at this
          have : d = b := by simpa [ref] using this
          subst this; exact g6.irrefl hc
        · cases g1; exact loc_fwd (by simp only [base]; omega) g3
        · cases g1; exact loc_fail (by simp only [base]; omega) g2 g3
        · cases g1
      · have hr : ∀ A, _ := fun A => resume_tick (cmp := cmp) (A := A) (f0 := f) (f := f') (kt := kt) hx (fun _ => by
          obtain ⟨b, hb1, hb2, hb3, -⟩ := (hd.arr 0 (by decide)).2
          exact ⟨b, hb1, hb2, hb3⟩) ⟨c, hcu⟩
        refine calm (hr 0).1 fun A hA => ?_
        refine loc_fwd (Nat.lt_of_lt_of_le (hr A).2.1 (by simp only [base]; omega)) fun hfr => (hr A).2.2 ?_ ?_
        · rcases hft A hA with ⟨-, f'', g1⟩ | ⟨-, ⟨f'', g1, -⟩ | ⟨f'', g1, -⟩ | ⟨f'', g1, g2⟩⟩
          · cases g1
          · cases g1
          · cases g1
          · cases g1; exact g2 hfr
        · rintro nn top level rfl
          obtain ⟨-, -, h5⟩ := hk
          have := h5.lev; have := h5.top; omega
  | addNew f =>
    obtain ⟨h1, h2, h3, h4⟩ := hct
    have hf := fills_of_done hc h0 (randomLevel_le coin) h3 h4
    have hmm : (exec cmp coin (tr k).mem (.addNew f)).1 = allocMem (tr k).mem (randomLevel coin) f.v f.nexts := rfl
    have hcc : (exec cmp coin (tr k).mem (.addNew f)).2 = .addCas f (tr k).mem.alloc (randomLevel coin) := rfl
    rw [hmm, hcc]
    have hle := randomLevel_le coin
    refine ⟨.alloc _ _ _ hle fun l hl => ?_, .inr ⟨Nat.le_refl _, .inr ⟨⟨?_, ?_, ?_, ?_, ?_⟩, fun A hA => ?_⟩⟩⟩
    · obtain ⟨b, hb1, -⟩ := (h3.arr l (by omega)).2
      rw [hb1]; rfl
    · rw [allocMem_alloc]; omega
    · intro a l ha; exact allocMem_next_old ha l
    · intro a ha; rw [allocMem_val, if_neg (by omega)]
    · intro a ha; rw [allocMem_lvl, if_neg (by omega)]
    · intro b hb hpb
      rw [allocMem_alloc] at hb
      by_cases e : b = (tr k).mem.alloc
      · subst e
        exact absurd (priv_alloc h0 hf) ((inv_alloc hc h0 (randomLevel_pos coin) hf).not_priv_of_pub hpb)
      · exact ⟨by omega, (pub_alloc h0 (by omega)).1 hpb⟩
    · refine loc_fwd (by simp [base]) fun hfr l g1 g2 => ?_
      obtain ⟨a, g3, g4⟩ := hfr l g1 g2
      obtain ⟨a', g5, g6, -⟩ := (h3.arr l g2).1
      have : a = a' := by rw [g5] at g3; simpa [ref] using g3.symm
      subst this
      exact ⟨a, g3, by rw [allocMem_next_old g6]; exact g4⟩
  | addCas f nn top =>
    obtain ⟨h1, h2, h3, ⟨b, hb1, hb2⟩, h5⟩ := hct
    obtain ⟨a, ha1, ha2, ha3, ha4, ha5⟩ := (h3.arr 0 (by decide)).1
    simp only [exec]
    rw [ha1, casNext_ref ha3]
    by_cases hcas : (tr k).mem.next a 0 = f.nexts 0
    · rw [if_pos hcas]
      simp only
      rw [hb1] at hcas
      refine ⟨.link a 0 b nn hcas, .inl ?_⟩
      have := h5.top
      have := h5.pos
      unfold addLevel
      split <;> simp only [budget, maxLevel] at * <;> omega
    · rw [if_neg hcas]
      refine calm (Nat.le_refl _) fun A hA => loc_fail (Nat.lt_of_lt_of_le base_enter (by omega)) (fun hfr => ?_) (freshF_start h0 _ rfl rfl rfl)
      have := hfr 0 (Nat.le_refl _) (by decide)
      rw [ha1] at this
      exact hcas (nextIs_unique this)
  | addUp f nn top level =>
    obtain ⟨h1, h2, h3, h5⟩ := hct
    have hlm : level < maxLevel := by have := h5.lev; have := h5.top; omega
    obtain ⟨a, ha1, ha2, ha3, ha4, ha5⟩ := (h3.arr level hlm).1
    obtain ⟨b, hb1, -⟩ := (h3.arr level hlm).2
    simp only [exec]
    rw [ha1, casNext_ref ha3]
    by_cases hcas : (tr k).mem.next a level = f.nexts level
    · rw [if_pos hcas]
      simp only
      rw [hb1] at hcas
      refine ⟨.link a level b nn hcas, .inl ?_⟩
      have := h5.lev
      unfold addLevel
      split <;> simp only [budget] <;> omega
    · rw [if_neg hcas]
      refine calm (Nat.le_refl _) fun A hA => loc_fail (Nat.lt_of_lt_of_le base_enter (by omega)) (fun hfr => ?_) (freshF_start h0 _ rfl rfl rfl)
      simp only [Fresh] at hfr
      rw [ha1] at hfr
      exact hcas (nextIs_unique hfr)
  | addSize => exact ⟨.size _, .inr ⟨Nat.le_refl _, .inr ⟨.size _ _, fun A _ => loc_fwd (by simp [exec, base]) fun _ => trivial⟩⟩⟩
  | delSize => exact ⟨.size _, .inr ⟨Nat.le_refl _, .inr ⟨.size _ _, fun A _ => loc_fwd (by simp [exec, base]) fun _ => trivial⟩⟩⟩
  | delLoad r level =>
    obtain ⟨v, a, rfl, h2, rfl, h4, h5⟩ := hct
    simp only [exec]
    rw [loadNext_ref h4.lev]
    simp only
    by_cases hmk : isMarked ((tr k).mem.next a level) = true
    · rw [if_pos hmk]
      have hmk' : ((tr k).mem.next a level).mark = true := hmk
      refine calm (Nat.le_trans budget_delLevel ?_) fun A hA => loc_fwd (Nat.lt_of_le_of_lt base_delLevel ?_) fun _ => fresh_delLevel
      · simp only [budget, ref, hmk', if_true]; omega
      · simp only [base]; omega
    · rw [if_neg hmk]
      exact calm (Nat.le_refl _) fun A hA => loc_fwd (by simp only [base]; omega) fun _ => ⟨a, rfl, rfl⟩
  | delCas r level nx =>
    obtain ⟨v, a, rfl, h2, rfl, h4, h5, h6⟩ := hct
    simp only [exec]
    rw [casNext_ref h4.lev]
    by_cases hcas : (tr k).mem.next a level = nx
    · rw [if_pos hcas]
      simp only
      subst hcas
      refine ⟨.mark a level h4.above, .inl ?_⟩
      simp only [budget, ref, h6, setNext_same, getMarked]
      simp
    · rw [if_neg hcas]
      exact calm (Nat.le_refl _) fun A hA => loc_fail (by have := h4.lev; have := hx.lvl a h4.lt; simp only [base, maxLevel] at *; omega) (fun hfr => hcas (nextIs_unique hfr)) trivial
  | delLoad0 r =>
    obtain ⟨v, a, rfl, h2, rfl, h4⟩ := hct
    simp only [exec]
    rw [loadNext_ref h4.lev]
    simp only
    by_cases hmk : isMarked ((tr k).mem.next a 0) = true
    · rw [if_pos hmk]
      exact calm (Nat.zero_le _) fun A hA => loc_fwd (by simp [base]) fun _ => trivial
    · rw [if_neg hmk]
      exact calm (Nat.le_refl _) fun A hA => loc_fwd (by simp only [base]; omega) fun _ => ⟨a, rfl, rfl⟩
  | delCas0 r nx =>
    obtain ⟨v, a, rfl, h2, rfl, h4, h6⟩ := hct
    simp only [exec]
    rw [casNext_ref h4.lev]
    by_cases hcas : (tr k).mem.next a 0 = nx
    · rw [if_pos hcas]
      simp only
      subst hcas
      refine ⟨.mark a 0 h4.above, .inl ?_⟩
      simp only [budget, ref, h6]
      simp
    · rw [if_neg hcas]
      exact calm (Nat.le_refl _) fun A hA => loc_fail (by simp only [base]; omega) (fun hfr => hcas (nextIs_unique hfr)) trivial
  | rankLen v =>
    simp only [exec]
    by_cases hs : (tr k).mem.size.toInt ≤ 1
    · rw [if_pos hs]
      exact calm (Nat.zero_le _) fun A hA => loc_fwd (by simp [base]) fun _ => trivial
    · rw [if_neg hs]
      exact calm (Nat.zero_le _) fun A hA => loc_fwd (Nat.lt_of_lt_of_le base_enter (by simp only [base]; omega)) fun _ => freshF_start h0 _ rfl rfl rfl
  | lenLoad => exact calm (c' := .ret _) (Nat.zero_le _) fun A hA => loc_fwd (by simp [base]) fun _ => trivial
  | ret o => exact absurd rfl (hnr o)
  | panicked x => exact absurd hct id

end

end Gds.LockFree
