import Verif.LockFree.Lin

/-! How the field `size` follows the number of elements. -/

namespace Gds.LockFree
variable {T : Type _} {cmp : Compare T}

/-- What a goroutine still owes to `size`: `1` between the linking of a new node and the increment, `-1` between the
    marking of a node and the decrement. -/
def pend : Ctl T → Int
  | .find _ (.addUp ..) | .addUp .. | .addSize => 1
  | .delSize => -1
  | _ => 0

/-- The number of live nodes changes by `d`. -/
def LiveD (m m' : Mem T) (d : Int) : Prop :=
  (d = 0 ∧ ∀ x, Live m' x ↔ Live m x) ∨ (d = 1 ∧ ∃ y, ¬ Live m y ∧ ∀ x, Live m' x ↔ Live m x ∨ x = y) ∨
  (d = -1 ∧ ∃ y, Live m y ∧ ∀ x, Live m' x ↔ Live m x ∧ x ≠ y)

def Bal (m : Mem T) (c : Ctl T) (m' : Mem T) (c' : Ctl T) : Prop :=
  ∃ d, LiveD m m' d ∧ m'.size = m.size + BitVec.ofInt 32 (d - pend c' + pend c)

theorem Bal.quiet {m m' : Mem T} {c c' : Ctl T} (hl : ∀ x, Live m' x ↔ Live m x) (hs : m'.size = m.size) (hp : pend c' = pend c) :
    Bal m c m' c' :=
  ⟨0, .inl ⟨rfl, hl⟩, by rw [hs, hp, show (0 : Int) - pend c + pend c = 0 by omega]; simp⟩

theorem pend_delLevel (r : Ptr) (l : Nat) : pend (delLevel r l : Ctl T) = 0 := by unfold delLevel; split <;> rfl
theorem pend_addLevel (f : Frame T) (nn top l : Nat) : pend (addLevel f nn top l) = 1 := by unfold addLevel; split <;> rfl

section
variable {tr : Nat → St T} {lab : Nat → Label T} {t i k : Nat}

theorem bal_step (hc : cmp.Lawful) (h : RInv cmp tr lab k) {op : Op T} {c : Ctl T} {coin : Nat → Bool}
    (hpc : (tr k).pc t = .run op c) : Bal (tr k).mem c (exec cmp coin (tr k).mem c).1 (exec cmp coin (tr k).mem c).2 := by
  have hct := h.ctl t op c hpc
  have h0 := h.mem
  have hi := since_le lab t k
  cases c with
  | find f kt =>
    obtain ⟨hf, hk⟩ := hct
    have fs := findStep_spec hc h0 hf (fun c hc' => Seen.now hi hc')
    have hmm : (exec cmp coin (tr k).mem (.find f kt)).1 = (findStep cmp (tr k).mem f).1 := by
      simp only [exec]; rcases hx : findStep cmp (tr k).mem f with ⟨m', r⟩; cases r <;> simp [hx]
    refine Bal.quiet (by rw [hmm]; exact fs.live) (by rw [hmm]; exact fs.size) ?_
    simp only [exec]; rcases hx : findStep cmp (tr k).mem f with ⟨m', r⟩
    cases r with
    | cont f' => cases kt <;> rfl
    | done f' =>
      simp only [hx]
      cases kt with
      | add => simp only [Cont.resume]; split <;> rfl
      | addUp => rfl
      | del =>
        simp only [Cont.resume]
        split
        · split
          · exact pend_delLevel _ _
          · rfl
        · rfl
      | has => rfl
      | get => simp only [Cont.resume]; split <;> rfl
      | rank => rfl
    | panic e =>
      exfalso
      rw [hx] at fs
      rcases fs.res (fun _ => True) (fun _ _ => trivial) (fun _ _ => trivial) with ⟨f', h1, -⟩ | ⟨f', c, h1, -⟩ <;> cases h1
  | addNew f =>
    exact Bal.quiet (live_alloc h0) allocMem_size rfl
  | addCas f nn top =>
    obtain ⟨h1, h2, h3, ⟨b, hb1, hb2⟩, h5⟩ := hct
    obtain ⟨a, ha1, ha2, ha3, ha4, ha5⟩ := (h3.arr 0 (by decide)).1
    simp only [exec]
    rw [ha1, casNext_ref ha3]
    by_cases hcas : (tr k).mem.next a 0 = f.nexts 0
    · rw [if_pos hcas]
      simp only
      rw [hb1] at hcas
      have hd : Nx (tr k).mem nn b := by unfold Nx; rw [h5.next0, hb1]; rfl
      refine ⟨1, .inr (.inl ⟨rfl, nn, ?_, insert_live h0 ha4 hcas hd h5.priv⟩), ?_⟩
      · intro hl
        exact h0.not_priv_of_pub (.inr hl.path) h5.priv
      · rw [pend_addLevel]; show _ = _ + BitVec.ofInt 32 (1 - 1 + 0); simp
    · rw [if_neg hcas]
      exact Bal.quiet (fun _ => Iff.rfl) rfl rfl
  | addUp f nn top level =>
    obtain ⟨h1, h2, h3, h5⟩ := hct
    have hlm : level < maxLevel := by have := h5.lev; have := h5.top; omega
    obtain ⟨a, ha1, ha2, ha3, ha4, ha5⟩ := (h3.arr level hlm).1
    simp only [exec]
    rw [ha1, casNext_ref ha3]
    by_cases hcas : (tr k).mem.next a level = f.nexts level
    · rw [if_pos hcas]
      exact Bal.quiet (live_up h5.pos) rfl (pend_addLevel _ _ _ _)
    · rw [if_neg hcas]
      exact Bal.quiet (fun _ => Iff.rfl) rfl rfl
  | addSize => exact ⟨0, .inl ⟨rfl, live_size⟩, rfl⟩
  | delLoad r level =>
    obtain ⟨v, a, rfl, h2, rfl, h4, h5⟩ := hct
    simp only [exec]
    rw [loadNext_ref h4.lev]
    refine Bal.quiet (fun _ => Iff.rfl) rfl ?_
    simp only
    split
    · exact pend_delLevel _ _
    · rfl
  | delCas r level nx =>
    obtain ⟨v, a, rfl, h2, rfl, h4, h5, h6⟩ := hct
    simp only [exec]
    rw [casNext_ref h4.lev]
    by_cases hcas : (tr k).mem.next a level = nx
    · rw [if_pos hcas]
      subst hcas
      exact Bal.quiet (live_mark_up h5) rfl rfl
    · rw [if_neg hcas]; exact Bal.quiet (fun _ => Iff.rfl) rfl rfl
  | delLoad0 r =>
    obtain ⟨v, a, rfl, h2, rfl, h4⟩ := hct
    simp only [exec]
    rw [loadNext_ref h4.lev]
    refine Bal.quiet (fun _ => Iff.rfl) rfl ?_
    simp only
    split <;> rfl
  | delCas0 r nx =>
    obtain ⟨v, a, rfl, h2, rfl, h4, h6⟩ := hct
    simp only [exec]
    rw [casNext_ref h4.lev]
    by_cases hcas : (tr k).mem.next a 0 = nx
    · rw [if_pos hcas]
      subst hcas
      have hum : ¬ Mk (tr k).mem a := by unfold Mk; rw [h6]; decide
      have hlive : Live (tr k).mem a :=
        ⟨by have := h4.two; simp only [headA]; omega, by have := h4.two; simp only [tailA]; omega, h0.path_of_pub h4.pub hum, hum⟩
      exact ⟨-1, .inr (.inr ⟨rfl, a, hlive, live_mark⟩), by show _ = _ + BitVec.ofInt 32 (-1 - -1 + 0); simp⟩
    · rw [if_neg hcas]; exact Bal.quiet (fun _ => Iff.rfl) rfl rfl
  | delSize => exact ⟨0, .inl ⟨rfl, live_size⟩, by show (tr k).mem.size - 1 = _ + BitVec.ofInt 32 (0 - 0 + -1); rw [BitVec.sub_eq_add_neg]; rfl⟩
  | rankLen v =>
    refine Bal.quiet (fun _ => Iff.rfl) rfl ?_
    simp only [exec]; split <;> rfl
  | lenLoad => exact Bal.quiet (fun _ => Iff.rfl) rfl rfl
  | ret o => exact Bal.quiet (fun _ => Iff.rfl) rfl rfl
  | panicked x => exact Bal.quiet (fun _ => Iff.rfl) rfl rfl

end

/-! ### Summing over the goroutines -/

def Pc.pend : Pc T → Int
  | .idle => 0
  | .run _ c => LockFree.pend c

/-- The sum of `f 0`, …, `f (n - 1)`. -/
def sumTo (f : Nat → Int) : Nat → Int
  | 0 => 0
  | n + 1 => sumTo f n + f n

theorem sumTo_congr {f g : Nat → Int} : ∀ n, (∀ u, u < n → f u = g u) → sumTo f n = sumTo g n
  | 0, _ => rfl
  | n + 1, h => by
    simp only [sumTo]
    rw [sumTo_congr n fun u hu => h u (by omega), h n (by omega)]

theorem sumTo_change {f g : Nat → Int} {t : Nat} : ∀ n, t < n → (∀ u, u ≠ t → g u = f u) → sumTo g n = sumTo f n + (g t - f t)
  | 0, h, _ => by omega
  | n + 1, h, hne => by
    simp only [sumTo]
    by_cases e : t = n
    · subst e
      rw [sumTo_congr t fun u hu => hne u (by omega)]; omega
    · rw [sumTo_change n (by omega) hne, hne n (Ne.symm e)]; omega

theorem sumTo_zero {f : Nat → Int} : ∀ n, (∀ u, u < n → f u = 0) → sumTo f n = 0
  | 0, _ => rfl
  | n + 1, h => by simp only [sumTo]; rw [sumTo_zero n fun u hu => h u (by omega), h n (by omega)]; rfl

theorem live_count {m m' : Mem T} {d : Int} (h : LiveD m m' d) {L : List Nat} (hn : L.Nodup) (hL : ∀ x, x ∈ L ↔ Live m x) :
    ∃ L' : List Nat, L'.Nodup ∧ (∀ x, x ∈ L' ↔ Live m' x) ∧ (L'.length : Int) = L.length + d := by
  rcases h with ⟨rfl, h⟩ | ⟨rfl, y, h1, h2⟩ | ⟨rfl, y, h1, h2⟩
  · exact ⟨L, hn, fun x => (hL x).trans (h x).symm, by omega⟩
  · refine ⟨y :: L, List.nodup_cons.2 ⟨fun hy => h1 ((hL y).1 hy), hn⟩, fun x => ?_, by simp⟩
    rw [h2 x, ← hL x, List.mem_cons]; tauto
  · have hy := (hL y).2 h1
    refine ⟨L.erase y, hn.erase y, fun x => ?_, ?_⟩
    · rw [hn.mem_erase_iff, h2 x, hL x]; tauto
    · have := List.length_erase_of_mem hy
      have := List.length_pos_of_mem hy
      omega

section
variable {zero : T} {tr : Nat → St T} {lab : Nat → Label T} {n : Nat}

/-- All the goroutines that take part in the first `n` steps. -/
def bound (lab : Nat → Label T) : Nat → Nat
  | 0 => 0
  | k + 1 => max (bound lab k) ((lab k).tid + 1)

theorem bound_lt {k : Nat} : ∀ n, k < n → (lab k).tid < bound lab n
  | 0, h => by omega
  | n + 1, h => by
    simp only [bound]
    by_cases e : k = n
    · subst e; omega
    · have := bound_lt (k := k) n (by omega); omega

theorem size_inv (hc : cmp.Lawful) (hr : IsRun cmp zero tr lab n) : ∀ k, k ≤ n → ∃ L : List Nat, L.Nodup ∧ (∀ x, x ∈ L ↔ Live (tr k).mem x) ∧
    (tr k).mem.size = BitVec.ofInt 32 (L.length - sumTo (fun t => ((tr k).pc t).pend) (bound lab n)) := by
  intro k
  induction k with
  | zero =>
    intro _
    refine ⟨[], List.nodup_nil, fun x => ⟨nofun, fun hl => ?_⟩, ?_⟩
    · rw [hr.start] at hl
      exact absurd ⟨x, hl, hc.self _⟩ (not_contains_new (cmp := cmp) (zero := zero) ((Mem.new zero).val x))
    · rw [hr.start, sumTo_zero (f := fun t => ((St.init zero).pc t).pend) _ fun _ _ => rfl]; rw [show (St.init zero).mem = Mem.new zero from rfl, new_size]; rfl
  | succ k ih =>
    intro hk
    obtain ⟨L, h1, h2, h3⟩ := ih (by omega)
    have hri := RInv.all hc hr k (by omega)
    have hs := hr.step k (by omega)
    have hb := bound_lt (lab := lab) (k := k) n (by omega)
    generalize bound lab n = N at *
    generalize hs1 : tr k = s1 at *
    generalize hs2 : tr (k + 1) = s2 at *
    generalize hl : lab k = l at *
    cases hs with
    | call t op hidle =>
      refine ⟨L, h1, h2, ?_⟩
      rw [sumTo_congr (g := fun t => (s1.pc t).pend)]
      · exact h3
      · intro u _
        by_cases hu : u = t
        · subst hu; simp only [goto_pc_same, hidle]; cases op <;> rfl
        · simp only [goto_pc_ne _ _ _ hu]
    | ret t op o hpc =>
      refine ⟨L, h1, h2, ?_⟩
      rw [sumTo_congr (g := fun t => (s1.pc t).pend)]
      · exact h3
      · intro u _
        by_cases hu : u = t
        · subst hu; simp only [goto_pc_same, hpc]; rfl
        · simp only [goto_pc_ne _ _ _ hu]
    | tau t op c coin hpc hr' hp' =>
      have hbal := bal_step (coin := coin) hc hri (by rw [hs1]; exact hpc)
      rw [hs1] at hbal
      obtain ⟨d, hd, hsz⟩ := hbal
      obtain ⟨L', g1, g2, g3⟩ := live_count hd h1 h2
      refine ⟨L', g1, g2, ?_⟩
      show (exec cmp coin s1.mem c).1.size = _
      have hsum := sumTo_change N (t := t) hb (f := fun t => (s1.pc t).pend)
        (g := fun u => ((s1.goto (exec cmp coin s1.mem c).1 t (.run op (exec cmp coin s1.mem c).2)).pc u).pend)
        (fun u hu => by simp only [goto_pc_ne _ _ _ hu])
      have e1 : ((s1.goto (exec cmp coin s1.mem c).1 t (.run op (exec cmp coin s1.mem c).2)).pc t).pend = pend (exec cmp coin s1.mem c).2 := by
        rw [goto_pc_same]; rfl
      have e2 : (s1.pc t).pend = pend c := by rw [hpc]; rfl
      simp only [e1, e2] at hsum
      rw [hsz, h3, g3, ← BitVec.ofInt_add, hsum]
      congr 1
      omega

end

end Gds.LockFree
