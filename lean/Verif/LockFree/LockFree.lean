import Verif.LockFree.Tick

/-! Lock-freedom: whatever the schedule, some call returns after finitely many steps. -/

namespace Gds.LockFree
variable {T : Type _} {cmp : Compare T}

/-! ### The other goroutines -/

section
variable {tr : Nat → St T} {lab : Nat → Label T} {t i k : Nat}

theorem budget_other {m m' : Mem T} {own : Option Nat} (e : Evo cmp m m' own) {a l x y : Nat} (ha : a < m.alloc) (hxy : x ≤ y) :
    (if (m'.next a l).mark then x else y) ≤ (if (m.next a l).mark then x else y) := by
  by_cases h : (m.next a l).mark = true
  · rw [e.frozen a l ha h]; exact Nat.le_refl _
  · rw [if_neg h]; split <;> omega

theorem CtlOK.budget_le {m' : Mem T} {own : Option Nat} {op : Op T} {c : Ctl T} (h : CtlOK cmp tr lab t i k op c) (e : Evo cmp (tr k).mem m' own) :
    budget m' c ≤ budget (tr k).mem c := by
  cases c with
  | find f kt => cases kt <;> exact Nat.le_refl _
  | delLoad r level =>
    obtain ⟨v, a, -, -, rfl, h4, -⟩ := h
    exact budget_other e h4.lt (by omega)
  | delCas r level nx =>
    obtain ⟨v, a, -, -, rfl, h4, -⟩ := h
    exact budget_other e h4.lt (by omega)
  | delLoad0 r =>
    obtain ⟨v, a, -, -, rfl, h4⟩ := h
    exact budget_other e h4.lt (by omega)
  | delCas0 r nx =>
    obtain ⟨v, a, -, -, rfl, h4, -⟩ := h
    exact budget_other e h4.lt (by omega)
  | _ => exact Nat.le_refl _

theorem nextIs_calm {m m' : Mem T} (e : Calm m m') {a l : Nat} {q : Ptr} (ha : a < m.alloc) : NextIs m' (ref a) l q ↔ NextIs m (ref a) l q := by
  constructor <;> intro h
  · exact ⟨a, rfl, by rw [← e.next a l ha]; exact nextIs_unique h⟩
  · exact ⟨a, rfl, by rw [e.next a l ha]; exact nextIs_unique h⟩

theorem loc_calm {m m' : Mem T} {A : Nat} {c : Ctl T} (h1 : base cmp m' A c = base cmp m A c) (h2 : Fresh m' c ↔ Fresh m c) :
    loc cmp m' A c = loc cmp m A c := by
  unfold loc
  rw [h1]
  by_cases e : Fresh m c
  · rw [if_pos e, if_pos (h2.2 e)]
  · rw [if_neg e, if_neg fun x => e (h2.1 x)]

theorem freshArr_calm {m m' : Mem T} (e : Calm m m') {f : Frame T} {lo : Nat} (h : ∀ l, lo ≤ l → l < maxLevel → PrevOK cmp m f.v l (f.prevs l)) :
    FreshArr m' f lo ↔ FreshArr m f lo := by
  constructor <;> intro g l h1 h2
  · obtain ⟨a, ha1, ha2, -⟩ := h l h1 h2
    have := g l h1 h2
    rw [ha1] at this ⊢
    exact (nextIs_calm e ha2).1 this
  · obtain ⟨a, ha1, ha2, -⟩ := h l h1 h2
    have := g l h1 h2
    rw [ha1] at this ⊢
    exact (nextIs_calm e ha2).2 this

theorem CtlOK.loc_eq {m' : Mem T} {op : Op T} {c : Ctl T} {A : Nat} (h : CtlOK cmp tr lab t i k op c) (e : Calm (tr k).mem m')
    (hA : ∀ b, b < (tr k).mem.alloc → Pub (tr k).mem b → b < A) (hAm : A ≤ (tr k).mem.alloc) :
    loc cmp m' A c = loc cmp (tr k).mem A c := by
  have hrk : ∀ b, b < (tr k).mem.alloc → Pub (tr k).mem b → rkp cmp m' A (ref b) = rkp cmp (tr k).mem A (ref b) := fun b h1 h2 =>
    rk_congr (hA b h1 h2) fun x hx => e.val x (by omega)
  cases c with
  | find f kt =>
    obtain ⟨hf, -⟩ := h
    obtain ⟨a, ha, hpre, hcur⟩ := hf.prv
    refine loc_calm ?_ ?_
    · simp only [base, findM]
      cases hph : f.ph with
      | loadCur => simp only [ha, hrk a hpre.lt hpre.pub]
      | loadNext =>
        obtain ⟨c, hc1, hc2, -⟩ := hcur (by rw [hph]; decide)
        simp only [hc1, hrk c hc2.lt hc2.pub]
      | unlink =>
        obtain ⟨c, hc1, hc2, -⟩ := hcur (by rw [hph]; decide)
        simp only [hc1, hrk c hc2.lt hc2.pub]
    · show FreshF m' f ↔ FreshF (tr k).mem f
      unfold FreshF
      rw [freshArr_calm (cmp := cmp) e fun l h1 h2 => (hf.arr l (by omega) h2).1]
      refine and_congr Iff.rfl ⟨?_, ?_⟩
      · rintro ⟨a', g1, g2, g3⟩
        have : a' = a := by rw [ha] at g1; simpa [ref] using g1.symm
        subst this
        rw [e.next a' _ hpre.lt] at g2 g3
        exact ⟨a', g1, g2, g3⟩
      · rintro ⟨a', g1, g2, g3⟩
        have : a' = a := by rw [ha] at g1; simpa [ref] using g1.symm
        subst this
        rw [← e.next a' _ hpre.lt] at g2 g3
        exact ⟨a', g1, g2, g3⟩
  | addNew f => exact loc_calm rfl (freshArr_calm (cmp := cmp) e fun l _ h2 => (h.2.2.1.arr l h2).1)
  | addCas f nn top => exact loc_calm rfl (freshArr_calm (cmp := cmp) e fun l _ h2 => (h.2.2.1.arr l h2).1)
  | addUp f nn top level =>
    obtain ⟨-, -, h3, h5⟩ := h
    have hlm : level < maxLevel := by have := h5.lev; have := h5.top; omega
    obtain ⟨a, ha1, ha2, -⟩ := (h3.arr level hlm).1
    refine loc_calm rfl ?_
    simp only [Fresh]
    rw [ha1]; exact nextIs_calm e ha2
  | delCas r level nx =>
    obtain ⟨v, a, -, -, rfl, h4, -⟩ := h
    exact loc_calm rfl (nextIs_calm e h4.lt)
  | delCas0 r nx =>
    obtain ⟨v, a, -, -, rfl, h4, -⟩ := h
    exact loc_calm rfl (nextIs_calm e h4.lt)
  | _ => exact loc_calm rfl Iff.rfl

end

/-! ### Sums of natural numbers -/

def sumN (f : Nat → Nat) : Nat → Nat
  | 0 => 0
  | n + 1 => sumN f n + f n

theorem sumN_le {f g : Nat → Nat} : ∀ n, (∀ u, u < n → f u ≤ g u) → sumN f n ≤ sumN g n
  | 0, _ => Nat.le_refl _
  | n + 1, h => by
    have := sumN_le n fun u hu => h u (by omega)
    have := h n (by omega)
    simp only [sumN]; omega

theorem sumN_lt {f g : Nat → Nat} {t : Nat} : ∀ n, (∀ u, u < n → f u ≤ g u) → t < n → f t < g t → sumN f n < sumN g n
  | 0, _, h, _ => by omega
  | n + 1, h, ht, hlt => by
    simp only [sumN]
    have h2 := h n (by omega)
    by_cases e : t = n
    · subst e
      have := sumN_le t fun u hu => h u (by omega)
      omega
    · have := sumN_lt n (fun u hu => h u (by omega)) (by omega) hlt
      omega

/-- A sequence of natural numbers that does not grow is constant in the end. -/
theorem eventually_const {f : Nat → Nat} {K : Nat} (h : ∀ k, K ≤ k → f (k + 1) ≤ f k) : ∃ K', K ≤ K' ∧ ∀ k, K' ≤ k → f (k + 1) = f k := by
  suffices H : ∀ b K, f K ≤ b → (∀ k, K ≤ k → f (k + 1) ≤ f k) → ∃ K', K ≤ K' ∧ ∀ k, K' ≤ k → f (k + 1) = f k from
    H (f K) K (Nat.le_refl _) h
  intro b
  induction b with
  | zero =>
    intro K hb h
    have hz : ∀ d, f (K + d) = 0 := by
      intro d
      induction d with
      | zero => simpa using hb
      | succ d ih => have := h (K + d) (by omega); rw [ih] at this; simpa [Nat.add_assoc] using this
    refine ⟨K, Nat.le_refl _, fun k hk => ?_⟩
    have h1 := hz (k - K)
    have h2 := hz (k + 1 - K)
    rw [show K + (k - K) = k by omega] at h1
    rw [show K + (k + 1 - K) = k + 1 by omega] at h2
    omega
  | succ b ih =>
    intro K hb h
    by_cases hex : ∃ k, K ≤ k ∧ f (k + 1) < f k
    · obtain ⟨k, h1, h2⟩ := hex
      have hle : ∀ d, f (K + d) ≤ f K := by
        intro d
        induction d with
        | zero => exact Nat.le_refl _
        | succ d ih => have := h (K + d) (by omega); exact Nat.le_trans this ih
      have := hle (k - K)
      rw [show K + (k - K) = k by omega] at this
      obtain ⟨K', h3, h4⟩ := ih (k + 1) (by omega) fun x hx => h x (by omega)
      exact ⟨K', by omega, h4⟩
    · refine ⟨K, Nat.le_refl _, fun k hk => ?_⟩
      by_cases e : f (k + 1) < f k
      · exact absurd ⟨k, hk, e⟩ hex
      · have := h k hk; omega

/-! ### The theorem -/

section
variable {zero : T} {tr : Nat → St T} {lab : Nat → Label T}

def St.bud (s : St T) (u : Nat) : Nat := match s.pc u with
  | .idle => 0
  | .run _ c => budget s.mem c

noncomputable def St.loc (cmp : Compare T) (A : Nat) (s : St T) (u : Nat) : Nat := match s.pc u with
  | .idle => 0
  | .run _ c => LockFree.loc cmp s.mem A c

/-- The bypassing of nodes that is still possible. -/
noncomputable def phi (cmp : Compare T) (A : Nat) (m : Mem T) : Nat :=
  sumN (fun a => sumN (fun l => if l < m.lvl a then rkp cmp m A (m.next a l) else 0) maxLevel) A

theorem xinv_all (hc : cmp.Lawful) {n : Nat} (hr : IsRun cmp zero tr lab n) : ∀ k, k ≤ n → XInv (tr k).mem := by
  intro k
  induction k with
  | zero => intro _; rw [hr.start]; exact xinv_new zero
  | succ k ih =>
    intro hk
    have hx := ih (by omega)
    have hri := RInv.all hc hr k (by omega)
    have hs := hr.step k (by omega)
    generalize hs1 : tr k = s1 at hs
    generalize hs2 : tr (k + 1) = s2 at hs
    generalize hl : lab k = l at hs
    rw [hs1] at hx
    cases hs with
    | call t op hidle => exact hx
    | ret t op o hpc => exact hx
    | tau t op c coin hpc hnr hnp =>
      have := (tick (coin := coin) hc hri (by rw [hs1]; exact hx) (by rw [hs1]; exact hpc) hnr).1
      rw [hs1] at this
      exact this.xinv hx

/-- A step of the only kind there is when no call is made and none returns. -/
theorem tau_step (hr : ∀ n, IsRun cmp zero tr lab n) {k : Nat} (hret : ∀ t o, lab k ≠ .ret t o) (hcall : ∀ t op, lab k ≠ .call t op) :
    ∃ t op c coin, lab k = .tau t ∧ (tr k).pc t = .run op c ∧ (∀ o, c ≠ .ret o) ∧
      (tr (k + 1)).mem = (exec cmp coin (tr k).mem c).1 ∧ (tr (k + 1)).pc t = .run op (exec cmp coin (tr k).mem c).2 ∧
      ∀ u, u ≠ t → (tr (k + 1)).pc u = (tr k).pc u := by
  have hs := (hr (k + 1)).step k (by omega)
  generalize hs1 : tr k = s1 at hs
  generalize hs2 : tr (k + 1) = s2 at hs
  generalize hl : lab k = l at hs
  cases hs with
  | call t op hidle => exact absurd hl (hcall t op)
  | ret t op o hpc => exact absurd hl (hret t o)
  | tau t op c coin hpc hnr hnp =>
    exact ⟨t, op, c, coin, rfl, hpc, hnr, rfl, goto_pc_same _ _ _ _, fun u hu => goto_pc_ne _ _ _ hu⟩

theorem evo_step (hc : cmp.Lawful) (hr : ∀ n, IsRun cmp zero tr lab n) {k t : Nat} {op : Op T} {c : Ctl T} {coin : Nat → Bool} (hl : lab k = .tau t)
    (hpc : (tr k).pc t = .run op c) (hnr : ∀ o, c ≠ .ret o) (hm : (tr (k + 1)).mem = (exec cmp coin (tr k).mem c).1) :
    ∃ own, Evo cmp (tr k).mem (tr (k + 1)).mem own := by
  have hri := RInv.all hc (hr k) k (Nat.le_refl _)
  obtain ⟨own, h⟩ := hri.moved hc (by rw [hl]; rfl) hpc hnr (by rintro x rfl; exact hri.ctl t op _ hpc) hm
  exact ⟨own, h.evo⟩

theorem lock_free_aux (hc : cmp.Lawful) (hr : ∀ n, IsRun cmp zero tr lab n) (N : Nat) (hN : ∀ k, (lab k).tid < N) (K : Nat)
    (hK : ∀ r, K ≤ r → ∀ t o, lab r ≠ .ret t o) : False := by
  have hri : ∀ k, RInv cmp tr lab k := fun k => RInv.all hc (hr k) k (Nat.le_refl _)
  have hxi : ∀ k, XInv (tr k).mem := fun k => xinv_all hc (hr k) k (Nat.le_refl _)
  -- from some point on no calls are made
  obtain ⟨K0, hK0, hcall⟩ : ∃ K0, K ≤ K0 ∧ ∀ k, K0 ≤ k → ∀ t op, lab k ≠ .call t op := by
    have hidle : ∀ k, K ≤ k → ∀ u, (tr (k + 1)).pc u = .idle → (tr k).pc u = .idle := by
      intro k hk u hu
      have hs := (hr (k + 1)).step k (by omega)
      generalize hs1 : tr k = s1 at hs
      generalize hs2 : tr (k + 1) = s2 at hs hu
      generalize hl : lab k = l at hs
      cases hs with
      | call t op hi =>
        by_cases e : u = t
        · subst e; rw [goto_pc_same] at hu; cases hu
        · rw [goto_pc_ne _ _ _ e] at hu; exact hu
      | ret t op o hpc => exact absurd hl (hK k hk t o)
      | tau t op c coin hpc hnr hnp =>
        by_cases e : u = t
        · subst e; rw [goto_pc_same] at hu; cases hu
        · rw [goto_pc_ne _ _ _ e] at hu; exact hu
    obtain ⟨K0, h1, h2⟩ := eventually_const (f := fun k => cnt (fun u => (tr k).pc u = .idle) N) (K := K)
      fun k hk => cnt_mono N fun u _ => hidle k hk u
    refine ⟨K0, h1, fun k hk t op hl => ?_⟩
    have := h2 k hk
    have hlt := hN k
    rw [hl] at hlt
    have hs := (hr (k + 1)).step k (by omega)
    rw [hl] at hs
    have h3 : (tr k).pc t = .idle ∧ (tr (k + 1)).pc t ≠ .idle := by
      generalize hs1 : tr k = s1 at hs
      generalize hs2 : tr (k + 1) = s2 at hs
      cases hs with
      | call _ _ hi => exact ⟨hi, by rw [goto_pc_same]; nofun⟩
    have := cnt_lt (P := fun u => (tr (k + 1)).pc u = .idle) (Q := fun u => (tr k).pc u = .idle) N (fun u _ => hidle k (by omega) u) hlt h3.1 h3.2
    omega
  have hstep : ∀ k, K0 ≤ k → _ := fun k hk => tau_step hr (fun t o => hK k (by omega) t o) (hcall k hk)
  -- from some point on there are no links and no marks
  have hother : ∀ k, K0 ≤ k → ∀ u own, Evo cmp (tr k).mem (tr (k + 1)).mem own → (tr (k + 1)).pc u = (tr k).pc u → (tr (k + 1)).bud u ≤ (tr k).bud u := by
    intro k hk u own e hu
    unfold St.bud
    rw [hu]
    cases hp : (tr k).pc u with
    | idle => exact Nat.le_refl _
    | run op c => exact ((hri k).ctl u op c hp).budget_le e
  obtain ⟨K1, hK1, hbud⟩ : ∃ K1, K0 ≤ K1 ∧ ∀ k, K1 ≤ k → sumN (tr (k + 1)).bud N = sumN (tr k).bud N := by
    refine eventually_const (f := fun k => sumN (tr k).bud N) fun k hk => sumN_le N fun u _ => ?_
    obtain ⟨t, op, c, coin, h1, h2, h3, h4, h5, h6⟩ := hstep k hk
    obtain ⟨own, e⟩ := evo_step hc hr h1 h2 h3 h4
    by_cases hut : u = t
    · subst hut
      have := (tick (coin := coin) hc (hri k) (hxi k) h2 h3).2
      unfold St.bud
      rw [h5, h2, h4]
      rcases this with g | ⟨g, -⟩
      · exact Nat.le_of_lt g
      · exact g
    · exact hother k hk u own e (h6 u hut)
  have hquiet : ∀ k, K1 ≤ k → ∃ t op c coin, lab k = .tau t ∧ (tr k).pc t = .run op c ∧
      (tr (k + 1)).pc t = .run op (exec cmp coin (tr k).mem c).2 ∧ (∀ u, u ≠ t → (tr (k + 1)).pc u = (tr k).pc u) ∧
      (Unlinked cmp (tr k).mem (tr (k + 1)).mem ∨ (Calm (tr k).mem (tr (k + 1)).mem ∧
        ∀ A, (∀ b, b < (tr k).mem.alloc → Pub (tr k).mem b → b < A) →
          loc cmp (tr (k + 1)).mem A (exec cmp coin (tr k).mem c).2 < loc cmp (tr k).mem A c)) := by
    intro k hk
    obtain ⟨t, op, c, coin, h1, h2, h3, h4, h5, h6⟩ := hstep k (by omega)
    obtain ⟨own, e⟩ := evo_step hc hr h1 h2 h3 h4
    refine ⟨t, op, c, coin, h1, h2, h5, h6, ?_⟩
    have := (tick (coin := coin) hc (hri k) (hxi k) h2 h3).2
    rw [← h4] at this
    rcases this with g | ⟨-, g⟩
    · exfalso
      have hlt := hN k
      rw [h1] at hlt
      have := sumN_lt (f := (tr (k + 1)).bud) (g := (tr k).bud) N (t := t) (fun u _ => by
        by_cases hut : u = t
        · subst hut; unfold St.bud; rw [h5, h2]; exact Nat.le_of_lt g
        · exact hother k (by omega) u own e (h6 u hut)) hlt (by unfold St.bud; rw [h5, h2]; exact g)
      have := hbud k hk
      omega
    · exact g
  -- no new nodes appear
  have hAall : ∀ k, K1 ≤ k → (tr K1).mem.alloc ≤ (tr k).mem.alloc ∧ (∀ b, b < (tr k).mem.alloc → Pub (tr k).mem b → b < (tr K1).mem.alloc) ∧
      ∀ a, a < (tr K1).mem.alloc → (tr k).mem.val a = (tr K1).mem.val a ∧ (tr k).mem.lvl a = (tr K1).mem.lvl a := by
    intro k hk
    induction k with
    | zero =>
      have : K1 = 0 := by omega
      subst this
      exact ⟨Nat.le_refl _, fun _ h _ => h, fun _ _ => ⟨rfl, rfl⟩⟩
    | succ k ih =>
      by_cases ek : K1 = k + 1
      · rw [ek]; exact ⟨Nat.le_refl _, fun _ h _ => h, fun _ _ => ⟨rfl, rfl⟩⟩
      · obtain ⟨i1, i2, i3⟩ := ih (by omega)
        obtain ⟨t, op, c, coin, -, -, -, -, h | ⟨h, -⟩⟩ := hquiet k (by omega)
        · obtain ⟨a, l, b, d, g1, g1', g2, g3, g4, g5, g6, g7, g8⟩ := h
          rw [g7]
          refine ⟨i1, fun b hb hp => i2 b hb (g8 b (by rw [g7]; exact hp)), i3⟩
        · refine ⟨Nat.le_trans i1 h.alloc, fun b hb hp => ?_, fun a ha => ?_⟩
          · obtain ⟨q1, q2⟩ := h.pub b hb hp
            exact i2 b q1 q2
          · rw [h.val a (by omega), h.lvl a (by omega)]; exact i3 a ha
  generalize hA : (tr K1).mem.alloc = A at hAall
  have hrkc : ∀ k, K1 ≤ k → ∀ b, b < A → rk cmp (tr (k + 1)).mem A b = rk cmp (tr k).mem A b := by
    intro k hk b hb
    obtain ⟨-, -, i3⟩ := hAall k hk
    obtain ⟨-, -, j3⟩ := hAall (k + 1) (by omega)
    exact rk_congr hb fun x hx => by rw [(j3 x hx).1, (i3 x hx).1]
  have hA2 : 2 ≤ A := by rw [← hA]; exact (hri K1).mem.alloc
  have htgt : ∀ k, K1 ≤ k → ∀ a l, a < A → l < (tr k).mem.lvl a → ((tr k).mem.next a l).addr.getD 0 < A := by
    intro k hk a l ha hl
    obtain ⟨i1, i2, -⟩ := hAall k hk
    by_cases e : a = tailA
    · rw [e, (hri k).mem.tailN]; show 0 < A; omega
    · obtain ⟨b, hb1, hb2⟩ := (hri k).mem.nxt a l (by omega) e hl
      rw [hb1]; exact i2 b hb2.lt hb2.pub
  -- from some point on no node is bypassed
  have hphi : ∀ k, K1 ≤ k → ∀ a l, a < A → l < maxLevel →
      (if l < (tr (k + 1)).mem.lvl a then rkp cmp (tr (k + 1)).mem A ((tr (k + 1)).mem.next a l) else 0) ≤
      (if l < (tr k).mem.lvl a then rkp cmp (tr k).mem A ((tr k).mem.next a l) else 0) ∧
      (∀ b d, (tr k).mem.next a l = ref b → (tr (k + 1)).mem.next a l = ref d → l < (tr k).mem.lvl a → Pub (tr k).mem d → d < (tr k).mem.alloc → Ord cmp (tr k).mem b d →
        (if l < (tr (k + 1)).mem.lvl a then rkp cmp (tr (k + 1)).mem A ((tr (k + 1)).mem.next a l) else 0) <
        (if l < (tr k).mem.lvl a then rkp cmp (tr k).mem A ((tr k).mem.next a l) else 0)) := by
    intro k hk a l ha hlm
    obtain ⟨i1, i2, i3⟩ := hAall k hk
    obtain ⟨-, -, j3⟩ := hAall (k + 1) (by omega)
    have hlv : (tr (k + 1)).mem.lvl a = (tr k).mem.lvl a := by rw [(j3 a ha).2, (i3 a ha).2]
    rw [hlv]
    by_cases hl : l < (tr k).mem.lvl a
    · rw [if_pos hl, if_pos hl]
      have key : ∀ b d, (tr k).mem.next a l = ref b → (tr (k + 1)).mem.next a l = ref d → Pub (tr k).mem d → d < (tr k).mem.alloc → Ord cmp (tr k).mem b d →
          rkp cmp (tr (k + 1)).mem A ((tr (k + 1)).mem.next a l) < rkp cmp (tr k).mem A ((tr k).mem.next a l) := by
        intro b d e1 e2 e3 e4 e5
        rw [e1, e2]
        have hd := i2 d e4 e3
        show rk cmp (tr (k + 1)).mem A d < rk cmp (tr k).mem A b
        rw [hrkc k hk d hd]
        exact rk_lt hc hd e5
      refine ⟨?_, fun b d e1 e2 _ e3 e4 e5 => key b d e1 e2 e3 e4 e5⟩
      by_cases hsame : (tr (k + 1)).mem.next a l = (tr k).mem.next a l
      · rw [hsame]
        exact Nat.le_of_eq (hrkc k hk _ (htgt k hk a l ha hl))
      · obtain ⟨t, op, c, coin, -, -, -, -, h | ⟨h, -⟩⟩ := hquiet k (by omega)
        · obtain ⟨a', l', b, d, g1, g1', g2, g3, g4, g5, g6, g7, g8⟩ := h
          by_cases e : a = a' ∧ l = l'
          · obtain ⟨rfl, rfl⟩ := e
            exact Nat.le_of_lt (key b d g3 (by rw [g7, setNext_same]) g5 g4 g6)
          · exact absurd (by rw [g7, setNext_ne e]) hsame
        · exact absurd (h.next a l (by omega)) hsame
    · rw [if_neg hl, if_neg hl]
      exact ⟨Nat.le_refl _, fun _ _ _ _ h => absurd h hl⟩
  obtain ⟨K2, hK2, hphic⟩ : ∃ K2, K1 ≤ K2 ∧ ∀ k, K2 ≤ k → phi cmp A (tr (k + 1)).mem = phi cmp A (tr k).mem := by
    refine eventually_const (f := fun k => phi cmp A (tr k).mem) fun k hk => ?_
    exact sumN_le A fun a ha => sumN_le maxLevel fun l hl => (hphi k hk a l ha hl).1
  have hcalm : ∀ k, K2 ≤ k → ¬ Unlinked cmp (tr k).mem (tr (k + 1)).mem := by
    rintro k hk ⟨a, l, b, d, g1, g1', g2, g3, g4, g5, g6, g7, g8⟩
    obtain ⟨i1, i2, i3⟩ := hAall k (by omega)
    have ha := i2 a g1 g1'
    have hl : l < maxLevel := Nat.lt_of_lt_of_le g2 ((hxi k).lvl a g1)
    have := hphic k hk
    have hlt : phi cmp A (tr (k + 1)).mem < phi cmp A (tr k).mem := by
      refine sumN_lt A (t := a) (fun x hx => sumN_le maxLevel fun y hy => (hphi k (by omega) x y hx hy).1) ha ?_
      refine sumN_lt maxLevel (t := l) (fun y hy => (hphi k (by omega) a y ha hy).1) hl ?_
      exact (hphi k (by omega) a l ha hl).2 b d g3 (by rw [g7, setNext_same]) g2 g5 g4 g6
    omega
  -- so every goroutine approaches its return
  have hdec : ∀ k, K2 ≤ k → sumN ((tr (k + 1)).loc cmp A) N < sumN ((tr k).loc cmp A) N := by
    intro k hk
    obtain ⟨t, op, c, coin, h1, h2, h3, h4, h | ⟨hcl, hlt⟩⟩ := hquiet k (by omega)
    · exact absurd h (hcalm k hk)
    obtain ⟨i1, i2, i3⟩ := hAall k (by omega)
    have hlt := hlt A i2
    have htN := hN k
    rw [h1] at htN
    refine sumN_lt N (t := t) (fun u _ => ?_) htN ?_
    · by_cases hut : u = t
      · subst hut; unfold St.loc; rw [h2, h3]; exact Nat.le_of_lt hlt
      · unfold St.loc
        rw [h4 u hut]
        cases hp : (tr k).pc u with
        | idle => exact Nat.le_refl _
        | run op c => exact Nat.le_of_eq (((hri k).ctl u op c hp).loc_eq hcl i2 i1)
    · unfold St.loc; rw [h2, h3]; exact hlt
  obtain ⟨K3, h1, h2⟩ := eventually_const (f := fun k => sumN ((tr k).loc cmp A) N) (K := K2) fun k hk => Nat.le_of_lt (hdec k hk)
  have := hdec K3 h1
  have := h2 K3 (Nat.le_refl _)
  omega

end

end Gds.LockFree
