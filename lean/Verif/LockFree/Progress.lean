import Verif.LockFree.Count

/-! Measures for progress: what each goroutine can still do to the list, and how far it is from returning if nobody
changes the list. -/

namespace Gds.LockFree
variable {T : Type _} {cmp : Compare T}

/-! ### Counting -/

section cnt
open Classical

/-- How many `x < n` satisfy `P`. -/
noncomputable def cnt (P : Nat → Prop) : Nat → Nat
  | 0 => 0
  | n + 1 => cnt P n + if P n then 1 else 0

theorem cnt_le (P : Nat → Prop) : ∀ n, cnt P n ≤ n
  | 0 => Nat.le_refl _
  | n + 1 => by
    have := cnt_le P n
    simp only [cnt]; split <;> omega

theorem cnt_mono {P Q : Nat → Prop} : ∀ n, (∀ x, x < n → P x → Q x) → cnt P n ≤ cnt Q n
  | 0, _ => Nat.le_refl _
  | n + 1, h => by
    have h1 := cnt_mono n fun x hx => h x (by omega)
    have h2 := h n (by omega)
    simp only [cnt]
    by_cases e : P n
    · rw [if_pos e, if_pos (h2 e)]; omega
    · rw [if_neg e]; omega

theorem cnt_lt {P Q : Nat → Prop} {y : Nat} : ∀ n, (∀ x, x < n → P x → Q x) → y < n → Q y → ¬ P y → cnt P n < cnt Q n
  | 0, _, h, _, _ => by omega
  | n + 1, h, hy, hq, hp => by
    simp only [cnt]
    by_cases e : y = n
    · subst e
      have := cnt_mono y fun x hx => h x (by omega)
      rw [if_neg hp, if_pos hq]; omega
    · have := cnt_lt n (fun x hx => h x (by omega)) (by omega) hq hp
      have h2 := h n (by omega)
      by_cases e : P n
      · rw [if_pos e, if_pos (h2 e)]; omega
      · rw [if_neg e]; omega

theorem cnt_congr {P Q : Nat → Prop} (n : Nat) (h : ∀ x, x < n → (P x ↔ Q x)) : cnt P n = cnt Q n :=
  Nat.le_antisymm (cnt_mono n fun x hx => (h x hx).1) (cnt_mono n fun x hx => (h x hx).2)

end cnt

/-- How many of the first `A` nodes come after `b`. -/
noncomputable def rk (cmp : Compare T) (m : Mem T) (A b : Nat) : Nat := cnt (fun x => Ord cmp m b x) A

theorem Ord.irrefl (hc : cmp.Lawful) {m : Mem T} {a : Nat} (h : Ord cmp m a a) : False := by
  rcases h with h | h
  · exact h.irrefl hc
  · omega

theorem rk_lt (hc : cmp.Lawful) {m : Mem T} {A a b : Nat} (hb : b < A) (h : Ord cmp m a b) : rk cmp m A b < rk cmp m A a :=
  cnt_lt A (fun _ _ hx => h.trans hc hx) hb h fun e => e.irrefl hc

theorem rk_le (m : Mem T) (A b : Nat) : rk cmp m A b ≤ A := cnt_le _ _

theorem rk_congr {m m' : Mem T} {A b : Nat} (hb : b < A) (h : ∀ x, x < A → m'.val x = m.val x) : rk cmp m' A b = rk cmp m A b := by
  refine cnt_congr A fun x hx => ?_
  unfold Ord Nlt; rw [h b hb, h x hx]

/-! ### Marks go from top to bottom -/

structure XInv (m : Mem T) : Prop where
  lvl : ∀ a, a < m.alloc → m.lvl a ≤ maxLevel
  top : ∀ a l l', a < m.alloc → l < l' → l' < m.lvl a → (m.next a l).mark = true → (m.next a l').mark = true

/-- The possible effects of one access on the list. -/
inductive Eff (m : Mem T) : Mem T → Prop where
  | same : Eff m m
  | size (z : BitVec 32) : Eff m { m with size := z }
  | alloc (top : Nat) (v : T) (ps : Nat → Ptr) : top ≤ maxLevel → (∀ l, l < top → (ps l).mark = false) → Eff m (allocMem m top v ps)
  | link (a l b d : Nat) : m.next a l = ref b → Eff m (m.setNext a l (ref d))
  | mark (a l : Nat) : (∀ l', l < l' → l' < m.lvl a → (m.next a l').mark = true) → Eff m (m.setNext a l (getMarked (m.next a l)))

theorem Eff.xinv {m m' : Mem T} (e : Eff m m') (h : XInv m) : XInv m' := by
  cases e with
  | same => exact h
  | size z => exact ⟨h.lvl, h.top⟩
  | alloc top v ps ht hps =>
    refine ⟨fun a ha => ?_, fun a l l' ha hl hl' hm => ?_⟩
    · rw [allocMem_lvl]
      by_cases e : a = m.alloc
      · rw [if_pos e]; exact ht
      · rw [if_neg e]; rw [allocMem_alloc] at ha; exact h.lvl a (by omega)
    · rw [allocMem_lvl] at hl'
      rw [allocMem_next] at hm ⊢
      rw [allocMem_alloc] at ha
      by_cases e : a = m.alloc
      · rw [if_pos e] at hm hl'
        rw [if_pos (by omega), hps l (by omega)] at hm
        cases hm
      · rw [if_neg e] at hm hl' ⊢
        exact h.top a l l' (by omega) hl hl' hm
  | link a l b d hu =>
    have hmk : ∀ x k, ((m.setNext a l (ref d)).next x k).mark = (m.next x k).mark := by
      intro x k
      rw [setNext_next]
      by_cases e : x = a ∧ k = l
      · rw [if_pos e, e.1, e.2, hu]; rfl
      · rw [if_neg e]
    exact ⟨h.lvl, fun x k k' h1 h2 h3 h4 => by rw [hmk] at h4 ⊢; exact h.top x k k' h1 h2 h3 h4⟩
  | mark a l hab =>
    refine ⟨h.lvl, fun x k k' h1 h2 h3 h4 => ?_⟩
    rw [setNext_next] at h4 ⊢
    by_cases e' : x = a ∧ k' = l
    · rw [if_pos e']; rfl
    · rw [if_neg e']
      by_cases e : x = a ∧ k = l
      · obtain ⟨rfl, rfl⟩ := e
        exact hab k' h2 h3
      · rw [if_neg e] at h4
        exact h.top x k k' h1 h2 h3 h4

theorem xinv_new (zero : T) : XInv (Mem.new zero) where
  lvl a ha := by rw [new_alloc] at ha; rw [new_lvl zero a ha]; exact Nat.le_refl _
  top a l l' _ _ _ h := by
    rw [new_next] at h
    split at h <;> cases h

/-! ### Freshness: what a goroutine remembers is still so -/

def NextIs (m : Mem T) (p : Ptr) (l : Nat) (q : Ptr) : Prop := ∃ a, p = ref a ∧ m.next a l = q

def FreshArr (m : Mem T) (f : Frame T) (lo : Nat) : Prop := ∀ l, lo ≤ l → l < maxLevel → NextIs m (f.prevs l) l (f.nexts l)

def FreshF (m : Mem T) (f : Frame T) : Prop :=
  FreshArr m f (f.level + 1) ∧ ∃ a, f.prev = ref a ∧ (m.next a f.level).mark = false ∧ (f.ph ≠ .loadCur → m.next a f.level = f.cur)

def Fresh (m : Mem T) : Ctl T → Prop
  | .find f _ => FreshF m f
  | .addNew f | .addCas f _ _ => FreshArr m f 0
  | .addUp f _ _ level => NextIs m (f.prevs level) level (f.nexts level)
  | .delCas r l nx => NextIs m r l nx
  | .delCas0 r nx => NextIs m r 0 nx
  | _ => True

/-! ### The distance to the end of the method -/

def wid (A : Nat) : Nat := 2 * A + 2

noncomputable def rkp (cmp : Compare T) (m : Mem T) (A : Nat) (p : Ptr) : Nat := rk cmp m A (p.addr.getD 0)

noncomputable def findM (cmp : Compare T) (m : Mem T) (A : Nat) (f : Frame T) : Nat :=
  f.level * wid A + match f.ph with
    | .loadCur => 2 * rkp cmp m A f.prev + 1
    | .loadNext => 2 * rkp cmp m A f.cur + 1
    | .unlink => 2 * rkp cmp m A f.cur

noncomputable def base (cmp : Compare T) (m : Mem T) (A : Nat) : Ctl T → Nat
  | .find f _ => findM cmp m A f + 50
  | .addNew _ => 49
  | .addCas .. => 48
  | .addUp .. => 47
  | .addSize => 1
  | .delLoad _ l => 2 * l + 4
  | .delCas _ l _ => 2 * l + 3
  | .delLoad0 _ => 3
  | .delCas0 .. => 2
  | .delSize => 1
  | .rankLen _ => maxLevel * wid A + 51
  | .lenLoad => 1
  | .ret _ => 0
  | .panicked _ => 0

open Classical in
noncomputable def loc (cmp : Compare T) (m : Mem T) (A : Nat) (c : Ctl T) : Nat :=
  base cmp m A c + if Fresh m c then 0 else maxLevel * wid A + 100

theorem loc_fwd {m m' : Mem T} {A : Nat} {c c' : Ctl T} (h1 : base cmp m' A c' < base cmp m A c) (h2 : Fresh m c → Fresh m' c') :
    loc cmp m' A c' < loc cmp m A c := by
  unfold loc
  by_cases e : Fresh m c
  · rw [if_pos e, if_pos (h2 e)]; omega
  · rw [if_neg e]; split <;> omega

theorem loc_fail {m m' : Mem T} {A : Nat} {c c' : Ctl T} (h1 : base cmp m' A c' < maxLevel * wid A + 100) (h2 : ¬ Fresh m c) (h3 : Fresh m' c') :
    loc cmp m' A c' < loc cmp m A c := by
  unfold loc
  rw [if_neg h2, if_pos h3]; omega

/-! ### What a goroutine may still change -/

/-- An upper bound on the number of links and marks the call can still make. -/
def budget (m : Mem T) : Ctl T → Nat
  | .find _ .add | .addNew _ | .addCas .. => maxLevel
  | .find _ (.addUp _ top level) | .addUp _ _ top level => top - level
  | .find _ .del => maxLevel
  | .delLoad r l | .delCas r l _ => match r.addr with
    | some a => if (m.next a l).mark then l else l + 1
    | none => 0
  | .delLoad0 r | .delCas0 r _ => match r.addr with
    | some a => if (m.next a 0).mark then 0 else 1
    | none => 0
  | _ => 0

/-! ### The traversal -/

/-- A marked node is bypassed. -/
def Unlinked (cmp : Compare T) (m m' : Mem T) : Prop :=
  ∃ a l b d, a < m.alloc ∧ Pub m a ∧ l < m.lvl a ∧ m.next a l = ref b ∧ d < m.alloc ∧ Pub m d ∧ Ord cmp m b d ∧ m' = m.setNext a l (ref d) ∧
    ∀ x, Pub m' x → Pub m x

theorem findM_start {m : Mem T} {A : Nat} (f : Frame T) (h1 : f.ph = .loadCur) (h2 : f.level = maxLevel - 1) :
    findM cmp m A f < maxLevel * wid A := by
  unfold findM rkp
  rw [h1, h2]
  have := rk_le (cmp := cmp) m A (f.prev.addr.getD 0)
  simp only [maxLevel, wid]; omega

theorem freshF_start {m : Mem T} (h : MInv cmp m) (f : Frame T) (h1 : f.ph = .loadCur) (h2 : f.level = maxLevel - 1) (h3 : f.prev = ref headA) :
    FreshF m f := by
  refine ⟨fun l hl hl' => ?_, headA, h3, h.headU _, fun e => absurd h1 e⟩
  rw [h2] at hl; simp only [maxLevel] at hl hl'; omega

theorem find_tick (hc : cmp.Lawful) {m : Mem T} {S : Nat → Prop} {f : Frame T} {A : Nat} (h : MInv cmp m) (hx : XInv m) (hf : FInv cmp m S f)
    (hA : ∀ b, b < m.alloc → Pub m b → b < A) :
    (Unlinked cmp m (findStep cmp m f).1 ∧ ∃ f', (findStep cmp m f).2 = .cont f') ∨
    ((findStep cmp m f).1 = m ∧
      ((∃ f', (findStep cmp m f).2 = .cont f' ∧ findM cmp m A f' < findM cmp m A f ∧ (FreshF m f → FreshF m f')) ∨
       (∃ f', (findStep cmp m f).2 = .cont f' ∧ ¬ FreshF m f ∧ FreshF m f' ∧ findM cmp m A f' < maxLevel * wid A) ∨
       (∃ f', (findStep cmp m f).2 = .done f' ∧ (FreshF m f → FreshArr m f' 0)))) := by
  obtain ⟨a, ha, hpre, hcur⟩ := hf.prv
  have hat : a ≠ tailA := by
    rintro rfl
    rcases hpre.below with e | e
    · cases e
    · exact e.1 rfl
  unfold findStep
  cases hph : f.ph with
  | loadCur =>
    simp only
    rw [ha, loadNext_ref hpre.lvl]
    obtain ⟨b, hb1, hb2⟩ := h.follow hpre.lt hpre.lvl hat
    have hgb : getUnmarked (m.next a f.level) = ref b := by unfold getUnmarked ref; rw [hb1]
    refine .inr ⟨rfl, .inl ⟨_, rfl, ?_, ?_⟩⟩
    · simp only [findM, rkp, hph, ha, hgb]
      have := rk_lt hc (hA b hb2.lt hb2.pub) hb2.ord
      simp only [ref, Option.getD_some]; omega
    · rintro ⟨h1, a', h2, h3, -⟩
      have : a' = a := by rw [ha] at h2; simpa [ref] using h2.symm
      subst this
      refine ⟨h1, a', rfl, h3, fun _ => ?_⟩
      show m.next a' f.level = getUnmarked (m.next a' f.level)
      rw [hgb]; exact ptr_eq hb1 h3
  | loadNext =>
    obtain ⟨c, hc1, hc2, -⟩ := hcur (by rw [hph]; decide)
    simp only
    rw [hc1, loadNext_ref hc2.lvl]
    simp only
    by_cases hm : isMarked (m.next c f.level) = true
    · rw [if_pos hm]
      refine .inr ⟨rfl, .inl ⟨_, rfl, ?_, ?_⟩⟩
      · simp only [findM, rkp, hph, hc1]; omega
      · rintro ⟨h1, a', h2, h3, h4⟩
        exact ⟨h1, a', h2, h3, fun _ => by rw [← hc1]; exact h4 (by rw [hph]; decide)⟩
    · rw [if_neg hm]
      have hu : (m.next c f.level).mark = false := by simpa [isMarked] using hm
      by_cases hl : less cmp m (ref c) f.v = true
      · rw [if_pos hl]
        have hbc := (less_ref m c f.v).1 hl
        have hct : c ≠ tailA := by
          rintro rfl
          rcases hbc with e | e
          · cases e
          · exact e.1 rfl
        obtain ⟨b, hb1, hb2⟩ := h.follow hc2.lt hc2.lvl hct
        refine .inr ⟨rfl, .inl ⟨_, rfl, ?_, ?_⟩⟩
        · simp only [findM, rkp, hph, hc1, hb1]
          have := rk_lt hc (hA b hb2.lt hb2.pub) hb2.ord
          simp only [ref, Option.getD_some]; omega
        · rintro ⟨h1, -⟩
          exact ⟨h1, c, rfl, hu, fun _ => rfl⟩
      · rw [if_neg hl]
        have hnew : FreshF m f → FreshArr m { f with next := m.next c f.level, prevs := upd f.prevs f.level f.prev, nexts := upd f.nexts f.level (ref c) } f.level := by
          rintro ⟨h1, a', h2, h3, h4⟩ l hl1 hl2
          show NextIs m (upd f.prevs f.level f.prev l) l (upd f.nexts f.level (ref c) l)
          unfold upd
          by_cases e : l = f.level
          · rw [if_pos e, if_pos e]
            exact ⟨a', h2, by rw [e, ← hc1]; exact h4 (by rw [hph]; decide)⟩
          · rw [if_neg e, if_neg e]; exact h1 l (by omega) hl2
        by_cases hl0 : f.level = 0
        · rw [if_pos hl0]
          refine .inr ⟨rfl, .inr (.inr ⟨_, rfl, ?_⟩)⟩
          intro hfr
          have := hnew hfr
          rw [hl0] at this ⊢
          exact this
        · rw [if_neg hl0]
          refine .inr ⟨rfl, .inl ⟨_, rfl, ?_, ?_⟩⟩
          · obtain ⟨q, hq⟩ : ∃ q, f.level = q + 1 := ⟨f.level - 1, by omega⟩
            simp only [findM, rkp, hph, hq, Nat.add_sub_cancel]
            have := rk_le (cmp := cmp) m A (f.prev.addr.getD 0)
            have e1 : (q + 1) * wid A = q * wid A + wid A := Nat.succ_mul _ _
            have e2 : wid A = 2 * A + 2 := rfl
            omega
          · intro hfr
            have h1 := hnew hfr
            obtain ⟨-, a', h2, h3, -⟩ := hfr
            have : a' = a := by rw [ha] at h2; simpa [ref] using h2.symm
            subst this
            refine ⟨fun l hl1 hl2 => h1 l (by replace hl1 : f.level - 1 + 1 ≤ l := hl1; omega) hl2, a', h2, ?_, fun e => absurd rfl e⟩
            show (m.next a' (f.level - 1)).mark = false
            by_cases e : (m.next a' (f.level - 1)).mark = true
            · rw [hx.top a' (f.level - 1) f.level hpre.lt (by omega) hpre.lvl e] at h3; cases h3
            · simpa using e
  | unlink =>
    obtain ⟨c, hc1, hc2, hc3⟩ := hcur (by rw [hph]; decide)
    obtain ⟨hn1, hn2⟩ := hc3 hph
    simp only
    rw [ha, casNext_ref hpre.lvl]
    by_cases hcas : m.next a f.level = f.cur
    · rw [if_pos hcas]
      simp only
      rw [hc1] at hcas
      have hct : c ≠ tailA := by
        rintro rfl
        rw [h.tailN] at hn1; rw [← hn1] at hn2; cases hn2
      obtain ⟨n, hb1, hb2⟩ := h.follow hc2.lt hc2.lvl hct
      have hgn : getUnmarked f.next = ref n := by rw [← hn1]; unfold getUnmarked ref; rw [hb1]
      rw [hgn]
      refine .inl ⟨⟨a, f.level, c, n, hpre.lt, hpre.pub, hpre.lvl, hcas, hb2.lt, hb2.pub, hb2.ord, rfl, ?_⟩, _, rfl⟩
      intro x hxp
      by_cases hl0 : f.level = 0
      · rw [hl0] at hcas hb1 hxp
        rcases hxp with g | g
        · exact .inl ((mk_bottom hcas x).1 g)
        · exact .inr (unlink_path' hcas hb1 g)
      · exact (pub_up (by omega) x).1 hxp
    · rw [if_neg hcas]
      refine .inr ⟨rfl, .inr (.inl ⟨_, rfl, ?_, freshF_start h _ rfl rfl rfl, findM_start _ rfl rfl⟩)⟩
      rintro ⟨-, a', h2, -, h4⟩
      have : a' = a := by rw [ha] at h2; simpa [ref] using h2.symm
      subst this
      exact hcas (h4 (by rw [hph]; decide))

end Gds.LockFree
