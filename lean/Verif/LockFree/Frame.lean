import Verif.LockFree.Evo

/-! The traversal `find`: what it knows at each of its atomic accesses. -/

namespace Gds.LockFree
variable {T : Type _} {cmp : Compare T}

/-- A remembered predecessor at level `l`. -/
def PrevOK (cmp : Compare T) (m : Mem T) (v : T) (l : Nat) (p : Ptr) : Prop :=
  ∃ a, p = ref a ∧ a < m.alloc ∧ l < m.lvl a ∧ Pub m a ∧ Below cmp m a v

/-- A remembered successor at level `l`. -/
def NextOK (cmp : Compare T) (m : Mem T) (v : T) (l : Nat) (p : Ptr) : Prop :=
  ∃ a, p = ref a ∧ a < m.alloc ∧ l < m.lvl a ∧ Pub m a ∧ ¬ Below cmp m a v

/-- The node `c` being inspected, `a` being the one before. -/
structure CurOK (cmp : Compare T) (m : Mem T) (S : Nat → Prop) (v : T) (l a c : Nat) : Prop where
  lt : c < m.alloc
  ne : c ≠ headA
  lvl : l < m.lvl c
  pub : Pub m c
  ord : Ord cmp m a c
  seen : l = 0 → ¬ Below cmp m c v → ¬ Mk m c → S c

/-- The predecessor `a`. -/
structure PreOK (cmp : Compare T) (m : Mem T) (S : Nat → Prop) (v : T) (l a : Nat) : Prop where
  lt : a < m.alloc
  lvl : l < m.lvl a
  pub : Pub m a
  below : Below cmp m a v
  seen : ∀ c, First cmp m v a c → ¬ Mk m c → S c

/-- `S` is the set of nodes that have been the least element not below `v` at some instant since the call. -/
structure FInv (cmp : Compare T) (m : Mem T) (S : Nat → Prop) (f : Frame T) : Prop where
  lvl : f.level < maxLevel
  arr : ∀ l, f.level < l → l < maxLevel → PrevOK cmp m f.v l (f.prevs l) ∧ NextOK cmp m f.v l (f.nexts l)
  prv : ∃ a, f.prev = ref a ∧ PreOK cmp m S f.v f.level a ∧
    (f.ph ≠ .loadCur → ∃ c, f.cur = ref c ∧ CurOK cmp m S f.v f.level a c ∧
      (f.ph = .unlink → m.next c f.level = f.next ∧ f.next.mark = true))

/-- What the traversal leaves behind. -/
structure FDone (cmp : Compare T) (m : Mem T) (f : Frame T) : Prop where
  arr : ∀ l, l < maxLevel → PrevOK cmp m f.v l (f.prevs l) ∧ NextOK cmp m f.v l (f.nexts l)
  cur : f.cur = f.nexts 0

/-! ### Stability -/

namespace Evo
variable {m m' : Mem T} {own : Option Nat} (e : Evo cmp m m' own)
include e

theorem below {a : Nat} {v : T} (ha : a < m.alloc) : Below cmp m' a v ↔ Below cmp m a v := by
  unfold Below; rw [e.val a ha]

theorem nlt {a b : Nat} (ha : a < m.alloc) (hb : b < m.alloc) : Nlt cmp m' a b ↔ Nlt cmp m a b := by
  unfold Nlt; rw [e.val a ha, e.val b hb]

theorem ord {a b : Nat} (ha : a < m.alloc) (hb : b < m.alloc) : Ord cmp m' a b ↔ Ord cmp m a b := by
  unfold Ord; rw [e.nlt ha hb, e.val a ha, e.val b hb]

theorem mark {a : Nat} (ha : a < m.alloc) (hm : Mk m a) : Mk m' a := by
  unfold Mk; rw [e.frozen a 0 ha hm]; exact hm

theorem prevOK {v : T} {l : Nat} {p : Ptr} (h : PrevOK cmp m v l p) : PrevOK cmp m' v l p := by
  obtain ⟨a, h1, h2, h3, h4, h5⟩ := h
  exact ⟨a, h1, Nat.lt_of_lt_of_le h2 e.alloc, by rw [e.lvl a h2]; exact h3, e.pub a h2 h4, (e.below h2).2 h5⟩

theorem nextOK {v : T} {l : Nat} {p : Ptr} (h : NextOK cmp m v l p) : NextOK cmp m' v l p := by
  obtain ⟨a, h1, h2, h3, h4, h5⟩ := h
  exact ⟨a, h1, Nat.lt_of_lt_of_le h2 e.alloc, by rw [e.lvl a h2]; exact h3, e.pub a h2 h4, fun x => h5 ((e.below h2).1 x)⟩

theorem curOK {S S' : Nat → Prop} {v : T} {l a c : Nat} (ha : a < m.alloc) (h : CurOK cmp m S v l a c) (hS : ∀ c, S c → S' c) :
    CurOK cmp m' S' v l a c where
  lt := Nat.lt_of_lt_of_le h.lt e.alloc
  ne := h.ne
  lvl := by rw [e.lvl c h.lt]; exact h.lvl
  pub := e.pub c h.lt h.pub
  ord := (e.ord ha h.lt).2 h.ord
  seen h1 h2 h3 := hS c (h.seen h1 (fun x => h2 ((e.below h.lt).2 x)) (fun x => h3 (e.mark h.lt x)))

theorem preOK {S S' : Nat → Prop} {v : T} {l a : Nat} (h : PreOK cmp m S v l a) (hS : ∀ c, S c → S' c)
    (hC : ∀ c, Ceil cmp m' v c → S' c) : PreOK cmp m' S' v l a where
  lt := Nat.lt_of_lt_of_le h.lt e.alloc
  lvl := by rw [e.lvl a h.lt]; exact h.lvl
  pub := e.pub a h.lt h.pub
  below := (e.below h.lt).2 h.below
  seen c hf hm := by
    rcases e.first v a c h.lt h.pub ((e.below h.lt).2 h.below) hf hm with ⟨h1, h2⟩ | h1
    · exact hS c (h.seen c h2 (fun x => hm (e.mark h1 x)))
    · exact hC c h1

theorem fInv {S S' : Nat → Prop} {f : Frame T} (h : FInv cmp m S f) (hS : ∀ c, S c → S' c)
    (hC : ∀ c, Ceil cmp m' f.v c → S' c) : FInv cmp m' S' f where
  lvl := h.lvl
  arr l h1 h2 := ⟨e.prevOK (h.arr l h1 h2).1, e.nextOK (h.arr l h1 h2).2⟩
  prv := by
    obtain ⟨a, h1, h2, h3⟩ := h.prv
    refine ⟨a, h1, e.preOK h2 hS hC, fun hp => ?_⟩
    obtain ⟨c, h4, h5, h6⟩ := h3 hp
    refine ⟨c, h4, e.curOK h2.lt h5 hS, fun hu => ?_⟩
    obtain ⟨h7, h8⟩ := h6 hu
    refine ⟨?_, h8⟩
    rw [e.frozen c f.level h5.lt (by rw [h7]; exact h8)]; exact h7

theorem fDone {f : Frame T} (h : FDone cmp m f) : FDone cmp m' f where
  arr l h1 := ⟨e.prevOK (h.arr l h1).1, e.nextOK (h.arr l h1).2⟩
  cur := h.cur

end Evo

/-! ### Steps -/

theorem less_ref (m : Mem T) (a : Nat) (v : T) : less cmp m (ref a) v = true ↔ Below cmp m a v := by
  unfold less Below
  by_cases h0 : a = headA
  · simp [h0]
  · by_cases h1 : a = tailA
    · subst h1; simp [ref, headA, tailA]
    · simp [ref, h0, h1]

theorem equals_ref (m : Mem T) (a : Nat) (v : T) : equals cmp m (ref a) v = true ↔ a ≠ headA ∧ a ≠ tailA ∧ cmp (m.val a) v = 0 := by
  unfold equals
  by_cases h0 : a = headA
  · simp [h0]
  · by_cases h1 : a = tailA
    · simp [h1]
    · simp [ref, h0, h1]

theorem loadNext_ref {m : Mem T} {a l : Nat} (h : l < m.lvl a) : loadNext m (ref a) l = .ok (m.next a l) := by
  simp [loadNext, ref, h]

theorem casNext_ref {m : Mem T} {a l : Nat} {e d : Ptr} (h : l < m.lvl a) :
    casNext m (ref a) l e d = .ok (if m.next a l = e then (m.setNext a l d, true) else (m, false)) := by
  simp only [casNext, ref, h, if_true]
  split <;> rfl

theorem FInv.start {m : Mem T} {S : Nat → Prop} (hc : cmp.Lawful) (h : MInv cmp m) {f : Frame T} (hl : f.level = maxLevel - 1)
    (hp : f.prev = ref headA) (hph : f.ph = .loadCur) (hC : ∀ c, Ceil cmp m f.v c → S c) : FInv cmp m S f where
  lvl := by rw [hl]; decide
  arr l h1 h2 := by rw [hl] at h1; simp only [maxLevel] at h1 h2; omega
  prv := by
    refine ⟨headA, hp, ⟨h.head_lt, ?_, .inr (.refl _), .inl rfl, ?_⟩, fun e => absurd hph e⟩
    · rw [h.lvlH, hl]; decide
    · intro c hf hm
      exact hC c (h.first_ceil hc (.refl _) (.inl rfl) hf hm)

/-- The pointers of an inspected node. -/
theorem MInv.follow {m : Mem T} (h : MInv cmp m) {c l : Nat} (hlt : c < m.alloc) (hl : l < m.lvl c) (hct : c ≠ tailA) :
    ∃ b, (m.next c l).addr = some b ∧ Target cmp m c l b := h.nxt c l hlt hct hl

theorem MInv.unmarked_bottom {m : Mem T} (h : MInv cmp m) {c l : Nat} (hlt : c < m.alloc) (hl : l < m.lvl c)
    (hu : (m.next c l).mark = false) : ¬ Mk m c := by
  intro hm
  rw [h.top c l hlt hm hl] at hu; cases hu

theorem ptr_eq {p : Ptr} {b : Nat} (h1 : p.addr = some b) (h2 : p.mark = false) : p = ref b := by
  cases p; simp only at h1 h2; subst h1; subst h2; rfl

/-- What one access of the traversal achieves. -/
structure FStep (cmp : Compare T) (m : Mem T) (S : Nat → Prop) (f : Frame T) (m' : Mem T) (r : FRes T) : Prop where
  inv : MInv cmp m'
  evo : Evo cmp m m' none
  live : ∀ x, Live m' x ↔ Live m x
  size : m'.size = m.size
  res : ∀ S' : Nat → Prop, (∀ c, S c → S' c) → (∀ c, Ceil cmp m' f.v c → S' c) →
    (∃ f', r = .cont f' ∧ f'.v = f.v ∧ FInv cmp m' S' f') ∨
    (∃ f' c, r = .done f' ∧ f'.v = f.v ∧ FDone cmp m' f' ∧ f'.cur = ref c ∧ c < m'.alloc ∧ S c ∧ ¬ Below cmp m' c f.v ∧
      Pub m' c ∧ ¬ Mk m' c)

theorem findStep_spec (hc : cmp.Lawful) {m : Mem T} {S : Nat → Prop} {f : Frame T} (h : MInv cmp m) (hf : FInv cmp m S f)
    (hC : ∀ c, Ceil cmp m f.v c → S c) : FStep cmp m S f (findStep cmp m f).1 (findStep cmp m f).2 := by
  have hsame : ∀ r : FRes T, (∀ S' : Nat → Prop, (∀ c, S c → S' c) → 
      (∃ f', r = .cont f' ∧ f'.v = f.v ∧ FInv cmp m S' f') ∨
      (∃ f' c, r = .done f' ∧ f'.v = f.v ∧ FDone cmp m f' ∧ f'.cur = ref c ∧ c < m.alloc ∧ S c ∧ ¬ Below cmp m c f.v ∧
        Pub m c ∧ ¬ Mk m c)) →
      FStep cmp m S f m r := fun r hr => ⟨h, Evo.refl h, fun _ => Iff.rfl, rfl, fun S' h1 _ => hr S' h1⟩
  obtain ⟨a, ha, hpre, hcur⟩ := hf.prv
  have hat : a ≠ tailA := by
    rintro rfl
    rcases hpre.below with e | e
    · cases e
    · exact e.1 rfl
  have hpre' : ∀ S' : Nat → Prop, (∀ c, S c → S' c) → PreOK cmp m S' f.v f.level a := fun S' hS =>
    ⟨hpre.lt, hpre.lvl, hpre.pub, hpre.below, fun c h1 h2 => hS c (hpre.seen c h1 h2)⟩
  unfold findStep
  cases hph : f.ph with
  | loadCur =>
    simp only
    rw [ha, loadNext_ref hpre.lvl]
    refine hsame _ fun S' hS => .inl ⟨_, rfl, rfl, hf.lvl, hf.arr, a, rfl, hpre' S' hS, fun _ => ?_⟩
    obtain ⟨b, hb1, hb2⟩ := h.follow hpre.lt hpre.lvl hat
    refine ⟨b, by show getUnmarked _ = _; unfold getUnmarked ref; rw [hb1], ⟨hb2.lt, hb2.ne, hb2.lvl, hb2.pub, hb2.ord, ?_⟩, fun e => nomatch e⟩
    intro hl hbv hbm
    refine hS b (hpre.seen b (.here ?_ hbv) hbm)
    replace hl : f.level = 0 := hl
    rw [hl] at hb1; exact hb1
  | loadNext =>
    obtain ⟨c, hc1, hc2, -⟩ := hcur (by rw [hph]; decide)
    simp only
    rw [hc1, loadNext_ref hc2.lvl]
    simp only
    by_cases hm : isMarked (m.next c f.level) = true
    · rw [if_pos hm]
      refine hsame _ fun S' hS => .inl ⟨_, rfl, rfl, hf.lvl, hf.arr, a, ha, hpre' S' hS, fun _ => ?_⟩
      exact ⟨c, rfl, ⟨hc2.lt, hc2.ne, hc2.lvl, hc2.pub, hc2.ord, fun h1 h2 h3 => hS c (hc2.seen h1 h2 h3)⟩, fun _ => ⟨rfl, hm⟩⟩
    · rw [if_neg hm]
      have hu : (m.next c f.level).mark = false := by simpa [isMarked] using hm
      have hum := h.unmarked_bottom hc2.lt hc2.lvl hu
      have hpath := h.path_of_pub hc2.pub hum
      by_cases hl : less cmp m (ref c) f.v = true
      · rw [if_pos hl]
        have hbc := (less_ref m c f.v).1 hl
        have hct : c ≠ tailA := by
          rintro rfl
          rcases hbc with e | e
          · cases e
          · exact e.1 rfl
        obtain ⟨b, hb1, hb2⟩ := h.follow hc2.lt hc2.lvl hct
        refine hsame _ fun S' hS => .inl ⟨_, rfl, rfl, hf.lvl, hf.arr, c, rfl, ⟨hc2.lt, hc2.lvl, hc2.pub, hbc, ?_⟩, fun _ => ?_⟩
        · intro d hd hdm
          exact hS d (hC d (h.first_ceil hc hpath hbc hd hdm))
        · refine ⟨b, ptr_eq hb1 hu, ⟨hb2.lt, hb2.ne, hb2.lvl, hb2.pub, hb2.ord, ?_⟩, fun e => nomatch e⟩
          intro hl0 hbv hbm
          refine hS b (hC b (h.first_ceil hc hpath hbc (.here ?_ hbv) hbm))
          replace hl0 : f.level = 0 := hl0
          rw [hl0] at hb1; exact hb1
      · rw [if_neg hl]
        have hnb : ¬ Below cmp m c f.v := fun e => hl ((less_ref m c f.v).2 e)
        have harr : ∀ l, f.level ≤ l → l < maxLevel →
            PrevOK cmp m f.v l (upd f.prevs f.level f.prev l) ∧ NextOK cmp m f.v l (upd f.nexts f.level (ref c) l) := by
          intro l h1 h2
          unfold upd
          by_cases e : l = f.level
          · rw [if_pos e, if_pos e, e]
            exact ⟨⟨a, ha, hpre.lt, hpre.lvl, hpre.pub, hpre.below⟩, c, rfl, hc2.lt, hc2.lvl, hc2.pub, hnb⟩
          · rw [if_neg e, if_neg e]; exact hf.arr l (by omega) h2
        by_cases hl0 : f.level = 0
        · rw [if_pos hl0]
          refine hsame _ fun S' hS => .inr ⟨_, c, rfl, rfl, ⟨?_, ?_⟩, rfl, hc2.lt, hc2.seen hl0 hnb hum, hnb, hc2.pub, hum⟩
          · intro l h1
            exact harr l (by omega) h1
          · show ref c = upd f.nexts f.level (ref c) 0
            simp [upd, hl0]
        · rw [if_neg hl0]
          refine hsame _ fun S' hS => .inl ⟨_, rfl, rfl, ?_, ?_, a, ha, ?_, fun e => absurd rfl e⟩
          · show f.level - 1 < maxLevel
            have := hf.lvl; omega
          · intro l h1 h2
            replace h1 : f.level - 1 < l := h1
            exact harr l (by omega) h2
          · have := hpre' S' hS
            refine ⟨this.lt, ?_, this.pub, this.below, this.seen⟩
            show f.level - 1 < m.lvl a
            have := this.lvl; omega
  | unlink =>
    obtain ⟨c, hc1, hc2, hc3⟩ := hcur (by rw [hph]; decide)
    obtain ⟨hn1, hn2⟩ := hc3 hph
    simp only
    rw [ha, casNext_ref hpre.lvl]
    by_cases hcas : m.next a f.level = f.cur
    · rw [if_pos hcas]
      simp only
      rw [hc1] at hcas
      have hct : c ≠ tailA := by
        rintro rfl
        rw [h.tailN] at hn1; rw [← hn1] at hn2; cases hn2
      obtain ⟨n, hb1, hb2⟩ := h.follow hc2.lt hc2.lvl hct
      have hgn : getUnmarked f.next = ref n := by rw [← hn1]; unfold getUnmarked ref; rw [hb1]
      rw [hgn]
      have hau : (m.next a f.level).mark = false := by rw [hcas]; rfl
      have key : MInv cmp (m.setNext a f.level (ref n)) ∧ Evo cmp m (m.setNext a f.level (ref n)) none ∧
          ∀ x, Live (m.setNext a f.level (ref n)) x ↔ Live m x := by
        by_cases hl0 : f.level = 0
        · rw [hl0] at hcas hb1 hn1 ⊢
          have hmk : Mk m c := by unfold Mk; rw [hn1]; exact hn2
          have hord : Nlt cmp m a n :=
            (h.nx_nlt hpre.lt (show Nx m a c by unfold Nx; rw [hcas]; rfl)).trans hc (h.nx_nlt hc2.lt hb1)
          have hpub := unlink_pub hc h hpre.lt hcas hb1 hmk
          exact ⟨inv_bottom h hpre.lt hat hcas hpub (hpub n hb2.pub) hb2.lt hb2.ne hord,
            evo_bottom hc h hpre.lt hat hcas hpre.pub hpub (hpub n hb2.pub) hb2.lt hb2.ne hord none (.inr (h.not_priv_of_pub hb2.pub)),
            unlink_live hc h hpre.lt hcas hb1 hmk⟩
        · have hl : 0 < f.level := by omega
          have ht : Target cmp m a f.level n := ⟨hb2.lt, hb2.ne, hb2.lvl, hb2.pub, hc2.ord.trans hc hb2.ord⟩
          exact ⟨inv_up h hl hpre.lt hat hpre.lvl hau ht, evo_up h hl hpre.lt hpre.pub hau ht, live_up hl⟩
      obtain ⟨k1, k2, k3⟩ := key
      refine ⟨k1, k2, k3, rfl, fun S' hS hC' => .inl ⟨_, rfl, rfl, hf.lvl, ?_, a, rfl, k2.preOK hpre hS hC', fun e => absurd rfl e⟩⟩
      intro l h1 h2
      exact ⟨k2.prevOK (hf.arr l h1 h2).1, k2.nextOK (hf.arr l h1 h2).2⟩
    · rw [if_neg hcas]
      refine hsame _ fun S' hS => .inl ⟨_, rfl, rfl, FInv.start hc h rfl rfl rfl fun c hc => hS c (hC c hc)⟩

end Gds.LockFree
