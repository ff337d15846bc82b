import Verif.LockFree.Trace

/-! Each atomic access of a goroutine, seen from the goroutine itself. -/

namespace Gds.LockFree
variable {T : Type _} {cmp : Compare T}

theorem keeps_of_live {m m' : Mem T} {own : Option Nat} (h : MInv cmp m) (e : Evo cmp m m' own)
    (hl : ∀ x, Live m' x ↔ Live m x) : Keeps cmp m m' := by
  intro w
  constructor
  · rintro ⟨x, h1, h2⟩
    have h3 := (hl x).1 h1
    exact ⟨x, h3, by rw [← e.val x (h.live_lt h3)]; exact h2⟩
  · rintro ⟨x, h1, h2⟩
    exact ⟨x, (hl x).2 h1, by rw [e.val x (h.live_lt h1)]; exact h2⟩

theorem randomLevelLoop_range (coin : Nat → Bool) (k level : Nat) :
    level ≤ randomLevelLoop coin k level ∧ randomLevelLoop coin k level ≤ level + k := by
  induction k generalizing level with
  | zero => simp [randomLevelLoop]
  | succ k ih =>
    unfold randomLevelLoop
    split
    · have := ih (level + 1); omega
    · omega

theorem randomLevel_pos (coin : Nat → Bool) : 0 < randomLevel coin := by
  have := (randomLevelLoop_range coin (maxLevel - 1) 1).1; unfold randomLevel; omega

theorem randomLevel_le (coin : Nat → Bool) : randomLevel coin ≤ maxLevel := by
  have := (randomLevelLoop_range coin (maxLevel - 1) 1).2
  unfold randomLevel; simp only [maxLevel] at *; omega

/-- The least element not below `v` decides whether `v` is in the set. -/
theorem Ceil.contains_iff (hc : cmp.Lawful) {m : Mem T} {v : T} {c : Nat} (h : Ceil cmp m v c) :
    Contains cmp m v ↔ c ≠ tailA ∧ cmp (m.val c) v = 0 := by
  have hc0 : c ≠ headA := fun e => h.ge (.inl e)
  constructor
  · rintro ⟨d, hd, hdv⟩
    have hdb : ¬ Below cmp m d v := by
      rintro (e | ⟨-, e⟩)
      · exact hd.ne_head e
      · omega
    by_cases hne : d = c
    · subst hne; exact ⟨hd.ne_tail, hdv⟩
    · obtain ⟨g1, -, g3⟩ := h.least d hd hdb hne
      refine ⟨g1, ?_⟩
      rcases g3 with g | g | g
      · exact absurd g hc0
      · exact absurd g hd.ne_tail
      · exact absurd (.inr ⟨g1, hc.lt_of_lt_of_le g (by omega)⟩) h.ge
  · rintro ⟨h1, h2⟩
    exact ⟨c, h.elem.resolve_left h1, h2⟩

section moves
variable {tr : Nat → St T} {lab : Nat → Label T} {t i k : Nat}

/-- What one access leads to: from control point `c` of `op` to `c'`. -/
structure Moved (cmp : Compare T) (tr : Nat → St T) (lab : Nat → Label T) (t i k : Nat) (op : Op T) (c c' : Ctl T) (own : Option Nat) : Prop where
  inv : MInv cmp (tr (k + 1)).mem
  evo : Evo cmp (tr k).mem (tr (k + 1)).mem own
  lv : ∀ a, 2 ≤ a → a < (tr k).mem.alloc → Pub (tr k).mem a → ¬ Mk (tr k).mem a → Mk (tr (k + 1)).mem a →
      ∀ x, Live (tr (k + 1)).mem x → Live (tr k).mem x
  own : own = none ∨ ∃ f nn top, c = .addCas f nn top ∧ own = some nn
  ctl : CtlOK cmp tr lab t i (k + 1) op c'

/-- Accesses that keep the set of live nodes. -/
theorem Moved.quiet {op : Op T} {c c' : Ctl T} (h0 : MInv cmp (tr k).mem) (hi : MInv cmp (tr (k + 1)).mem)
    (e : Evo cmp (tr k).mem (tr (k + 1)).mem none) (hl : ∀ x, Live (tr (k + 1)).mem x ↔ Live (tr k).mem x)
    (h : Keeps cmp (tr k).mem (tr (k + 1)).mem → CtlOK cmp tr lab t i (k + 1) op c') : Moved cmp tr lab t i k op c c' none :=
  ⟨hi, e, fun _ _ _ _ _ _ x => (hl x).1, .inl rfl, h (keeps_of_live h0 e hl)⟩

/-- Accesses that do not write. -/
theorem Moved.read {op : Op T} {c c' : Ctl T} (h0 : MInv cmp (tr k).mem) (hm : (tr (k + 1)).mem = (tr k).mem)
    (h : Evo cmp (tr k).mem (tr (k + 1)).mem none → Keeps cmp (tr k).mem (tr (k + 1)).mem → CtlOK cmp tr lab t i (k + 1) op c') :
    Moved cmp tr lab t i k op c c' none := by
  have e : Evo cmp (tr k).mem (tr (k + 1)).mem none := by rw [hm]; exact Evo.refl h0
  refine Moved.quiet h0 (by rw [hm]; exact h0) e (by rw [hm]; exact fun _ => Iff.rfl) (h e)

theorem Evo.delSame {own : Option Nat} (e : Evo cmp (tr k).mem (tr (k + 1)).mem own) {v : T} {a level : Nat}
    (hm : (tr (k + 1)).mem = (tr k).mem) (h : DelOK cmp (tr k).mem v (Absent cmp tr i k v) a level) :
    DelOK cmp (tr (k + 1)).mem v (Absent cmp tr i (k + 1) v) a level :=
  e.delOK Absent.mono (fun h1 h2 => absurd (by rw [hm] at h2; exact h2) h1) h

variable (hc : cmp.Lawful) (hi : i ≤ k) (h0 : MInv cmp (tr k).mem)
include hc hi h0

theorem resume_ok {op : Op T} {f : Frame T} {kt : Cont} {c : Nat} (hd : FDone cmp (tr k).mem f) (hcur : f.cur = ref c)
    (hlt : c < (tr k).mem.alloc) (hs : Seen cmp tr i k f.v c) (hvs : ∀ j, j ≤ k → Ceil cmp (tr j).mem f.v c → (tr j).mem.val c = (tr k).mem.val c)
    (hnb : ¬ Below cmp (tr k).mem c f.v) (hpub : Pub (tr k).mem c) (hum : ¬ Mk (tr k).mem c)
    (h : ContOK cmp tr lab t i k op f.v kt) : CtlOK cmp tr lab t i k op (kt.resume cmp (tr k).mem f) := by
  have hc0 : c ≠ headA := fun e => hnb (.inl e)
  obtain ⟨j, hj1, hj2, hj3⟩ := hs
  have hval := hvs j hj2 hj3
  have hiff := hj3.contains_iff hc
  rw [hval] at hiff
  cases kt with
  | add =>
    obtain ⟨rfl, h2⟩ := h
    simp only [Cont.resume]
    rw [hcur]
    by_cases he : equals cmp (tr k).mem (ref c) f.v = true
    · rw [if_pos he]
      obtain ⟨-, e1, e2⟩ := (equals_ref _ _ _).1 he
      exact ⟨h2, j, hj1, hj2, hiff.2 ⟨e1, e2⟩⟩
    · rw [if_neg he]
      refine ⟨rfl, h2, hd, c, by rw [← hd.cur]; exact hcur, ?_⟩
      by_cases e : c = tailA
      · exact .inl e
      · right
        have q1 : ¬ cmp ((tr k).mem.val c) f.v = 0 := fun x => he ((equals_ref _ _ _).2 ⟨hc0, e, x⟩)
        have q2 : ¬ cmp ((tr k).mem.val c) f.v < 0 := fun x => hnb (.inr ⟨e, x⟩)
        omega
  | addUp nn top level => exact ⟨h.1, h.2.1, hd, h.2.2⟩
  | del =>
    obtain ⟨rfl, h2⟩ := h
    simp only [Cont.resume]
    rw [hcur]
    by_cases he : equals cmp (tr k).mem (ref c) f.v = true
    · rw [if_pos he]
      obtain ⟨-, e1, e2⟩ := (equals_ref _ _ _).1 he
      have hn : f.nexts 0 = ref c := by rw [← hd.cur]; exact hcur
      rw [hn]
      simp only [ref]
      have h2c : 2 ≤ c := by simp only [headA, tailA] at hc0 e1; omega
      have hpos := h0.lvlpos c hlt
      have hdo : ∀ lev, lev = (tr k).mem.lvl c - 1 → DelOK cmp (tr k).mem f.v (Absent cmp tr i k f.v) c lev := by
        intro lev hlev
        exact ⟨h2c, hlt, hpub, e2, by omega, fun l g1 g2 => by omega, .inr hum⟩
      unfold delLevel
      by_cases hlv : 0 < (tr k).mem.lvl c - 1
      · rw [if_pos hlv]
        exact ⟨f.v, c, rfl, h2, rfl, hdo _ rfl, hlv⟩
      · rw [if_neg hlv]
        exact ⟨f.v, c, rfl, h2, rfl, hdo _ (by omega)⟩
    · rw [if_neg he]
      refine ⟨h2, j, hj1, hj2, fun x => ?_⟩
      obtain ⟨e1, e2⟩ := hiff.1 x
      exact he ((equals_ref _ _ _).2 ⟨hc0, e1, e2⟩)
  | has =>
    obtain ⟨rfl, h2⟩ := h
    simp only [Cont.resume]
    rw [hcur]
    refine ⟨h2, j, hj1, hj2, ?_⟩
    rw [equals_ref, hiff]
    exact ⟨fun x => x.2, fun x => ⟨hc0, x⟩⟩
  | get =>
    obtain ⟨rfl, h2⟩ := h
    simp only [Cont.resume]
    rw [hcur]
    exact ⟨h2, j, c, hj1, hj2, hj3, hval.symm⟩
  | rank =>
    obtain ⟨rfl, h2⟩ := h
    exact h2

theorem move_find {op : Op T} {f : Frame T} {kt : Cont} {coin : Nat → Bool}
    (hvs : ∀ j c, j ≤ k → Ceil cmp (tr j).mem f.v c → c < (tr k).mem.alloc ∧ (tr j).mem.val c = (tr k).mem.val c)
    (hm : (tr (k + 1)).mem = (exec cmp coin (tr k).mem (.find f kt)).1) (h : CtlOK cmp tr lab t i k op (.find f kt)) :
    Moved cmp tr lab t i k op (.find f kt) (exec cmp coin (tr k).mem (.find f kt)).2 none := by
  obtain ⟨hf, hk⟩ := h
  have fs := findStep_spec hc h0 hf (fun c hc' => Seen.now hi hc')
  have hmm : (tr (k + 1)).mem = (findStep cmp (tr k).mem f).1 := by
    rw [hm]; simp only [exec]; rcases hx : findStep cmp (tr k).mem f with ⟨m', r⟩; cases r <;> simp [hx]
  have hmi : MInv cmp (tr (k + 1)).mem := by rw [hmm]; exact fs.inv
  have e : Evo cmp (tr k).mem (tr (k + 1)).mem none := by rw [hmm]; exact fs.evo
  refine Moved.quiet h0 hmi e (by rw [hmm]; exact fs.live) fun hkp => ?_
  have hres := fs.res (Seen cmp tr i (k + 1) f.v) (fun c hc' => hc'.mono) (by rw [← hmm]; exact fun c hc' => Seen.now (by omega) hc')
  rw [← hmm] at hres
  have hk' := e.contOK (t := t) (i := i) (lab := lab) (fun _ => hkp) hk
  rcases hres with ⟨f', h1, h2, h3⟩ | ⟨f', c, h1, h2, h3, h4, h5, h6, h7, h8, h9⟩
  · have : (exec cmp coin (tr k).mem (.find f kt)).2 = .find f' kt := by
      simp only [exec]; rcases hx : findStep cmp (tr k).mem f with ⟨m', r⟩; rw [hx] at h1; simp only at h1; subst h1; simp [hx]
    rw [this]
    exact ⟨by rw [h2]; exact h3, by rw [h2]; exact hk'⟩
  · have : (exec cmp coin (tr k).mem (.find f kt)).2 = kt.resume cmp (tr (k + 1)).mem f' := by
      simp only [exec]; rcases hx : findStep cmp (tr k).mem f with ⟨m', r⟩; rw [hx] at h1 hmm; simp only at h1; subst h1; simp [hx, hmm]
    rw [this]
    refine resume_ok hc (by omega) hmi h3 h4 h5 (by rw [h2]; exact h6.mono) ?_ (by rw [h2]; exact h7) h8 h9 (by rw [h2]; exact hk')
    intro j hj hcj
    rw [h2] at hcj
    obtain ⟨j', g1, g2, g3⟩ := h6
    have hlt : c < (tr k).mem.alloc := (hvs j' c g2 g3).1
    by_cases ej : j = k + 1
    · rw [ej]
    · rw [(hvs j c (by omega) hcj).2, e.val c hlt]

theorem Unch.lin {E : Mem T → Mem T → Prop} (hu : Unch cmp tr lab t i k) (ht : (lab k).tid = t)
    (hE : E (tr k).mem (tr (k + 1)).mem) : Lin cmp tr lab t i (k + 1) E :=
  ⟨k, hi, by omega, ht, hE, fun j h1 h2 h3 h4 => hu j h1 (by omega) h4⟩

omit hi in
theorem fills_of_done {m : Mem T} {f : Frame T} {top : Nat} (ht : top ≤ maxLevel) (hd : FDone cmp m f) (ha : AboveOK cmp m f) :
    Fills cmp m top f.v f.nexts where
  each l hl := by
    obtain ⟨b, h1, h2, h3, h4, h5⟩ := (hd.arr l (by omega)).2
    refine ⟨b, h1, h2, fun e => h5 (.inl e), h3, h4, ?_⟩
    by_cases e : b = tailA
    · exact .inl e
    · right
      by_contra hcon
      exact h5 (.inr ⟨e, by omega⟩)
  strict := ha

omit hi in
theorem move_addNew {op : Op T} {f : Frame T} {coin : Nat → Bool}
    (hm : (tr (k + 1)).mem = (exec cmp coin (tr k).mem (.addNew f)).1) (h : CtlOK cmp tr lab t i k op (.addNew f)) :
    Moved cmp tr lab t i k op (.addNew f) (exec cmp coin (tr k).mem (.addNew f)).2 none := by
  obtain ⟨h1, h2, h3, h4⟩ := h
  have hmm : (tr (k + 1)).mem = allocMem (tr k).mem (randomLevel coin) f.v f.nexts := hm
  have hf := fills_of_done hc h0 (randomLevel_le coin) h3 h4
  have e : Evo cmp (tr k).mem (tr (k + 1)).mem none := by rw [hmm]; exact evo_alloc h0 hf
  refine Moved.quiet h0 (by rw [hmm]; exact inv_alloc hc h0 (randomLevel_pos coin) hf) e (by rw [hmm]; exact live_alloc h0) fun hk => ?_
  refine ⟨h1, h2.mono fun _ => hk, e.fDone h3, e.aboveOK h3 h4, ?_⟩
  rw [hmm]
  refine ⟨priv_alloc h0 hf, ?_, ?_, ?_, randomLevel_pos coin, randomLevel_le coin⟩
  · rw [allocMem_lvl]; exact if_pos rfl
  · rw [allocMem_val]; exact if_pos rfl
  · rw [allocMem_next]; rw [if_pos rfl, if_pos (randomLevel_pos coin)]

omit hi in
/-- Linking a new node between a smaller and a greater neighbour inserts its value. -/
theorem adds_of_insert {m : Mem T} {a b d : Nat} {v : T} (h : MInv cmp m) (hpa : Pub m a) (hba : Below cmp m a v)
    (hu : m.next a 0 = ref b) (hbv : b = tailA ∨ 0 < cmp (m.val b) v) (hbl : b < m.alloc) (hb0 : b ≠ headA)
    (hd : Nx m d b) (hpd : Priv m d) (hv : m.val d = v) : Adds cmp m (m.setNext a 0 (ref d)) v := by
  have hau : ¬ Mk m a := by unfold Mk; rw [hu]; simp [ref]
  have hpath := h.path_of_pub hpa hau
  refine ⟨?_, fun w => ?_⟩
  · rintro ⟨x, hx, hxv⟩
    have hxb : ¬ Below cmp m x v := by
      rintro (e | ⟨-, e⟩)
      · exact hx.ne_head e
      · omega
    have hax := h.path_of_nlt hc h.head_lt hpath hx.path (Nlt.of_below hc hba hxb)
    have hbnot : ¬ Below cmp m b v := by
      rintro (e | ⟨e1, e2⟩)
      · exact hb0 e
      · rcases hbv with e | e
        · exact e1 e
        · omega
    have hbx := h.first_before hba (.here (show Nx m a b by unfold Nx; rw [hu]; rfl) hbnot) hax hxb
    rcases h.path_nlt hc hbl hbx with e | ⟨e1, e2, e3⟩
    · subst e
      rcases hbv with e | e
      · exact hx.ne_tail e
      · omega
    · rcases e3 with e3 | e3 | e3
      · exact hb0 e3
      · exact hx.ne_tail e3
      · have q := hbv.resolve_left e1
        have := hc.lt_of_lt_of_le e3 (show cmp (m.val x) v ≤ 0 by omega)
        omega
  · constructor
    · rintro ⟨x, hx, hxw⟩
      rcases (insert_live h hpa hu hd hpd x).1 hx with e | rfl
      · exact .inl ⟨x, e, hxw⟩
      · right; rw [← hv]; exact hxw
    · rintro (⟨x, hx, hxw⟩ | hw)
      · exact ⟨x, (insert_live h hpa hu hd hpd x).2 (.inl hx), hxw⟩
      · exact ⟨d, (insert_live h hpa hu hd hpd d).2 (.inr rfl), by show cmp (m.val d) w = 0; rw [hv]; exact hw⟩

theorem move_addCas {op : Op T} {f : Frame T} {nn top : Nat} {coin : Nat → Bool} (ht : (lab k).tid = t)
    (hm : (tr (k + 1)).mem = (exec cmp coin (tr k).mem (.addCas f nn top)).1) (h : CtlOK cmp tr lab t i k op (.addCas f nn top)) :
    ∃ own, Moved cmp tr lab t i k op (.addCas f nn top) (exec cmp coin (tr k).mem (.addCas f nn top)).2 own := by
  obtain ⟨h1, h2, h3, ⟨b, hb1, hb2⟩, h5⟩ := h
  obtain ⟨a, ha1, ha2, ha3, ha4, ha5⟩ := (h3.arr 0 (by decide)).1
  obtain ⟨b', hb1', hb3, hb4, hb5, hb6⟩ := (h3.arr 0 (by decide)).2
  have : b' = b := by rw [hb1] at hb1'; simpa [ref] using hb1'.symm
  subst this
  have hb0 : b' ≠ headA := fun e => hb6 (.inl e)
  have hat : a ≠ tailA := by
    rintro rfl
    rcases ha5 with e | e
    · cases e
    · exact e.1 rfl
  simp only [exec] at hm ⊢
  rw [ha1, casNext_ref ha3] at hm ⊢
  by_cases hcas : (tr k).mem.next a 0 = f.nexts 0
  · rw [if_pos hcas] at hm ⊢
    simp only at hm ⊢
    rw [hb1] at hcas
    have hd : Nx (tr k).mem nn b' := by unfold Nx; rw [h5.next0, hb1]; rfl
    have hpub := insert_pub h0 ha4 hcas hd h5.priv
    have hpn := insert_pub_new h0 ha4 hcas hd h5.priv
    have hn2 := h5.priv.two
    have hn0 : nn ≠ headA := by simp only [headA]; omega
    have hn1 : nn ≠ tailA := by simp only [tailA]; omega
    have hnb : ¬ Below cmp (tr k).mem nn f.v := by
      rintro (e | ⟨-, e⟩)
      · exact hn0 e
      · rw [h5.val] at e; have := hc.self f.v; omega
    have hord := Nlt.of_below hc ha5 hnb
    have e : Evo cmp (tr k).mem (tr (k + 1)).mem (some nn) := by
      rw [hm]; exact evo_bottom hc h0 ha2 hat hcas ha4 hpub hpn h5.priv.lt hn0 hord (some nn) (.inl rfl)
    have hlin : Lin cmp tr lab t i (k + 1) (fun m m' => Adds cmp m m' f.v) := by
      refine Unch.lin hc hi h0 h2 ht ?_
      rw [hm]
      exact adds_of_insert hc h0 h0 ha4 ha5 hcas hb2 hb3 hb0 hd h5.priv h5.val
    refine ⟨some nn, by rw [hm]; exact inv_bottom h0 ha2 hat hcas hpub hpn h5.priv.lt hn0 hord, e, ?_, .inr ⟨f, nn, top, rfl, rfl⟩, ?_⟩
    · intro x _ _ _ g4 g5
      rw [hm] at g5
      exact absurd ((mk_bottom hcas x).1 g5) g4
    · have hpub' : Pub (tr (k + 1)).mem nn := by rw [hm]; exact hpn
      have hlt := h5.priv.lt
      unfold addLevel
      by_cases h1t : 1 < top
      · rw [if_pos h1t]
        exact ⟨h1, hlin, e.fDone h3, hn2, Nat.lt_of_lt_of_le hlt e.alloc, hpub', by rw [e.lvl nn hlt]; exact h5.lvl,
          by rw [e.val nn hlt]; exact h5.val, by omega, h1t, h5.top⟩
      · rw [if_neg h1t]
        exact ⟨f.v, h1, hlin⟩
  · rw [if_neg hcas] at hm ⊢
    refine ⟨none, Moved.read h0 hm fun e hk => ⟨FInv.start hc (by rw [hm]; exact h0) rfl rfl rfl fun c hc' => Seen.now (by omega) hc', h1, h2.mono fun _ => hk⟩⟩

theorem move_addUp {op : Op T} {f : Frame T} {nn top level : Nat} {coin : Nat → Bool}
    (hm : (tr (k + 1)).mem = (exec cmp coin (tr k).mem (.addUp f nn top level)).1) (h : CtlOK cmp tr lab t i k op (.addUp f nn top level)) :
    Moved cmp tr lab t i k op (.addUp f nn top level) (exec cmp coin (tr k).mem (.addUp f nn top level)).2 none := by
  obtain ⟨h1, h2, h3, h5⟩ := h
  have hlm : level < maxLevel := by have := h5.lev; have := h5.top; omega
  obtain ⟨a, ha1, ha2, ha3, ha4, ha5⟩ := (h3.arr level hlm).1
  obtain ⟨b, hb1, hb3, hb4, hb5, hb6⟩ := (h3.arr level hlm).2
  have hat : a ≠ tailA := by
    rintro rfl
    rcases ha5 with e | e
    · cases e
    · exact e.1 rfl
  simp only [exec] at hm ⊢
  rw [ha1, casNext_ref ha3] at hm ⊢
  by_cases hcas : (tr k).mem.next a level = f.nexts level
  · rw [if_pos hcas] at hm ⊢
    simp only at hm ⊢
    rw [hb1] at hcas
    have hn2 := h5.two
    have hn0 : nn ≠ headA := by simp only [headA]; omega
    have hnb : ¬ Below cmp (tr k).mem nn f.v := by
      rintro (e | ⟨-, e⟩)
      · exact hn0 e
      · rw [h5.val] at e; have := hc.self f.v; omega
    have hord := Nlt.of_below hc ha5 hnb
    have htg : Target cmp (tr k).mem a level nn := ⟨h5.lt, hn0, by rw [h5.lvl]; exact h5.lev, h5.pub, .inl hord⟩
    have hau : ((tr k).mem.next a level).mark = false := by rw [hcas]; rfl
    have e : Evo cmp (tr k).mem (tr (k + 1)).mem none := by rw [hm]; exact evo_up h0 h5.pos ha2 ha4 hau htg
    refine Moved.quiet h0 (by rw [hm]; exact inv_up h0 h5.pos ha2 hat ha3 hau htg) e (by rw [hm]; exact live_up h5.pos) fun hk => ?_
    have h5' := e.newOK h5
    unfold addLevel
    by_cases h1t : level + 1 < top
    · rw [if_pos h1t]
      exact ⟨h1, h2.mono fun _ => hk, e.fDone h3, h5'.two, h5'.lt, h5'.pub, h5'.lvl, h5'.val, by omega, h1t, h5'.top⟩
    · rw [if_neg h1t]
      exact ⟨f.v, h1, h2.mono fun _ => hk⟩
  · rw [if_neg hcas] at hm ⊢
    exact Moved.read h0 hm fun e hk => ⟨FInv.start hc (by rw [hm]; exact h0) rfl rfl rfl fun c hc' => Seen.now (by omega) hc', h1, h2.mono fun _ => hk, e.newOK h5⟩

omit hc hi in
theorem move_addSize {op : Op T} {coin : Nat → Bool}
    (hm : (tr (k + 1)).mem = (exec cmp coin (tr k).mem .addSize).1) (h : CtlOK cmp tr lab t i k op .addSize) :
    Moved cmp tr lab t i k op .addSize (exec cmp coin (tr k).mem .addSize).2 none := by
  obtain ⟨v, rfl, h2⟩ := h
  have e : Evo cmp (tr k).mem (tr (k + 1)).mem none := by rw [hm]; exact evo_size h0
  refine Moved.quiet h0 (by rw [hm]; exact inv_size h0) e (by rw [hm]; exact live_size) fun hk => ?_
  exact h2.mono fun _ => hk

omit hc hi in
theorem move_delSize {op : Op T} {coin : Nat → Bool}
    (hm : (tr (k + 1)).mem = (exec cmp coin (tr k).mem .delSize).1) (h : CtlOK cmp tr lab t i k op .delSize) :
    Moved cmp tr lab t i k op .delSize (exec cmp coin (tr k).mem .delSize).2 none := by
  obtain ⟨v, rfl, h2⟩ := h
  have e : Evo cmp (tr k).mem (tr (k + 1)).mem none := by rw [hm]; exact evo_size h0
  refine Moved.quiet h0 (by rw [hm]; exact inv_size h0) e (by rw [hm]; exact live_size) fun hk => ?_
  exact h2.mono fun _ => hk

omit hc hi in
theorem move_delLoad {op : Op T} {r : Ptr} {level : Nat} {coin : Nat → Bool}
    (hm : (tr (k + 1)).mem = (exec cmp coin (tr k).mem (.delLoad r level)).1) (h : CtlOK cmp tr lab t i k op (.delLoad r level)) :
    Moved cmp tr lab t i k op (.delLoad r level) (exec cmp coin (tr k).mem (.delLoad r level)).2 none := by
  obtain ⟨v, a, rfl, h2, rfl, h4, h5⟩ := h
  simp only [exec] at hm ⊢
  rw [loadNext_ref h4.lev] at hm ⊢
  simp only at hm ⊢
  refine Moved.read h0 hm fun e hk => ?_
  have h4' := e.delSame hm h4
  have hfr : (tr (k + 1)).mem.next a level = (tr k).mem.next a level := by rw [hm]
  by_cases hmk : isMarked ((tr k).mem.next a level) = true
  · rw [if_pos hmk]
    have hd : DelOK cmp (tr (k + 1)).mem v (Absent cmp tr i (k + 1) v) a (level - 1) := by
      refine ⟨h4'.two, h4'.lt, h4'.pub, h4'.val, by have := h4'.lev; omega, ?_, h4'.seen⟩
      intro l g1 g2
      by_cases el : l = level
      · rw [el, hfr]; exact hmk
      · exact h4'.above l (by omega) g2
    unfold delLevel
    by_cases hl : 0 < level - 1
    · rw [if_pos hl]; exact ⟨v, a, rfl, h2.mono fun _ => hk, rfl, hd, hl⟩
    · rw [if_neg hl]
      have : level - 1 = 0 := by omega
      rw [this] at hd
      exact ⟨v, a, rfl, h2.mono fun _ => hk, rfl, hd⟩
  · rw [if_neg hmk]
    exact ⟨v, a, rfl, h2.mono fun _ => hk, rfl, h4', h5, by simpa [isMarked] using hmk⟩

omit hc hi in
theorem move_delCas {op : Op T} {r nx : Ptr} {level : Nat} {coin : Nat → Bool}
    (hm : (tr (k + 1)).mem = (exec cmp coin (tr k).mem (.delCas r level nx)).1) (h : CtlOK cmp tr lab t i k op (.delCas r level nx)) :
    Moved cmp tr lab t i k op (.delCas r level nx) (exec cmp coin (tr k).mem (.delCas r level nx)).2 none := by
  obtain ⟨v, a, rfl, h2, rfl, h4, h5, h6⟩ := h
  simp only [exec] at hm ⊢
  rw [casNext_ref h4.lev] at hm ⊢
  by_cases hcas : (tr k).mem.next a level = nx
  · rw [if_pos hcas] at hm ⊢
    simp only at hm ⊢
    subst hcas
    have e : Evo cmp (tr k).mem (tr (k + 1)).mem none := by rw [hm]; exact evo_mark h0 h4.pub h6
    refine Moved.quiet h0 (by rw [hm]; exact inv_mark h0 h4.two h4.above) e (by rw [hm]; exact live_mark_up h5) fun hk => ?_
    refine ⟨v, a, rfl, h2.mono fun _ => hk, rfl, e.delOK Absent.mono (fun g1 g2 => ?_) h4, h5⟩
    rw [hm] at g2
    rcases mk_mark a g2 with g | ⟨-, g⟩
    · exact absurd g g1
    · omega
  · rw [if_neg hcas] at hm ⊢
    exact Moved.read h0 hm fun e hk => ⟨v, a, rfl, h2.mono fun _ => hk, rfl, e.delSame hm h4, h5⟩

omit hc hi in
theorem move_delLoad0 {op : Op T} {r : Ptr} {coin : Nat → Bool}
    (hm : (tr (k + 1)).mem = (exec cmp coin (tr k).mem (.delLoad0 r)).1) (h : CtlOK cmp tr lab t i k op (.delLoad0 r)) :
    Moved cmp tr lab t i k op (.delLoad0 r) (exec cmp coin (tr k).mem (.delLoad0 r)).2 none := by
  obtain ⟨v, a, rfl, h2, rfl, h4⟩ := h
  simp only [exec] at hm ⊢
  rw [loadNext_ref h4.lev] at hm ⊢
  simp only at hm ⊢
  refine Moved.read h0 hm fun e hk => ?_
  have h4' := e.delSame hm h4
  by_cases hmk : isMarked ((tr k).mem.next a 0) = true
  · rw [if_pos hmk]
    refine ⟨h2.mono fun _ => hk, ?_⟩
    rcases h4'.seen with g | g
    · exact g
    · exact absurd (by rw [hm]; exact hmk) g
  · rw [if_neg hmk]
    exact ⟨v, a, rfl, h2.mono fun _ => hk, rfl, h4', by simpa [isMarked] using hmk⟩

theorem move_delCas0 {op : Op T} {r nx : Ptr} {coin : Nat → Bool} (ht : (lab k).tid = t)
    (hm : (tr (k + 1)).mem = (exec cmp coin (tr k).mem (.delCas0 r nx)).1) (h : CtlOK cmp tr lab t i k op (.delCas0 r nx)) :
    Moved cmp tr lab t i k op (.delCas0 r nx) (exec cmp coin (tr k).mem (.delCas0 r nx)).2 none := by
  obtain ⟨v, a, rfl, h2, rfl, h4, h6⟩ := h
  simp only [exec] at hm ⊢
  rw [casNext_ref h4.lev] at hm ⊢
  by_cases hcas : (tr k).mem.next a 0 = nx
  · rw [if_pos hcas] at hm ⊢
    simp only at hm ⊢
    subst hcas
    have hi' : MInv cmp (tr (k + 1)).mem := by rw [hm]; exact inv_mark h0 h4.two h4.above
    have e : Evo cmp (tr k).mem (tr (k + 1)).mem none := by rw [hm]; exact evo_mark h0 h4.pub h6
    have hlv : ∀ x, Live (tr (k + 1)).mem x ↔ Live (tr k).mem x ∧ x ≠ a := by rw [hm]; exact live_mark
    have hum : ¬ Mk (tr k).mem a := by unfold Mk; rw [h6]; decide
    have hlive : Live (tr k).mem a :=
      ⟨by have := h4.two; simp only [headA]; omega, by have := h4.two; simp only [tailA]; omega, h0.path_of_pub h4.pub hum, hum⟩
    have hmk : Mk (tr (k + 1)).mem a := by rw [hm]; unfold Mk; rw [setNext_same]; rfl
    have habs := absent_of_mark hc e h0 hi' h4.lt h4.two h4.pub hum hmk (fun x hx => ((hlv x).1 hx).1) h4.val
    refine ⟨hi', e, fun _ _ _ _ _ _ x hx => ((hlv x).1 hx).1, .inl rfl, v, rfl, Unch.lin hc hi h0 h2 ht ⟨⟨a, hlive, h4.val⟩, fun w => ?_⟩⟩
    constructor
    · rintro ⟨x, hx, hxw⟩
      have hx' := ((hlv x).1 hx).1
      refine ⟨⟨x, hx', by rw [← e.val x (h0.live_lt hx')]; exact hxw⟩, fun hvw => habs ⟨x, hx, ?_⟩⟩
      have q1 := hc.zero_symm hvw
      have q2 := hc.zero_symm hxw
      have q3 := hc.trans _ _ _ (show cmp ((tr (k+1)).mem.val x) w ≤ 0 by omega) (show cmp w v ≤ 0 by omega)
      have q4 := hc.trans _ _ _ (show cmp v w ≤ 0 by omega) (show cmp w ((tr (k+1)).mem.val x) ≤ 0 by omega)
      have := hc.le_iff v ((tr (k+1)).mem.val x)
      omega
    · rintro ⟨⟨x, hx, hxw⟩, hvw⟩
      refine ⟨x, (hlv x).2 ⟨hx, ?_⟩, by rw [e.val x (h0.live_lt hx)]; exact hxw⟩
      rintro rfl
      apply hvw
      have q1 := hc.zero_symm h4.val
      have q2 := hc.zero_symm hxw
      have q3 := hc.trans _ _ _ (show cmp v ((tr k).mem.val x) ≤ 0 by omega) (show cmp ((tr k).mem.val x) w ≤ 0 by omega)
      have q4 := hc.trans _ _ _ (show cmp w ((tr k).mem.val x) ≤ 0 by omega) (show cmp ((tr k).mem.val x) v ≤ 0 by have := h4.val; omega)
      have := hc.le_iff w v
      omega
  · rw [if_neg hcas] at hm ⊢
    exact Moved.read h0 hm fun e hk => ⟨v, a, rfl, h2.mono fun _ => hk, rfl, e.delSame hm h4⟩

theorem move_rankLen {op : Op T} {v : T} {coin : Nat → Bool}
    (hm : (tr (k + 1)).mem = (exec cmp coin (tr k).mem (.rankLen v)).1) (h : CtlOK cmp tr lab t i k op (.rankLen v)) :
    Moved cmp tr lab t i k op (.rankLen v) (exec cmp coin (tr k).mem (.rankLen v)).2 none := by
  obtain ⟨rfl, h2⟩ := h
  simp only [exec] at hm ⊢
  refine Moved.read h0 hm fun e hk => ?_
  by_cases hs : (tr k).mem.size.toInt ≤ 1
  · rw [if_pos hs]; exact h2.mono fun _ => hk
  · rw [if_neg hs]
    exact ⟨FInv.start hc (by rw [hm]; exact h0) rfl rfl rfl fun c hc' => Seen.now (by omega) hc', rfl, h2.mono fun _ => hk⟩

omit hc in
theorem move_lenLoad {op : Op T} {coin : Nat → Bool}
    (hm : (tr (k + 1)).mem = (exec cmp coin (tr k).mem .lenLoad).1) (h : CtlOK cmp tr lab t i k op .lenLoad) :
    Moved cmp tr lab t i k op .lenLoad (exec cmp coin (tr k).mem .lenLoad).2 none := by
  obtain ⟨rfl, h2⟩ := h
  simp only [exec] at hm ⊢
  exact Moved.read h0 hm fun e hk => ⟨h2.mono fun _ => hk, k, hi, by omega, rfl⟩

end moves

end Gds.LockFree
