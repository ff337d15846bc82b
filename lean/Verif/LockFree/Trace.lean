import Verif.LockFree.Frame

/-! Runs: what holds at every instant of every run. -/

namespace Gds.LockFree
variable {T : Type _} {cmp : Compare T}

/-- The index at which the latest call of goroutine `t` was in place, before instant `k`. -/
def since (lab : Nat → Label T) (t : Nat) : Nat → Nat
  | 0 => 0
  | k + 1 =>
    match lab k with
    | .call u _ => if u = t then k + 1 else since lab t k
    | _ => since lab t k

/-- Node `c` has been the least element not below `v` at some instant between `i` and `k`. -/
def Seen (cmp : Compare T) (tr : Nat → St T) (i k : Nat) (v : T) (c : Nat) : Prop :=
  ∃ j, i ≤ j ∧ j ≤ k ∧ Ceil cmp (tr j).mem v c

/-- `v` was not in the set at some instant between `i` and `k`. -/
def Absent (cmp : Compare T) (tr : Nat → St T) (i k : Nat) (v : T) : Prop :=
  ∃ j, i ≤ j ∧ j ≤ k ∧ ¬ Contains cmp (tr j).mem v

/-- The node an `Add` has linked at the bottom and is linking at `level`. -/
structure NewOK (m : Mem T) (v : T) (nn top level : Nat) : Prop where
  two : 2 ≤ nn
  lt : nn < m.alloc
  pub : Pub m nn
  lvl : m.lvl nn = top
  val : m.val nn = v
  pos : 0 < level
  lev : level < top
  top : top ≤ maxLevel

/-- The node a `Del` is removing; the levels above `level` are marked. -/
structure DelOK (cmp : Compare T) (m : Mem T) (v : T) (A : Prop) (a level : Nat) : Prop where
  two : 2 ≤ a
  lt : a < m.alloc
  pub : Pub m a
  val : cmp (m.val a) v = 0
  lev : level < m.lvl a
  above : ∀ l, level < l → l < m.lvl a → (m.next a l).mark = true
  seen : A ∨ ¬ Mk m a

/-- The successor found at the bottom level is above `v`. -/
def AboveOK (cmp : Compare T) (m : Mem T) (f : Frame T) : Prop :=
  ∃ b, f.nexts 0 = ref b ∧ (b = tailA ∨ 0 < cmp (m.val b) f.v)

/-- The node an `Add` has made but not linked yet. -/
structure PrivOK (m : Mem T) (f : Frame T) (nn top : Nat) : Prop where
  priv : Priv m nn
  lvl : m.lvl nn = top
  val : m.val nn = f.v
  next0 : m.next nn 0 = f.nexts 0
  pos : 0 < top
  top : top ≤ maxLevel

/-- Which method a traversal belongs to and what has happened before. -/
def ContOK (cmp : Compare T) (tr : Nat → St T) (lab : Nat → Label T) (t i k : Nat) (op : Op T) (v : T) : Cont → Prop
  | .add => op = .add v ∧ Unch cmp tr lab t i k
  | .addUp nn top level => op = .add v ∧ Lin cmp tr lab t i k (fun m m' => Adds cmp m m' v) ∧ NewOK (tr k).mem v nn top level
  | .del => op = .del v ∧ Unch cmp tr lab t i k
  | .has => op = .has v ∧ Unch cmp tr lab t i k
  | .get => op = .get v ∧ Unch cmp tr lab t i k
  | .rank => op = .rank v ∧ Unch cmp tr lab t i k

/-- What a goroutine knows at each place. -/
def CtlOK (cmp : Compare T) (tr : Nat → St T) (lab : Nat → Label T) (t i k : Nat) (op : Op T) : Ctl T → Prop
  | .find f kt => FInv cmp (tr k).mem (Seen cmp tr i k f.v) f ∧ ContOK cmp tr lab t i k op f.v kt
  | .addNew f => op = .add f.v ∧ Unch cmp tr lab t i k ∧ FDone cmp (tr k).mem f ∧ AboveOK cmp (tr k).mem f
  | .addCas f nn top => op = .add f.v ∧ Unch cmp tr lab t i k ∧ FDone cmp (tr k).mem f ∧ AboveOK cmp (tr k).mem f ∧
      PrivOK (tr k).mem f nn top
  | .addUp f nn top level => op = .add f.v ∧ Lin cmp tr lab t i k (fun m m' => Adds cmp m m' f.v) ∧ FDone cmp (tr k).mem f ∧
      NewOK (tr k).mem f.v nn top level
  | .addSize => ∃ v, op = .add v ∧ Lin cmp tr lab t i k (fun m m' => Adds cmp m m' v)
  | .delLoad r level => ∃ v a, op = .del v ∧ Unch cmp tr lab t i k ∧ r = ref a ∧
      DelOK cmp (tr k).mem v (Absent cmp tr i k v) a level ∧ 0 < level
  | .delCas r level nx => ∃ v a, op = .del v ∧ Unch cmp tr lab t i k ∧ r = ref a ∧
      DelOK cmp (tr k).mem v (Absent cmp tr i k v) a level ∧ 0 < level ∧ nx.mark = false
  | .delLoad0 r => ∃ v a, op = .del v ∧ Unch cmp tr lab t i k ∧ r = ref a ∧
      DelOK cmp (tr k).mem v (Absent cmp tr i k v) a 0
  | .delCas0 r nx => ∃ v a, op = .del v ∧ Unch cmp tr lab t i k ∧ r = ref a ∧
      DelOK cmp (tr k).mem v (Absent cmp tr i k v) a 0 ∧ nx.mark = false
  | .delSize => ∃ v, op = .del v ∧ Lin cmp tr lab t i k (fun m m' => Removes cmp m m' v)
  | .rankLen v => op = .rank v ∧ Unch cmp tr lab t i k
  | .lenLoad => op = .len ∧ Unch cmp tr lab t i k
  | .ret o => RetOK cmp tr lab t i k op o
  | .panicked _ => False

/-! ### Stability -/

section stable
variable {tr : Nat → St T} {lab : Nat → Label T} {t i k : Nat} {own : Option Nat}

theorem Seen.mono {v : T} {c : Nat} (h : Seen cmp tr i k v c) : Seen cmp tr i (k + 1) v c := by
  obtain ⟨j, h1, h2, h3⟩ := h
  exact ⟨j, h1, by omega, h3⟩

theorem Seen.now {v : T} {c : Nat} (hi : i ≤ k) (h : Ceil cmp (tr k).mem v c) : Seen cmp tr i k v c :=
  ⟨k, hi, Nat.le_refl _, h⟩

theorem Absent.mono {v : T} (h : Absent cmp tr i k v) : Absent cmp tr i (k + 1) v := by
  obtain ⟨j, h1, h2, h3⟩ := h
  exact ⟨j, h1, by omega, h3⟩

theorem Unch.mono (h : Unch cmp tr lab t i k) (hk : (lab k).tid = t → Keeps cmp (tr k).mem (tr (k + 1)).mem) :
    Unch cmp tr lab t i (k + 1) := by
  intro j h1 h2 h3
  by_cases e : j = k
  · subst e; exact hk h3
  · exact h j h1 (by omega) h3

theorem Lin.mono {E : Mem T → Mem T → Prop} (h : Lin cmp tr lab t i k E)
    (hk : (lab k).tid = t → Keeps cmp (tr k).mem (tr (k + 1)).mem) : Lin cmp tr lab t i (k + 1) E := by
  obtain ⟨j, h1, h2, h3, h4, h5⟩ := h
  refine ⟨j, h1, by omega, h3, h4, fun j' g1 g2 g3 g4 => ?_⟩
  by_cases e : j' = k
  · subst e; exact hk g4
  · exact h5 j' g1 (by omega) g3 g4

theorem RetOK.mono {op : Op T} {o : Out T} (h : RetOK cmp tr lab t i k op o)
    (hk : (lab k).tid = t → Keeps cmp (tr k).mem (tr (k + 1)).mem) : RetOK cmp tr lab t i (k + 1) op o := by
  unfold RetOK at *
  split at h
  · exact Lin.mono h hk
  · obtain ⟨h1, j, h2, h3, h4⟩ := h; exact ⟨h1.mono hk, j, h2, by omega, h4⟩
  · exact Lin.mono h hk
  · obtain ⟨h1, j, h2, h3, h4⟩ := h; exact ⟨h1.mono hk, j, h2, by omega, h4⟩
  · obtain ⟨h1, j, h2, h3, h4⟩ := h; exact ⟨h1.mono hk, j, h2, by omega, h4⟩
  · obtain ⟨h1, j, c, h2, h3, h4⟩ := h; exact ⟨h1.mono hk, j, c, h2, by omega, h4⟩
  · exact Unch.mono h hk
  · obtain ⟨h1, j, h2, h3, h4⟩ := h; exact ⟨h1.mono hk, j, h2, by omega, h4⟩
  · exact h

theorem Evo.newOK {m m' : Mem T} (e : Evo cmp m m' own) {v : T} {nn top level : Nat} (h : NewOK m v nn top level) :
    NewOK m' v nn top level :=
  ⟨h.two, Nat.lt_of_lt_of_le h.lt e.alloc, e.pub nn h.lt h.pub, by rw [e.lvl nn h.lt]; exact h.lvl,
    by rw [e.val nn h.lt]; exact h.val, h.pos, h.lev, h.top⟩

theorem Evo.aboveOK {m m' : Mem T} (e : Evo cmp m m' own) {f : Frame T} (hd : FDone cmp m f) (h : AboveOK cmp m f) : AboveOK cmp m' f := by
  obtain ⟨b, h1, h2⟩ := h
  obtain ⟨b', h3, h4, -⟩ := (hd.arr 0 (by decide)).2
  have : b' = b := by rw [h1] at h3; simpa [ref] using h3.symm
  subst this
  exact ⟨b', h1, by rw [e.val b' h4]; exact h2⟩

theorem Evo.privOK {m m' : Mem T} (e : Evo cmp m m' own) {f : Frame T} {nn top : Nat} (h : PrivOK m f nn top) (hne : some nn ≠ own) :
    PrivOK m' f nn top := by
  obtain ⟨h1, h2⟩ := e.priv nn h.priv hne
  have hlt := h.priv.lt
  exact ⟨h1, by rw [e.lvl nn hlt]; exact h.lvl, by rw [e.val nn hlt]; exact h.val, by rw [h2]; exact h.next0, h.pos, h.top⟩

theorem Evo.contOK (e : Evo cmp (tr k).mem (tr (k + 1)).mem own)
    (hk : (lab k).tid = t → Keeps cmp (tr k).mem (tr (k + 1)).mem) {op : Op T} {v : T} {kt : Cont}
    (h : ContOK cmp tr lab t i k op v kt) : ContOK cmp tr lab t i (k + 1) op v kt := by
  cases kt with
  | addUp nn top level => exact ⟨h.1, h.2.1.mono hk, e.newOK h.2.2⟩
  | _ => exact ⟨h.1, h.2.mono hk⟩

/-- Marking the last element equal to `v` removes `v`; otherwise nothing changed for a deleter. -/
theorem Evo.delOK {m m' : Mem T} (e : Evo cmp m m' own) {v : T} {A A' : Prop} {a level : Nat} (hA : A → A')
    (hm : ¬ Mk m a → Mk m' a → A') (h : DelOK cmp m v A a level) : DelOK cmp m' v A' a level := by
  have hlt := h.lt
  refine ⟨h.two, Nat.lt_of_lt_of_le h.lt e.alloc, e.pub a h.lt h.pub, by rw [e.val a hlt]; exact h.val,
    by rw [e.lvl a hlt]; exact h.lev, ?_, ?_⟩
  · intro l h1 h2
    rw [e.lvl a hlt] at h2
    have := h.above l h1 h2
    rw [e.frozen a l hlt this]; exact this
  · rcases h.seen with h1 | h1
    · exact .inl (hA h1)
    · by_cases h2 : Mk m' a
      · exact .inl (hm h1 h2)
      · exact .inr h2

/-- A deleted node's value is not in the set. -/
theorem absent_of_mark (hc : cmp.Lawful) {m m' : Mem T} (e : Evo cmp m m' own) (h : MInv cmp m) (h' : MInv cmp m') {a : Nat} {v : T}
    (ha : a < m.alloc) (h2 : 2 ≤ a) (hp : Pub m a) (hu : ¬ Mk m a) (hm : Mk m' a) (hl : ∀ x, Live m' x → Live m x)
    (hv : cmp (m.val a) v = 0) : ¬ Contains cmp m' v := by
  rintro ⟨x, hx, hxv⟩
  have hxl := hl x hx
  have hxlt := h.live_lt hxl
  rw [e.val x hxlt] at hxv
  have hne : x ≠ a := by rintro rfl; exact hx.unmarked hm
  have hpa := h.path_of_pub hp hu
  have heq : cmp (m.val a) (m.val x) = 0 := by
    have q1 := hc.zero_symm hxv
    have q2 := hc.zero_symm hv
    have q3 := hc.trans _ _ _ (show cmp (m.val a) v ≤ 0 by omega) (show cmp v (m.val x) ≤ 0 by omega)
    have q4 := hc.trans _ _ _ (show cmp (m.val x) v ≤ 0 by omega) (show cmp v (m.val a) ≤ 0 by omega)
    have := hc.le_iff (m.val a) (m.val x)
    have := hc.le_iff (m.val x) (m.val a)
    omega
  have hx1 := hxl.ne_head
  have hx2 := hxl.ne_tail
  rcases h.path_linear hpa hxl.path with p | p
  · rcases h.path_nlt hc ha p with q | ⟨-, -, q⟩
    · exact hne q.symm
    · rcases q with q | q | q
      · simp [headA] at q; omega
      · exact hx2 q
      · omega
  · rcases h.path_nlt hc hxlt p with q | ⟨-, -, q⟩
    · exact hne q
    · have := hc.zero_symm heq
      rcases q with q | q | q
      · exact hx1 q
      · simp [tailA] at q; omega
      · omega

end stable

/-- What a step does to the set of live nodes: nothing, or one node comes, or one goes. -/
def LiveStep (m m' : Mem T) : Prop :=
  (∀ x, Live m' x ↔ Live m x) ∨ (∃ d, ¬ Live m d ∧ (∀ x, Live m' x ↔ Live m x ∨ x = d)) ∨
  (∃ a, Live m a ∧ ∀ x, Live m' x ↔ Live m x ∧ x ≠ a)

section stable2
variable {tr : Nat → St T} {lab : Nat → Label T} {t i k : Nat} {own : Option Nat}

/-- Everything a goroutine knows stays true when memory evolves by a step that is not the goroutine's own change of the set. -/
theorem CtlOK.stable (hc : cmp.Lawful) (hi : i ≤ k) (h0 : MInv cmp (tr k).mem) (h1 : MInv cmp (tr (k + 1)).mem)
    (e : Evo cmp (tr k).mem (tr (k + 1)).mem own)
    (hlv : ∀ a, 2 ≤ a → a < (tr k).mem.alloc → Pub (tr k).mem a → ¬ Mk (tr k).mem a → Mk (tr (k + 1)).mem a →
      ∀ x, Live (tr (k + 1)).mem x → Live (tr k).mem x)
    (hk : (lab k).tid = t → Keeps cmp (tr k).mem (tr (k + 1)).mem) {op : Op T} {c : Ctl T}
    (hown : ∀ f nn top, c = .addCas f nn top → some nn ≠ own)
    (h : CtlOK cmp tr lab t i k op c) : CtlOK cmp tr lab t i (k + 1) op c := by
  have hdel : ∀ v a level, DelOK cmp (tr k).mem v (Absent cmp tr i k v) a level →
      DelOK cmp (tr (k + 1)).mem v (Absent cmp tr i (k + 1) v) a level := by
    intro v a level hd
    refine e.delOK Absent.mono ?_ hd
    intro g1 g2
    exact ⟨k + 1, by omega, Nat.le_refl _, absent_of_mark hc e h0 h1 hd.lt hd.two hd.pub g1 g2 (hlv a hd.two hd.lt hd.pub g1 g2) hd.val⟩
  cases c with
  | find f kt =>
    exact ⟨e.fInv h.1 (fun c hc => hc.mono) (fun c hc => Seen.now (by omega) hc), e.contOK hk h.2⟩
  | addNew f => exact ⟨h.1, h.2.1.mono hk, e.fDone h.2.2.1, e.aboveOK h.2.2.1 h.2.2.2⟩
  | addCas f nn top =>
    exact ⟨h.1, h.2.1.mono hk, e.fDone h.2.2.1, e.aboveOK h.2.2.1 h.2.2.2.1, e.privOK h.2.2.2.2 (hown f nn top rfl)⟩
  | addUp f nn top level => exact ⟨h.1, h.2.1.mono hk, e.fDone h.2.2.1, e.newOK h.2.2.2⟩
  | addSize => obtain ⟨v, h1, h2⟩ := h; exact ⟨v, h1, h2.mono hk⟩
  | delLoad r level => obtain ⟨v, a, h1, h2, h3, h4, h5⟩ := h; exact ⟨v, a, h1, h2.mono hk, h3, hdel _ _ _ h4, h5⟩
  | delCas r level nx => obtain ⟨v, a, h1, h2, h3, h4, h5⟩ := h; exact ⟨v, a, h1, h2.mono hk, h3, hdel _ _ _ h4, h5⟩
  | delLoad0 r => obtain ⟨v, a, h1, h2, h3, h4⟩ := h; exact ⟨v, a, h1, h2.mono hk, h3, hdel _ _ _ h4⟩
  | delCas0 r nx => obtain ⟨v, a, h1, h2, h3, h4, h5⟩ := h; exact ⟨v, a, h1, h2.mono hk, h3, hdel _ _ _ h4, h5⟩
  | delSize => obtain ⟨v, h1, h2⟩ := h; exact ⟨v, h1, h2.mono hk⟩
  | rankLen v => exact ⟨h.1, h.2.mono hk⟩
  | lenLoad => exact ⟨h.1, h.2.mono hk⟩
  | ret o => exact RetOK.mono h hk
  | panicked p => exact h

end stable2

end Gds.LockFree
