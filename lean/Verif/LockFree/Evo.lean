import Verif.LockFree.Inv

/-! The memory invariant is preserved by every kind of write, and the bottom list changes only as described. -/

namespace Gds.LockFree
variable {T : Type _} {cmp : Compare T}

theorem path_iff {m m' : Mem T} (hx : ∀ a b, Nx m' a b ↔ Nx m a b) (a b : Nat) : Path m' a b ↔ Path m a b :=
  ⟨Path.congr fun x y _ h => (hx x y).1 h, Path.congr fun x y _ h => (hx x y).2 h⟩

theorem first_mono {m m' : Mem T} (hv : m'.val = m.val) (hx : ∀ a b, Nx m' a b → Nx m a b) {v : T} {p c : Nat}
    (h : First cmp m' v p c) : First cmp m v p c := by
  have hb : ∀ a, Below cmp m' a v ↔ Below cmp m a v := by intro a; unfold Below; rw [hv]
  induction h with
  | here h1 h2 => exact .here (hx _ _ h1) (fun e => h2 ((hb _).2 e))
  | step h1 h2 _ ih => exact .step (hx _ _ h1) ((hb _).1 h2) ih

theorem Evo.refl {m : Mem T} (h : MInv cmp m) : Evo cmp m m none where
  alloc := Nat.le_refl _
  lvl _ _ := rfl
  val _ _ := rfl
  frozen _ _ _ _ := rfl
  pub _ _ h := h
  first v p c hp _ _ hf _ := .inl ⟨h.path_lt hp (h.first_path hf).1, hf⟩
  priv n hn _ := ⟨hn, fun _ => rfl⟩

/-! ### The size counter -/

theorem path_size {m : Mem T} {z : BitVec 32} (a b : Nat) : Path { m with size := z } a b ↔ Path m a b :=
  path_iff (m := m) (m' := { m with size := z }) (fun _ _ => Iff.rfl) a b

theorem pub_size {m : Mem T} {z : BitVec 32} (a : Nat) : Pub { m with size := z } a ↔ Pub m a := by
  unfold Pub; rw [path_size]; rfl

theorem live_size {m : Mem T} {z : BitVec 32} (a : Nat) : Live { m with size := z } a ↔ Live m a :=
  ⟨fun h => ⟨h.1, h.2, (path_size _ _).1 h.3, h.4⟩, fun h => ⟨h.1, h.2, (path_size _ _).2 h.3, h.4⟩⟩

theorem inv_size {m : Mem T} {z : BitVec 32} (h : MInv cmp m) : MInv cmp { m with size := z } where
  alloc := h.alloc
  lvlH := h.lvlH
  lvlT := h.lvlT
  lvlpos := h.lvlpos
  nxt a l h1 h2 h3 := by
    obtain ⟨b, h4, h5⟩ := h.nxt a l h1 h2 h3
    exact ⟨b, h4, h5.lt, h5.ne, h5.lvl, (pub_size _).2 h5.pub, h5.ord⟩
  nxt0 := h.nxt0
  top := h.top
  headU := h.headU
  tailN := h.tailN
  tailP := (path_size _ _).2 h.tailP

theorem evo_size {m : Mem T} {z : BitVec 32} (h : MInv cmp m) : Evo cmp m { m with size := z } none where
  alloc := Nat.le_refl _
  lvl _ _ := rfl
  val _ _ := rfl
  frozen _ _ _ _ := rfl
  pub a _ hp := (pub_size a).2 hp
  first v p c hp _ _ hf _ := by
    have hf' : First cmp m v p c := first_mono (m := m) (m' := { m with size := z }) rfl (fun _ _ => id) hf
    exact .inl ⟨h.path_lt hp (h.first_path hf').1, hf'⟩
  priv n hn _ := ⟨⟨hn.two, hn.lt, hn.unref, hn.clean⟩, fun _ => rfl⟩

/-! ### Writing one slot -/

section slot
variable {m : Mem T} {a l : Nat} {p : Ptr}

@[simp] theorem setNext_lvl : (m.setNext a l p).lvl = m.lvl := rfl
@[simp] theorem setNext_val : (m.setNext a l p).val = m.val := rfl
@[simp] theorem setNext_alloc : (m.setNext a l p).alloc = m.alloc := rfl
@[simp] theorem setNext_size : (m.setNext a l p).size = m.size := rfl

theorem setNext_next (b k : Nat) : (m.setNext a l p).next b k = if b = a ∧ k = l then p else m.next b k := rfl

theorem setNext_same : (m.setNext a l p).next a l = p := by simp [setNext_next]
theorem setNext_ne {b k : Nat} (h : ¬ (b = a ∧ k = l)) : (m.setNext a l p).next b k = m.next b k := by
  simp [setNext_next, h]

end slot

/-- Marks aside, the bottom level does not change when an upper slot is written or a mark is set. -/
theorem nx_setNext {m : Mem T} {a l : Nat} {p : Ptr} (hl : 0 < l ∨ p.addr = (m.next a l).addr) (x y : Nat) :
    Nx (m.setNext a l p) x y ↔ Nx m x y := by
  unfold Nx
  rw [setNext_next]
  split
  · rename_i h
    obtain ⟨rfl, rfl⟩ := h
    rcases hl with h | h
    · omega
    · rw [h]
  · rfl

/-! #### An upper pointer -/

section up
variable {m : Mem T} {a l b d : Nat}

theorem mk_up (hl : 0 < l) {p : Ptr} (x : Nat) : Mk (m.setNext a l p) x ↔ Mk m x := by
  unfold Mk; rw [setNext_ne (by omega)]

theorem pub_up (hl : 0 < l) {p : Ptr} (x : Nat) : Pub (m.setNext a l p) x ↔ Pub m x := by
  unfold Pub; rw [mk_up hl, path_iff (nx_setNext (.inl hl))]

theorem live_up (hl : 0 < l) {p : Ptr} (x : Nat) : Live (m.setNext a l p) x ↔ Live m x :=
  ⟨fun h => ⟨h.1, h.2, (path_iff (nx_setNext (.inl hl)) _ _).1 h.3, fun e => h.4 ((mk_up hl x).2 e)⟩,
   fun h => ⟨h.1, h.2, (path_iff (nx_setNext (.inl hl)) _ _).2 h.3, fun e => h.4 ((mk_up hl x).1 e)⟩⟩

theorem inv_up (h : MInv cmp m) (hl : 0 < l) (ha : a < m.alloc) (hat : a ≠ tailA) (hal : l < m.lvl a) (hu : (m.next a l).mark = false)
    (hd : Target cmp m a l d) : MInv cmp (m.setNext a l (ref d)) where
  alloc := h.alloc
  lvlH := h.lvlH
  lvlT := h.lvlT
  lvlpos := h.lvlpos
  nxt x k h1 h2 h3 := by
    by_cases e : x = a ∧ k = l
    · obtain ⟨rfl, rfl⟩ := e
      exact ⟨d, by rw [setNext_same]; rfl, hd.lt, hd.ne, hd.lvl, (pub_up hl d).2 hd.pub, hd.ord⟩
    · obtain ⟨b, h4, h5⟩ := h.nxt x k h1 h2 h3
      exact ⟨b, by rw [setNext_ne e]; exact h4, h5.lt, h5.ne, h5.lvl, (pub_up hl b).2 h5.pub, h5.ord⟩
  nxt0 x y h1 h2 h3 := h.nxt0 x y h1 h2 ((nx_setNext (.inl hl) x y).1 h3)
  top x k h1 h2 h3 := by
    have hm := h.top x k h1 ((mk_up hl x).1 h2) h3
    rw [setNext_ne]
    · exact hm
    · rintro ⟨rfl, rfl⟩; rw [hu] at hm; cases hm
  headU k := by
    rw [setNext_next]; split
    · rfl
    · exact h.headU k
  tailN k := by
    rw [setNext_ne (by rintro ⟨e, -⟩; exact hat e.symm)]; exact h.tailN k
  tailP := (path_iff (nx_setNext (.inl hl)) _ _).2 h.tailP

theorem evo_up (h : MInv cmp m) (hl : 0 < l) (ha : a < m.alloc) (hpa : Pub m a) (hu : (m.next a l).mark = false)
    (hd : Target cmp m a l d) : Evo cmp m (m.setNext a l (ref d)) none where
  alloc := Nat.le_refl _
  lvl _ _ := rfl
  val _ _ := rfl
  frozen x k _ hm := by
    rw [setNext_ne]
    rintro ⟨rfl, rfl⟩; rw [hu] at hm; cases hm
  pub x _ hp := (pub_up hl x).2 hp
  first v p c hp _ _ hf _ := by
    have hf' : First cmp m v p c := first_mono (m := m) (m' := m.setNext a l (ref d)) rfl (fun x y => (nx_setNext (.inl hl) x y).1) hf
    exact .inl ⟨h.path_lt hp (h.first_path hf').1, hf'⟩
  priv n hn _ := by
    have hna : n ≠ a := by rintro rfl; exact h.not_priv_of_pub hpa hn
    have hnd : d ≠ n := by rintro rfl; exact h.not_priv_of_pub hd.pub hn
    have hs : ∀ k, (m.setNext a l (ref d)).next n k = m.next n k := fun k => setNext_ne (by rintro ⟨e, -⟩; exact hna e)
    refine ⟨⟨hn.two, hn.lt, ?_, ?_⟩, hs⟩
    · intro x k h1 h2
      rw [setNext_next]; split
      · simp only [ref, ne_eq, Option.some.injEq]; exact hnd
      · exact hn.unref x k h1 h2
    · intro k; rw [hs]; exact hn.clean k

end up

/-! #### A mark -/

section mark
variable {m : Mem T} {a l : Nat}

theorem nx_mark (x y : Nat) : Nx (m.setNext a l (getMarked (m.next a l))) x y ↔ Nx m x y :=
  nx_setNext (p := getMarked (m.next a l)) (.inr rfl) x y

theorem mk_mark_mono (x : Nat) (h : Mk m x) : Mk (m.setNext a l (getMarked (m.next a l))) x := by
  unfold Mk at *
  rw [setNext_next]; split
  · rfl
  · exact h

theorem mk_mark (x : Nat) (h : Mk (m.setNext a l (getMarked (m.next a l))) x) : Mk m x ∨ (x = a ∧ l = 0) := by
  unfold Mk at *
  rw [setNext_next] at h
  split at h
  · rename_i e; exact .inr ⟨e.1, e.2.symm⟩
  · exact .inl h

theorem pub_mark (x : Nat) (h : Pub m x) : Pub (m.setNext a l (getMarked (m.next a l))) x := by
  rcases h with h | h
  · exact .inl (mk_mark_mono x h)
  · exact .inr ((path_iff nx_mark _ _).2 h)

theorem live_mark_up (hl : 0 < l) (x : Nat) : Live (m.setNext a l (getMarked (m.next a l))) x ↔ Live m x := live_up hl x

theorem live_mark (x : Nat) : Live (m.setNext a 0 (getMarked (m.next a 0))) x ↔ Live m x ∧ x ≠ a := by
  constructor
  · intro h
    refine ⟨⟨h.1, h.2, (path_iff nx_mark _ _).1 h.3, fun e => h.4 (mk_mark_mono x e)⟩, ?_⟩
    rintro rfl
    exact h.4 (by unfold Mk; rw [setNext_same]; rfl)
  · rintro ⟨h, hne⟩
    refine ⟨h.1, h.2, (path_iff nx_mark _ _).2 h.3, fun e => ?_⟩
    rcases mk_mark x e with e | e
    · exact h.4 e
    · exact hne e.1

theorem inv_mark (h : MInv cmp m) (h2 : 2 ≤ a)
    (hab : ∀ k, l < k → k < m.lvl a → (m.next a k).mark = true) :
    MInv cmp (m.setNext a l (getMarked (m.next a l))) where
  alloc := h.alloc
  lvlH := h.lvlH
  lvlT := h.lvlT
  lvlpos := h.lvlpos
  nxt x k h1 h2 h3 := by
    obtain ⟨b, h4, h5⟩ := h.nxt x k h1 h2 h3
    refine ⟨b, ?_, h5.lt, h5.ne, h5.lvl, pub_mark b h5.pub, h5.ord⟩
    rw [setNext_next]; split
    · rename_i e; obtain ⟨rfl, rfl⟩ := e; exact h4
    · exact h4
  nxt0 x y h1 h2 h3 := h.nxt0 x y h1 h2 ((nx_mark x y).1 h3)
  top x k h1 h2 h3 := by
    rcases mk_mark x h2 with e | ⟨rfl, rfl⟩
    · have := h.top x k h1 e h3
      rw [setNext_next]; split
      · rfl
      · exact this
    · rw [setNext_next]; split
      · rfl
      · rename_i e
        exact hab k (by omega) h3
  headU k := by
    rw [setNext_ne (by rintro ⟨e, -⟩; simp [headA] at e; omega)]; exact h.headU k
  tailN k := by
    rw [setNext_ne (by rintro ⟨e, -⟩; simp [tailA] at e; omega)]; exact h.tailN k
  tailP := (path_iff nx_mark _ _).2 h.tailP

theorem evo_mark (h : MInv cmp m) (hpa : Pub m a) (hu : (m.next a l).mark = false) :
    Evo cmp m (m.setNext a l (getMarked (m.next a l))) none where
  alloc := Nat.le_refl _
  lvl _ _ := rfl
  val _ _ := rfl
  frozen x k _ hm := by
    rw [setNext_ne]
    rintro ⟨rfl, rfl⟩; rw [hu] at hm; cases hm
  pub x _ hp := pub_mark x hp
  first v p c hp _ _ hf _ := by
    have hf' : First cmp m v p c := first_mono (m := m) (m' := m.setNext a l (getMarked (m.next a l))) rfl (fun x y => (nx_mark x y).1) hf
    exact .inl ⟨h.path_lt hp (h.first_path hf').1, hf'⟩
  priv n hn _ := by
    have hna : n ≠ a := by rintro rfl; exact h.not_priv_of_pub hpa hn
    have hs : ∀ k, (m.setNext a l (getMarked (m.next a l))).next n k = m.next n k := fun k => setNext_ne (by rintro ⟨e, -⟩; exact hna e)
    refine ⟨⟨hn.two, hn.lt, ?_, ?_⟩, hs⟩
    · intro x k h1 h2
      rw [setNext_next]; split
      · rename_i e; obtain ⟨rfl, rfl⟩ := e; exact hn.unref x k h1 h2
      · exact hn.unref x k h1 h2
    · intro k; rw [hs]; exact hn.clean k

end mark

/-! #### A bottom pointer -/

section bottom
variable {m : Mem T} {a b d : Nat}

theorem mk_bottom (hu : m.next a 0 = ref b) (x : Nat) : Mk (m.setNext a 0 (ref d)) x ↔ Mk m x := by
  unfold Mk; rw [setNext_next]; split
  · rename_i e; rw [e.1, hu]; simp [ref]
  · rfl

theorem nx_bottom_ne {x y : Nat} (hne : x ≠ a) : Nx (m.setNext a 0 (ref d)) x y ↔ Nx m x y := by
  unfold Nx; rw [setNext_ne (by rintro ⟨e, -⟩; exact hne e)]

theorem nx_bottom_same : Nx (m.setNext a 0 (ref d)) a d := by
  unfold Nx; rw [setNext_same]; rfl

theorem inv_bottom (h : MInv cmp m) (ha : a < m.alloc) (hat : a ≠ tailA) (hu : m.next a 0 = ref b)
    (hp : ∀ x, Pub m x → Pub (m.setNext a 0 (ref d)) x) (hpd : Pub (m.setNext a 0 (ref d)) d)
    (hdl : d < m.alloc) (hd0 : d ≠ headA) (hord : Nlt cmp m a d) : MInv cmp (m.setNext a 0 (ref d)) where
  alloc := h.alloc
  lvlH := h.lvlH
  lvlT := h.lvlT
  lvlpos := h.lvlpos
  nxt x k h1 h2 h3 := by
    by_cases e : x = a ∧ k = 0
    · obtain ⟨rfl, rfl⟩ := e
      exact ⟨d, by rw [setNext_same]; rfl, hdl, hd0, h.lvlpos d hdl, hpd, .inl hord⟩
    · obtain ⟨b, h4, h5⟩ := h.nxt x k h1 h2 h3
      exact ⟨b, by rw [setNext_ne e]; exact h4, h5.lt, h5.ne, h5.lvl, hp b h5.pub, h5.ord⟩
  nxt0 x y h1 h2 h3 := by
    by_cases e : x = a
    · subst e
      rw [h3.unique nx_bottom_same]; exact hord
    · exact h.nxt0 x y h1 h2 ((nx_bottom_ne e).1 h3)
  top x k h1 h2 h3 := by
    have hmk := (mk_bottom hu x).1 h2
    have hm := h.top x k h1 hmk h3
    rw [setNext_ne]
    · exact hm
    · rintro ⟨rfl, rfl⟩; rw [hu] at hm; cases hm
  headU k := by
    rw [setNext_next]; split
    · rfl
    · exact h.headU k
  tailN k := by
    rw [setNext_ne (by rintro ⟨e, -⟩; exact hat e.symm)]; exact h.tailN k
  tailP := by
    rcases hp tailA h.pub_tail with e | e
    · exact absurd ((mk_bottom hu _).1 e) h.unmarked_tail
    · exact e

/-- A search through the new list either does not use the new pointer or goes on from `a`. -/
theorem first_bottom {v : T} {p c : Nat} (hb : Below cmp m p v) (hf : First cmp (m.setNext a 0 (ref d)) v p c) :
    First cmp m v p c ∨ (Below cmp m a v ∧ First cmp (m.setNext a 0 (ref d)) v a c) := by
  induction hf with
  | @here p c h1 h2 =>
    by_cases e : p = a
    · subst e; exact .inr ⟨hb, .here h1 h2⟩
    · exact .inl (.here ((nx_bottom_ne e).1 h1) h2)
  | @step p q c h1 h2 h3 ih =>
    by_cases e : p = a
    · subst e; exact .inr ⟨hb, .step h1 h2 h3⟩
    · rcases ih h2 with h4 | h4
      · exact .inl (.step ((nx_bottom_ne e).1 h1) h2 h4)
      · exact .inr h4

theorem evo_bottom (hc : cmp.Lawful) (h : MInv cmp m) (ha : a < m.alloc) (hat : a ≠ tailA) (hu : m.next a 0 = ref b) (hpa : Pub m a)
    (hp : ∀ x, Pub m x → Pub (m.setNext a 0 (ref d)) x) (hpd : Pub (m.setNext a 0 (ref d)) d)
    (hdl : d < m.alloc) (hd0 : d ≠ headA) (hord : Nlt cmp m a d) (own : Option Nat) (hown : own = some d ∨ ¬ Priv m d) :
    Evo cmp m (m.setNext a 0 (ref d)) own where
  alloc := Nat.le_refl _
  lvl _ _ := rfl
  val _ _ := rfl
  frozen x k _ hm := by
    rw [setNext_ne]
    rintro ⟨rfl, rfl⟩; rw [hu] at hm; cases hm
  pub x _ := hp x
  first v p c hpl _ hb hf hm := by
    have hi := inv_bottom h ha hat hu hp hpd hdl hd0 hord
    rcases first_bottom (m := m) (a := a) (d := d) hb hf with h1 | ⟨h1, h2⟩
    · exact .inl ⟨h.path_lt hpl (h.first_path h1).1, h1⟩
    · right
      have hpath : Path (m.setNext a 0 (ref d)) headA a := by
        rcases hp a hpa with e | e
        · have := (mk_bottom hu _).1 e
          unfold Mk at this; rw [hu] at this; cases this
        · exact e
      exact hi.first_ceil hc hpath h1 h2 hm
  priv n hn hne := by
    have hna : n ≠ a := by rintro rfl; exact h.not_priv_of_pub hpa hn
    have hnd : d ≠ n := by
      rintro rfl
      rcases hown with e | e
      · exact hne e.symm
      · exact e hn
    have hs : ∀ k, (m.setNext a 0 (ref d)).next n k = m.next n k := fun k => setNext_ne (by rintro ⟨e, -⟩; exact hna e)
    refine ⟨⟨hn.two, hn.lt, ?_, ?_⟩, hs⟩
    · intro x k h1 h2
      rw [setNext_next]; split
      · simp only [ref, ne_eq, Option.some.injEq]; exact hnd
      · exact hn.unref x k h1 h2
    · intro k; rw [hs]; exact hn.clean k

/-! Unlinking a deleted node. -/

theorem unlink_path (hu : m.next a 0 = ref b) (hb : Nx m b d) (hab : a ≠ b) {x y : Nat} (hy : y ≠ b)
    (hp : Path m x y) : Path (m.setNext a 0 (ref d)) x y := by
  induction hp with
  | refl => exact .refl _
  | @step x z y h1 h2 ih =>
    replace ih := ih hy
    by_cases e : x = a
    · subst e
      have hz : z = b := h1.unique (by unfold Nx; rw [hu]; rfl)
      subst hz
      refine .step nx_bottom_same ?_
      cases ih with
      | refl => exact absurd rfl hy
      | step h3 h4 =>
        have := (nx_bottom_ne (Ne.symm hab)).1 h3
        rw [← hb.unique this] at h4; exact h4
    · exact .step ((nx_bottom_ne e).2 h1) ih

theorem unlink_path' (hu : m.next a 0 = ref b) (hb : Nx m b d) {x y : Nat}
    (hp : Path (m.setNext a 0 (ref d)) x y) : Path m x y := by
  induction hp with
  | refl => exact .refl _
  | @step x z y h1 h2 ih =>
    by_cases e : x = a
    · subst e
      rw [h1.unique nx_bottom_same] at ih
      exact .step (by unfold Nx; rw [hu]; rfl) (.step hb ih)
    · exact .step ((nx_bottom_ne e).1 h1) ih

theorem unlink_ne (hc : cmp.Lawful) (h : MInv cmp m) (ha : a < m.alloc) (hu : m.next a 0 = ref b) : a ≠ b := by
  rintro rfl
  exact (h.nx_nlt ha (show Nx m a a by unfold Nx; rw [hu]; rfl)).irrefl hc

theorem unlink_pub (hc : cmp.Lawful) (h : MInv cmp m) (ha : a < m.alloc) (hu : m.next a 0 = ref b) (hb : Nx m b d) (hm : Mk m b)
    (x : Nat) (hx : Pub m x) : Pub (m.setNext a 0 (ref d)) x := by
  by_cases e : Mk m x
  · exact .inl ((mk_bottom hu x).2 e)
  · refine .inr (unlink_path hu hb (unlink_ne hc h ha hu) ?_ (h.path_of_pub hx e))
    rintro rfl; exact e hm

theorem unlink_live (hc : cmp.Lawful) (h : MInv cmp m) (ha : a < m.alloc) (hu : m.next a 0 = ref b) (hb : Nx m b d) (hm : Mk m b)
    (x : Nat) : Live (m.setNext a 0 (ref d)) x ↔ Live m x := by
  constructor
  · intro hx
    exact ⟨hx.1, hx.2, unlink_path' hu hb hx.3, fun e => hx.4 ((mk_bottom hu x).2 e)⟩
  · intro hx
    refine ⟨hx.1, hx.2, unlink_path hu hb (unlink_ne hc h ha hu) ?_ hx.3, fun e => hx.4 ((mk_bottom hu x).1 e)⟩
    rintro rfl; exact hx.4 hm

/-! Linking a new node. -/

theorem insert_path (hu : m.next a 0 = ref b) (hd : Nx m d b) (hda : d ≠ a) {x y : Nat}
    (hp : Path m x y) : Path (m.setNext a 0 (ref d)) x y := by
  induction hp with
  | refl => exact .refl _
  | @step x z y h1 h2 ih =>
    by_cases e : x = a
    · subst e
      have hz : z = b := h1.unique (by unfold Nx; rw [hu]; rfl)
      subst hz
      exact .step nx_bottom_same (.step ((nx_bottom_ne hda).2 hd) ih)
    · exact .step ((nx_bottom_ne e).2 h1) ih

theorem insert_path' (hu : m.next a 0 = ref b) (hd : Nx m d b) {x y : Nat}
    (hp : Path (m.setNext a 0 (ref d)) x y) : y = d ∨ (x = d ∧ Path m b y) ∨ Path m x y := by
  induction hp with
  | refl => exact .inr (.inr (.refl _))
  | @step x z y h1 h2 ih =>
    by_cases e : x = a
    · subst e
      rw [h1.unique nx_bottom_same] at ih
      have hxb : Nx m x b := by unfold Nx; rw [hu]; rfl
      rcases ih with h | ⟨-, h⟩ | h
      · exact .inl h
      · exact .inr (.inr (.step hxb h))
      · cases h with
        | refl => exact .inl rfl
        | step h3 h4 => rw [← hd.unique h3] at h4; exact .inr (.inr (.step hxb h4))
    · have h1' := (nx_bottom_ne e).1 h1
      rcases ih with h | ⟨rfl, h⟩ | h
      · exact .inl h
      · right; right
        exact .step h1' (.step hd h)
      · exact .inr (.inr (.step h1' h))

theorem insert_pub (h : MInv cmp m) (hpa : Pub m a) (hu : m.next a 0 = ref b) (hd : Nx m d b) (hpd : Priv m d)
    (x : Nat) (hx : Pub m x) : Pub (m.setNext a 0 (ref d)) x := by
  have hda : d ≠ a := by rintro rfl; exact h.not_priv_of_pub hpa hpd
  rcases hx with e | e
  · exact .inl ((mk_bottom hu x).2 e)
  · exact .inr (insert_path hu hd hda e)

theorem insert_pub_new (h : MInv cmp m) (hpa : Pub m a) (hu : m.next a 0 = ref b) (hd : Nx m d b) (hpd : Priv m d) :
    Pub (m.setNext a 0 (ref d)) d := by
  have hm : ¬ Mk m a := by unfold Mk; rw [hu]; simp [ref]
  rcases insert_pub h hpa hu hd hpd a hpa with e | e
  · exact absurd ((mk_bottom hu a).1 e) hm
  · exact .inr (e.snoc nx_bottom_same)

theorem insert_live (h : MInv cmp m) (hpa : Pub m a) (hu : m.next a 0 = ref b) (hd : Nx m d b) (hpd : Priv m d)
    (x : Nat) : Live (m.setNext a 0 (ref d)) x ↔ Live m x ∨ x = d := by
  have hda : d ≠ a := by rintro rfl; exact h.not_priv_of_pub hpa hpd
  have hd2 := hpd.two
  constructor
  · intro hx
    rcases insert_path' hu hd hx.3 with e | ⟨e, -⟩ | e
    · exact .inr e
    · simp [headA] at e; omega
    · exact .inl ⟨hx.1, hx.2, e, fun e => hx.4 ((mk_bottom hu x).2 e)⟩
  · rintro (hx | rfl)
    · exact ⟨hx.1, hx.2, insert_path hu hd hda hx.3, fun e => hx.4 ((mk_bottom hu x).1 e)⟩
    · have hu' : ¬ Mk m x := by unfold Mk; rw [hpd.clean]; decide
      refine ⟨by simp [headA]; omega, by simp [tailA]; omega, ?_, fun e => hu' ((mk_bottom hu x).1 e)⟩
      rcases insert_pub_new h hpa hu hd hpd with e | e
      · exact absurd ((mk_bottom hu x).1 e) hu'
      · exact e

end bottom

/-! ### A new node -/

theorem storeNexts_eq (m : Mem T) (a : Nat) (ps : Nat → Ptr) (top : Nat) :
    storeNexts m a ps top = { m with next := fun b k => if b = a ∧ k < top then ps k else m.next b k } := by
  unfold storeNexts
  induction top with
  | zero => simp
  | succ n ih =>
    rw [List.range_succ, List.foldl_append, ih]
    simp only [List.foldl_cons, List.foldl_nil, storeNext, Mem.setNext]
    congr 1
    funext b k
    by_cases h1 : b = a
    · by_cases h2 : k = n
      · subst h2; simp [h1]
      · by_cases h3 : k < n
        · have : k < n + 1 := by omega
          simp [h1, h2, h3, this]
        · have : ¬ k < n + 1 := by omega
          simp [h1, h2, h3, this]
    · simp [h1]

/-- Memory after `newNode` and the stores that initialise it. -/
def allocMem (m : Mem T) (top : Nat) (v : T) (ps : Nat → Ptr) : Mem T :=
  storeNexts (newNode m top v).1 m.alloc ps top

section allocate
variable {m : Mem T} {top : Nat} {v : T} {ps : Nat → Ptr}

theorem allocMem_next (b k : Nat) : (allocMem m top v ps).next b k =
    if b = m.alloc then (if k < top then ps k else nil) else m.next b k := by
  unfold allocMem
  rw [storeNexts_eq]
  simp only [newNode]
  by_cases h1 : b = m.alloc
  · by_cases h2 : k < top <;> simp [h1, h2]
  · simp [h1]

theorem allocMem_alloc : (allocMem m top v ps).alloc = m.alloc + 1 := by
  unfold allocMem; rw [storeNexts_eq]; rfl
theorem allocMem_size : (allocMem m top v ps).size = m.size := by
  unfold allocMem; rw [storeNexts_eq]; rfl
theorem allocMem_lvl (b : Nat) : (allocMem m top v ps).lvl b = if b = m.alloc then top else m.lvl b := by
  unfold allocMem; rw [storeNexts_eq]; rfl
theorem allocMem_val (b : Nat) : (allocMem m top v ps).val b = if b = m.alloc then v else m.val b := by
  unfold allocMem; rw [storeNexts_eq]; rfl

theorem allocMem_next_old {b : Nat} (hb : b < m.alloc) (k : Nat) : (allocMem m top v ps).next b k = m.next b k := by
  rw [allocMem_next, if_neg (by omega)]

theorem mk_alloc {b : Nat} (hb : b < m.alloc) : Mk (allocMem m top v ps) b ↔ Mk m b := by
  unfold Mk; rw [allocMem_next_old hb]

theorem nx_alloc {b c : Nat} (hb : b < m.alloc) : Nx (allocMem m top v ps) b c ↔ Nx m b c := by
  unfold Nx; rw [allocMem_next_old hb]

theorem path_alloc (h : MInv cmp m) {a b : Nat} (ha : a < m.alloc) : Path (allocMem m top v ps) a b ↔ Path m a b := by
  constructor
  · intro hp
    induction hp with
    | refl => exact .refl _
    | step h1 _ ih =>
      have h1' := (nx_alloc ha).1 h1
      exact .step h1' (ih (h.nx_lt ha h1'))
  · exact Path.congr fun x y hx hxy => (nx_alloc (h.path_lt ha hx)).2 hxy

theorem pub_alloc (h : MInv cmp m) {a : Nat} (ha : a < m.alloc) : Pub (allocMem m top v ps) a ↔ Pub m a := by
  unfold Pub; rw [mk_alloc ha, path_alloc h h.head_lt]

theorem live_alloc (h : MInv cmp m) (a : Nat) : Live (allocMem m top v ps) a ↔ Live m a := by
  constructor
  · intro hx
    have hp := (path_alloc h h.head_lt).1 hx.3
    exact ⟨hx.1, hx.2, hp, fun e => hx.4 ((mk_alloc (h.path_lt h.head_lt hp)).2 e)⟩
  · intro hx
    exact ⟨hx.1, hx.2, (path_alloc h h.head_lt).2 hx.3, fun e => hx.4 ((mk_alloc (h.live_lt hx)).1 e)⟩

theorem below_alloc {a : Nat} {w : T} (ha : a < m.alloc) : Below cmp (allocMem m top v ps) a w ↔ Below cmp m a w := by
  unfold Below; rw [allocMem_val, if_neg (by omega)]

theorem nlt_alloc {a b : Nat} (ha : a < m.alloc) (hb : b < m.alloc) : Nlt cmp (allocMem m top v ps) a b ↔ Nlt cmp m a b := by
  unfold Nlt; rw [allocMem_val, allocMem_val, if_neg (by omega), if_neg (by omega)]

theorem ord_alloc {a b : Nat} (ha : a < m.alloc) (hb : b < m.alloc) : Ord cmp (allocMem m top v ps) a b ↔ Ord cmp m a b := by
  unfold Ord; rw [nlt_alloc ha hb, allocMem_val, allocMem_val, if_neg (by omega), if_neg (by omega)]

/-- What the slots of a new node may hold: pointers to published nodes not below the new value, at the bottom one
    that is above it. -/
structure Fills (cmp : Compare T) (m : Mem T) (top : Nat) (v : T) (ps : Nat → Ptr) : Prop where
  each : ∀ l, l < top → ∃ b, ps l = ref b ∧ b < m.alloc ∧ b ≠ headA ∧ l < m.lvl b ∧ Pub m b ∧ (b = tailA ∨ 0 ≤ cmp (m.val b) v)
  strict : ∃ b, ps 0 = ref b ∧ (b = tailA ∨ 0 < cmp (m.val b) v)

theorem inv_alloc (hc : cmp.Lawful) (h : MInv cmp m) (ht : 0 < top) (hf : Fills cmp m top v ps) : MInv cmp (allocMem m top v ps) where
  alloc := by rw [allocMem_alloc]; have := h.alloc; omega
  lvlH := by rw [allocMem_lvl, if_neg (by have := h.head_lt; omega)]; exact h.lvlH
  lvlT := by rw [allocMem_lvl, if_neg (by have := h.tail_lt; omega)]; exact h.lvlT
  lvlpos a ha := by
    rw [allocMem_lvl]; split
    · exact ht
    · rw [allocMem_alloc] at ha; exact h.lvlpos a (by omega)
  nxt a l ha hat hl := by
    rw [allocMem_alloc] at ha
    by_cases e : a = m.alloc
    · subst e
      rw [allocMem_lvl, if_pos rfl] at hl
      obtain ⟨b, h1, h2, h3, h4, h5, h6⟩ := hf.each l hl
      have h2m := h.alloc
      refine ⟨b, ?_, ?_, h3, ?_, ?_, ?_⟩
      · rw [allocMem_next, if_pos rfl, if_pos hl, h1]; rfl
      · rw [allocMem_alloc]; omega
      · rw [allocMem_lvl, if_neg (by omega)]; exact h4
      · rw [pub_alloc h h2]; exact h5
      · have hv1 : (allocMem m top v ps).val m.alloc = v := by rw [allocMem_val, if_pos rfl]
        have hv2 : (allocMem m top v ps).val b = m.val b := by rw [allocMem_val, if_neg (by omega)]
        by_cases ebt : b = tailA
        · exact .inl ⟨by simp [tailA]; omega, h3, .inr (.inl ebt)⟩
        · have h6' := h6.resolve_left ebt
          have := hc.flip v (m.val b)
          by_cases e0 : cmp (m.val b) v = 0
          · right
            refine ⟨h2m, ?_, ?_, by omega⟩
            · simp only [headA, tailA] at h3 ebt; omega
            · rw [hv1, hv2]; exact hc.zero_symm e0
          · left
            refine ⟨by simp [tailA]; omega, h3, .inr (.inr ?_)⟩
            rw [hv1, hv2]; omega
    · have ha' : a < m.alloc := by omega
      rw [allocMem_lvl, if_neg e] at hl
      obtain ⟨b, h4, h5⟩ := h.nxt a l ha' hat hl
      have hb := h5.lt
      refine ⟨b, by rw [allocMem_next_old ha']; exact h4, by rw [allocMem_alloc]; omega, h5.ne, ?_, ?_, ?_⟩
      · rw [allocMem_lvl, if_neg (by omega)]; exact h5.lvl
      · rw [pub_alloc h hb]; exact h5.pub
      · rw [ord_alloc ha' hb]; exact h5.ord
  nxt0 a b ha hat hx := by
    rw [allocMem_alloc] at ha
    by_cases e : a = m.alloc
    · subst e
      obtain ⟨b', h1, h2⟩ := hf.strict
      obtain ⟨b'', h1', h2', h3', -⟩ := hf.each 0 ht
      have : b'' = b' := by rw [h1] at h1'; simpa [ref] using h1'.symm
      subst this
      have hb : b = b'' := by
        unfold Nx at hx; rw [allocMem_next, if_pos rfl, if_pos ht, h1] at hx; simpa [ref] using hx.symm
      subst hb
      have h2m := h.alloc
      refine ⟨by simp [tailA]; omega, h3', ?_⟩
      rw [allocMem_val, allocMem_val, if_pos rfl, if_neg (by omega)]
      rcases h2 with h2 | h2
      · exact .inr (.inl h2)
      · exact .inr (.inr ((hc.flip _ _).2 h2))
    · have ha' : a < m.alloc := by omega
      have hx' := (nx_alloc ha').1 hx
      rw [nlt_alloc ha' (h.nx_lt ha' hx')]
      exact h.nxt0 a b ha' hat hx'
  top a l ha hm hl := by
    rw [allocMem_alloc] at ha
    by_cases e : a = m.alloc
    · subst e
      exfalso
      obtain ⟨b', h1, h2⟩ := hf.strict
      unfold Mk at hm; rw [allocMem_next, if_pos rfl, if_pos ht, h1] at hm; cases hm
    · have ha' : a < m.alloc := by omega
      rw [allocMem_lvl, if_neg e] at hl
      rw [allocMem_next_old ha']
      exact h.top a l ha' ((mk_alloc ha').1 hm) hl
  headU l := by rw [allocMem_next_old h.head_lt]; exact h.headU l
  tailN l := by rw [allocMem_next_old h.tail_lt]; exact h.tailN l
  tailP := (path_alloc h h.head_lt).2 h.tailP

theorem evo_alloc (h : MInv cmp m) (hf : Fills cmp m top v ps) : Evo cmp m (allocMem m top v ps) none where
  alloc := by rw [allocMem_alloc]; omega
  lvl a ha := by rw [allocMem_lvl, if_neg (by omega)]
  val a ha := by rw [allocMem_val, if_neg (by omega)]
  frozen a l ha _ := allocMem_next_old ha l
  pub a ha hp := (pub_alloc h ha).2 hp
  first w p c hp _ _ hfst _ := by
    left
    have key : ∀ p c, p < m.alloc → First cmp (allocMem m top v ps) w p c → First cmp m w p c := by
      intro p c hp hf'
      induction hf' with
      | here h1 h2 =>
        have h1' := (nx_alloc hp).1 h1
        exact .here h1' (fun e => h2 ((below_alloc (h.nx_lt hp h1')).2 e))
      | step h1 h2 _ ih =>
        have h1' := (nx_alloc hp).1 h1
        exact .step h1' ((below_alloc (h.nx_lt hp h1')).1 h2) (ih (h.nx_lt hp h1'))
    have hf' := key p c hp hfst
    exact ⟨h.path_lt hp (h.first_path hf').1, hf'⟩
  priv n hn _ := by
    have hlt := hn.lt
    refine ⟨⟨hn.two, by rw [allocMem_alloc]; omega, ?_, ?_⟩, fun l => allocMem_next_old hlt l⟩
    · intro a l ha hl
      rw [allocMem_alloc] at ha
      by_cases e : a = m.alloc
      · subst e
        rw [allocMem_lvl, if_pos rfl] at hl
        obtain ⟨b, h1, h2, h3, h4, h5, h6⟩ := hf.each l hl
        rw [allocMem_next, if_pos rfl, if_pos hl, h1]
        simp only [ref, ne_eq, Option.some.injEq]
        rintro rfl; exact h.not_priv_of_pub h5 hn
      · have ha' : a < m.alloc := by omega
        rw [allocMem_lvl, if_neg e] at hl
        rw [allocMem_next_old ha']
        exact hn.unref a l ha' hl
    · intro l; rw [allocMem_next_old hlt]; exact hn.clean l

theorem priv_alloc (h : MInv cmp m) (hf : Fills cmp m top v ps) : Priv (allocMem m top v ps) m.alloc where
  two := h.alloc
  lt := by rw [allocMem_alloc]; omega
  unref a l ha hl := by
    rw [allocMem_alloc] at ha
    by_cases e : a = m.alloc
    · subst e
      rw [allocMem_lvl, if_pos rfl] at hl
      obtain ⟨b, h1, h2, -⟩ := hf.each l hl
      rw [allocMem_next, if_pos rfl, if_pos hl, h1]
      simp only [ref, ne_eq, Option.some.injEq]; omega
    · have ha' : a < m.alloc := by omega
      rw [allocMem_lvl, if_neg e] at hl
      rw [allocMem_next_old ha']
      by_cases et : a = tailA
      · rw [et, h.tailN]; simp [nil]
      · obtain ⟨b, h4, h5⟩ := h.nxt a l ha' et hl
        rw [h4]; have := h5.lt; simp only [ne_eq, Option.some.injEq]; omega
  clean l := by
    rw [allocMem_next, if_pos rfl]; split
    · rename_i hl
      obtain ⟨b, h1, -⟩ := hf.each l hl
      rw [h1]; rfl
    · rfl

end allocate

/-! ### The empty list -/

theorem new_next (zero : T) (a l : Nat) : (Mem.new zero).next a l = if a = headA ∧ l < maxLevel then ref tailA else nil := by
  unfold Mem.new
  simp only [newNode]
  rw [storeNexts_eq]
  by_cases h1 : a = 0
  · by_cases h2 : l < maxLevel <;> simp [h1, h2, headA, tailA]
  · by_cases h3 : a = 1 <;> simp [h1, h3, headA]

theorem new_lvl (zero : T) (a : Nat) (h : a < 2) : (Mem.new zero).lvl a = maxLevel := by
  unfold Mem.new
  simp only [newNode]
  rw [storeNexts_eq]
  have : a = 0 ∨ a = 1 := by omega
  rcases this with rfl | rfl <;> simp

theorem new_alloc (zero : T) : (Mem.new zero).alloc = 2 := by
  unfold Mem.new
  simp only [newNode]
  rw [storeNexts_eq]

theorem new_size (zero : T) : (Mem.new zero).size = 0 := by
  unfold Mem.new
  simp only [newNode]
  rw [storeNexts_eq]

theorem new_val (zero : T) (a : Nat) : (Mem.new zero).val a = zero := by
  unfold Mem.new
  simp only [newNode]
  rw [storeNexts_eq]
  by_cases h1 : a = 0
  · simp [h1]
  · by_cases h3 : a = 1 <;> simp [h1, h3]

theorem new_path (zero : T) : Path (Mem.new zero) headA tailA :=
  .step (by unfold Nx; rw [new_next]; rfl) (.refl _)

theorem inv_new (zero : T) : MInv cmp (Mem.new zero) where
  alloc := by rw [new_alloc]; exact Nat.le_refl _
  lvlH := new_lvl zero _ (by decide)
  lvlT := new_lvl zero _ (by decide)
  lvlpos a ha := by rw [new_alloc] at ha; rw [new_lvl zero a ha]; decide
  nxt a l ha hat hl := by
    rw [new_alloc] at ha
    have : a = headA := by simp [headA, tailA] at *; omega
    subst this
    rw [new_lvl zero _ (by decide)] at hl
    refine ⟨tailA, by rw [new_next, if_pos ⟨rfl, hl⟩]; rfl, by rw [new_alloc]; decide, by decide, ?_, .inr (new_path zero), .inl ⟨by decide, by decide, .inl rfl⟩⟩
    rw [new_lvl zero _ (by decide)]; exact hl
  nxt0 a b ha hat hx := by
    rw [new_alloc] at ha
    have : a = headA := by simp [headA, tailA] at *; omega
    subst this
    unfold Nx at hx; rw [new_next] at hx
    have : b = tailA := by simpa [ref, maxLevel] using hx.symm
    rw [this]
    exact ⟨by decide, by decide, .inl rfl⟩
  top a l _ hm _ := by
    exfalso
    unfold Mk at hm; rw [new_next] at hm
    split at hm <;> simp [ref, nil] at hm
  headU l := by rw [new_next]; split <;> rfl
  tailN l := by rw [new_next, if_neg (by rintro ⟨e, -⟩; cases e)]
  tailP := new_path zero

end Gds.LockFree
