import Verif.LockFree.Spec
import Mathlib.Tactic.Common
import Mathlib.Tactic.Push

/-! The memory invariant and how memory may evolve. -/

namespace Gds.LockFree
variable {T : Type _} {cmp : Compare T}

/-- The node has been linked at the bottom level at some time. -/
def Pub (m : Mem T) (a : Nat) : Prop := Mk m a ∨ Path m headA a

/-- The order along every level: by value; a node with an equal value is older. -/
def Ord (cmp : Compare T) (m : Mem T) (a b : Nat) : Prop :=
  Nlt cmp m a b ∨ (2 ≤ a ∧ 2 ≤ b ∧ cmp (m.val a) (m.val b) = 0 ∧ b < a)

/-- What a pointer stored at level `l` of node `a` may point to. -/
structure Target (cmp : Compare T) (m : Mem T) (a l b : Nat) : Prop where
  lt : b < m.alloc
  ne : b ≠ headA
  lvl : l < m.lvl b
  pub : Pub m b
  ord : Ord cmp m a b

structure MInv (cmp : Compare T) (m : Mem T) : Prop where
  alloc : 2 ≤ m.alloc
  lvlH : m.lvl headA = maxLevel
  lvlT : m.lvl tailA = maxLevel
  lvlpos : ∀ a, a < m.alloc → 0 < m.lvl a
  nxt : ∀ a l, a < m.alloc → a ≠ tailA → l < m.lvl a → ∃ b, (m.next a l).addr = some b ∧ Target cmp m a l b
  nxt0 : ∀ a b, a < m.alloc → a ≠ tailA → Nx m a b → Nlt cmp m a b
  top : ∀ a l, a < m.alloc → Mk m a → l < m.lvl a → (m.next a l).mark = true
  headU : ∀ l, (m.next headA l).mark = false
  tailN : ∀ l, m.next tailA l = nil
  tailP : Path m headA tailA

/-- Node `n` is known only to the goroutine that made it. -/
structure Priv (m : Mem T) (n : Nat) : Prop where
  two : 2 ≤ n
  lt : n < m.alloc
  unref : ∀ a l, a < m.alloc → l < m.lvl a → (m.next a l).addr ≠ some n
  clean : ∀ l, (m.next n l).mark = false

/-- `c` is the first node not below `v` on the bottom path from `p`. -/
inductive First (cmp : Compare T) (m : Mem T) (v : T) : Nat → Nat → Prop where
  | here {p c : Nat} : Nx m p c → ¬ Below cmp m c v → First cmp m v p c
  | step {p q c : Nat} : Nx m p q → Below cmp m q v → First cmp m v q c → First cmp m v p c

/-- What every goroutine can rely on when memory goes from `m` to `m'`; `own` is the node the moving goroutine publishes. -/
structure Evo (cmp : Compare T) (m m' : Mem T) (own : Option Nat) : Prop where
  alloc : m.alloc ≤ m'.alloc
  lvl : ∀ a, a < m.alloc → m'.lvl a = m.lvl a
  val : ∀ a, a < m.alloc → m'.val a = m.val a
  frozen : ∀ a l, a < m.alloc → (m.next a l).mark = true → m'.next a l = m.next a l
  pub : ∀ a, a < m.alloc → Pub m a → Pub m' a
  first : ∀ v p c, p < m.alloc → Pub m p → Below cmp m' p v → First cmp m' v p c → ¬ Mk m' c →
    (c < m.alloc ∧ First cmp m v p c) ∨ Ceil cmp m' v c
  priv : ∀ n, Priv m n → some n ≠ own → Priv m' n ∧ ∀ l, m'.next n l = m.next n l

/-! ### Order -/

theorem Nlt.trans (hc : cmp.Lawful) {m : Mem T} {a b c : Nat} (h1 : Nlt cmp m a b) (h2 : Nlt cmp m b c) : Nlt cmp m a c := by
  obtain ⟨x1, x2, x3⟩ := h1
  obtain ⟨y1, y2, y3⟩ := h2
  refine ⟨x1, y2, ?_⟩
  rcases x3 with h | h | h
  · exact .inl h
  · exact absurd h y1
  · rcases y3 with h' | h' | h'
    · exact absurd h' x2
    · exact .inr (.inl h')
    · exact .inr (.inr (hc.lt_trans h h'))

theorem Nlt.irrefl (hc : cmp.Lawful) {m : Mem T} {a : Nat} (h : Nlt cmp m a a) : False := by
  obtain ⟨x1, x2, x3⟩ := h
  have := hc.self (m.val a)
  rcases x3 with h | h | h
  · exact x2 h
  · exact x1 h
  · omega

theorem Ord.trans (hc : cmp.Lawful) {m : Mem T} {a b c : Nat} (h1 : Ord cmp m a b) (h2 : Ord cmp m b c) : Ord cmp m a c := by
  rcases h1 with h1 | ⟨h1a, h1b, h1c, h1d⟩
  · rcases h2 with h2 | ⟨h2a, h2b, h2c, h2d⟩
    · exact .inl (h1.trans hc h2)
    · left
      obtain ⟨x1, x2, x3⟩ := h1
      refine ⟨x1, by simp [headA]; omega, ?_⟩
      rcases x3 with h | h | h
      · exact .inl h
      · simp [tailA] at h; omega
      · exact .inr (.inr (hc.lt_of_lt_of_le h (by omega)))
  · rcases h2 with h2 | ⟨h2a, h2b, h2c, h2d⟩
    · left
      obtain ⟨x1, x2, x3⟩ := h2
      refine ⟨by simp [tailA]; omega, x2, ?_⟩
      rcases x3 with h | h | h
      · simp [headA] at h; omega
      · exact .inr (.inl h)
      · exact .inr (.inr (hc.lt_of_le_of_lt (by omega) h))
    · right
      refine ⟨h1a, h2b, ?_, by omega⟩
      have q1 := hc.trans _ _ _ (show cmp (m.val a) (m.val b) ≤ 0 by omega) (show cmp (m.val b) (m.val c) ≤ 0 by omega)
      have q2 := hc.trans _ _ _ (show cmp (m.val c) (m.val b) ≤ 0 by have := hc.zero_symm h2c; omega)
        (show cmp (m.val b) (m.val a) ≤ 0 by have := hc.zero_symm h1c; omega)
      have := hc.le_iff (m.val a) (m.val c)
      have := hc.le_iff (m.val c) (m.val a)
      omega

theorem Below.of_nlt (hc : cmp.Lawful) {m : Mem T} {a b : Nat} {v : T} (h : Nlt cmp m a b) (hb : Below cmp m b v) : Below cmp m a v := by
  obtain ⟨x1, x2, x3⟩ := h
  rcases hb with h' | ⟨h', h''⟩
  · exact absurd h' x2
  · rcases x3 with h | h | h
    · exact .inl h
    · exact absurd h h'
    · exact .inr ⟨x1, hc.lt_trans h h''⟩

/-- A node below `v` is before one that is not. -/
theorem Nlt.of_below (hc : cmp.Lawful) {m : Mem T} {a b : Nat} {v : T} (ha : Below cmp m a v) (hb : ¬ Below cmp m b v) : Nlt cmp m a b := by
  have hb0 : b ≠ headA := fun e => hb (.inl e)
  by_cases hbt : b = tailA
  · refine ⟨?_, hb0, .inr (.inl hbt)⟩
    rcases ha with h | h
    · rw [h]; decide
    · exact h.1
  · have hb1 : ¬ cmp (m.val b) v < 0 := fun e => hb (.inr ⟨hbt, e⟩)
    rcases ha with h | ⟨h1, h2⟩
    · exact ⟨by rw [h]; decide, hb0, .inl h⟩
    · refine ⟨h1, hb0, .inr (.inr ?_)⟩
      have := hc.le_iff v (m.val b)
      exact hc.lt_of_lt_of_le h2 (by omega)

/-! ### Paths -/

theorem Path.trans {m : Mem T} {a b c : Nat} (h1 : Path m a b) (h2 : Path m b c) : Path m a c := by
  induction h1 with
  | refl => exact h2
  | step h _ ih => exact .step h (ih h2)

theorem Path.snoc {m : Mem T} {a b c : Nat} (h1 : Path m a b) (h2 : Nx m b c) : Path m a c :=
  h1.trans (.step h2 (.refl _))

theorem Nx.unique {m : Mem T} {a b c : Nat} (h1 : Nx m a b) (h2 : Nx m a c) : b = c := by
  unfold Nx at h1 h2; rw [h1] at h2; exact Option.some.inj h2

namespace MInv
variable {m : Mem T} (h : MInv cmp m)
include h

theorem nx_lt {a b : Nat} (ha : a < m.alloc) (hx : Nx m a b) : b < m.alloc := by
  by_cases e : a = tailA
  · unfold Nx at hx; rw [e, h.tailN] at hx; cases hx
  · obtain ⟨b', h1, h2⟩ := h.nxt a 0 ha e (h.lvlpos a ha)
    rw [Nx.unique hx h1]; exact h2.lt

theorem ne_tail_of_nx {a b : Nat} (hx : Nx m a b) : a ≠ tailA := by
  rintro rfl; unfold Nx at hx; rw [h.tailN] at hx; cases hx

theorem nx_nlt {a b : Nat} (ha : a < m.alloc) (hx : Nx m a b) : Nlt cmp m a b :=
  h.nxt0 a b ha (h.ne_tail_of_nx hx) hx

theorem path_lt {a b : Nat} (ha : a < m.alloc) (hp : Path m a b) : b < m.alloc := by
  induction hp with
  | refl => exact ha
  | step hx _ ih => exact ih (h.nx_lt ha hx)

theorem head_lt : headA < m.alloc := by have := h.alloc; simp [headA]; omega
theorem tail_lt : tailA < m.alloc := by have := h.alloc; simp [tailA]; omega

theorem live_lt {a : Nat} (hl : Live m a) : a < m.alloc := h.path_lt h.head_lt hl.path

theorem path_nlt (hc : cmp.Lawful) {a b : Nat} (ha : a < m.alloc) (hp : Path m a b) : a = b ∨ Nlt cmp m a b := by
  induction hp with
  | refl => exact .inl rfl
  | @step a b c hx _ ih =>
    right
    have h1 := h.nx_nlt ha hx
    rcases ih (h.nx_lt ha hx) with e | h2
    · rw [← e]; exact h1
    · exact h1.trans hc h2

/-- Two nodes reached from the same node: one is reached from the other. -/
theorem path_linear {a b c : Nat} (h1 : Path m a b) (h2 : Path m a c) : Path m b c ∨ Path m c b := by
  induction h1 with
  | refl => exact .inl h2
  | step hx hp ih =>
    cases h2 with
    | refl => exact .inr (.step hx hp)
    | step hx' hp' => rw [hx.unique hx'] at ih; exact ih hp'

theorem path_of_nlt (hc : cmp.Lawful) {a b c : Nat} (ha : a < m.alloc) (h1 : Path m a b) (h2 : Path m a c)
    (hl : Nlt cmp m b c) : Path m b c := by
  rcases h.path_linear h1 h2 with h3 | h3
  · exact h3
  · exfalso
    rcases h.path_nlt hc (h.path_lt ha h2) h3 with e | h4
    · rw [e] at hl; exact hl.irrefl hc
    · exact (hl.trans hc h4).irrefl hc

theorem path_no_back (hc : cmp.Lawful) {a b : Nat} (ha : a < m.alloc) (hx : Nx m a b) (hp : Path m b a) : False := by
  have h1 := h.nx_nlt ha hx
  rcases h.path_nlt hc (h.nx_lt ha hx) hp with e | h2
  · rw [e] at h1; exact h1.irrefl hc
  · exact (h1.trans hc h2).irrefl hc

theorem pub_tail : Pub m tailA := .inr h.tailP

theorem unmarked_head : ¬ Mk m headA := by unfold Mk; rw [h.headU]; decide
theorem unmarked_tail : ¬ Mk m tailA := by unfold Mk; rw [h.tailN]; decide

theorem first_path {v : T} {p c : Nat} (hf : First cmp m v p c) : Path m p c ∧ ¬ Below cmp m c v := by
  induction hf with
  | here hx hb => exact ⟨.step hx (.refl _), hb⟩
  | step hx _ _ ih => exact ⟨.step hx ih.1, ih.2⟩

/-- A node not below `v` reached from `p` (below `v`) is the first such node or comes after it. -/
theorem first_before {v : T} {p c d : Nat} (hp : Below cmp m p v) (hf : First cmp m v p c) (hd : Path m p d)
    (hdv : ¬ Below cmp m d v) : Path m c d := by
  induction hf with
  | here hx hb =>
    cases hd with
    | refl => exact absurd hp hdv
    | step hx' hp' => rw [hx.unique hx']; exact hp'
  | step hx hq _ ih =>
    cases hd with
    | refl => exact absurd hp hdv
    | step hx' hp' => rw [← hx.unique hx'] at hp'; exact ih hq hp'

/-- From a node on the list, the first node not below `v` is the least element not below `v`, unless it is deleted. -/
theorem first_ceil (hc : cmp.Lawful) {v : T} {p c : Nat} (hp : Path m headA p) (hb : Below cmp m p v)
    (hf : First cmp m v p c) (hu : ¬ Mk m c) : Ceil cmp m v c := by
  obtain ⟨h1, h2⟩ := h.first_path hf
  have hc0 : c ≠ headA := fun e => h2 (.inl e)
  have hpl := h.path_lt h.head_lt hp
  refine ⟨?_, h2, ?_⟩
  · by_cases e : c = tailA
    · exact .inl e
    · exact .inr ⟨hc0, e, hp.trans h1, hu⟩
  · intro d hd hdv hne
    have hpd : Path m p d := h.path_of_nlt hc h.head_lt hp hd.path (Nlt.of_below hc hb hdv)
    have hcd := h.first_before hb hf hpd hdv
    rcases h.path_nlt hc (h.path_lt hpl h1) hcd with e | h3
    · exact absurd e.symm hne
    · exact h3

theorem path_of_pub {a : Nat} (hp : Pub m a) (hu : ¬ Mk m a) : Path m headA a := hp.resolve_left hu

theorem not_priv_of_pub {a : Nat} (hp : Pub m a) : ¬ Priv m a := by
  intro hq
  have hu : ¬ Mk m a := by unfold Mk; rw [hq.clean]; decide
  have hpa := h.path_of_pub hp hu
  have : ∀ x, x < m.alloc → Path m x a → x ≠ a → False := by
    intro x hx hpx
    induction hpx with
    | refl => intro e; exact e rfl
    | @step x y z hxy hyz ih =>
      intro _
      by_cases e : y = z
      · subst e; exact hq.unref x 0 hx (h.lvlpos x hx) hxy
      · exact ih hp hq hu hpa (h.nx_lt hx hxy) e
  refine this _ h.head_lt hpa ?_
  have := hq.two; simp [headA]; omega

end MInv

/-- Equality of the bottom pointers' targets, marks aside, is all that paths depend on. -/
theorem Path.congr {m m' : Mem T} {a b : Nat} (hx : ∀ x y, Path m a x → Nx m x y → Nx m' x y) (hp : Path m a b) : Path m' a b := by
  induction hp with
  | refl => exact .refl _
  | @step a b c h1 h2 ih => exact .step (hx a b (.refl _) h1) (ih fun x y hb hxy => hx x y (.step h1 hb) hxy)

end Gds.LockFree
