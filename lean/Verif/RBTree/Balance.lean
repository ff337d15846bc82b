import Verif.RBTree.Rotate

/-! Red-black balance of trees and contexts. -/

namespace Gds.RBTree

variable {K V : Type}

/-- The root is black (or there is none). -/
def rootBlack (col : Nat → Bool) : T → Prop
  | .nil => True
  | .node _ i _ => col i = Black

/-- Every path from the root down passes `n` black nodes, and no red node has a red child. -/
def Bal (col : Nat → Bool) : T → Nat → Prop
  | .nil, n => n = 0
  | .node l i r, n => (col i = Black ∧ ∃ k, n = k + 1 ∧ Bal col l k ∧ Bal col r k) ∨
      (col i = Red ∧ Bal col l n ∧ Bal col r n ∧ rootBlack col l ∧ rootBlack col r)

/-- A red-black tree: balanced, with a black root. -/
def RB (col : Nat → Bool) (t : T) : Prop := rootBlack col t ∧ ∃ n, Bal col t n

/-- The hole has a parent, which is black. -/
def parBlack (col : Nat → Bool) : Ctx → Prop
  | .top => False
  | .left i _ _ => col i = Black
  | .right _ i _ => col i = Black

/-- The context becomes balanced when the hole is filled with a tree of `n` black nodes on every path. -/
def BalC (col : Nat → Bool) : Ctx → Nat → Prop
  | .top, _ => True
  | .left i r c, n => (col i = Black ∧ Bal col r n ∧ BalC col c (n + 1)) ∨ (col i = Red ∧ Bal col r n ∧ rootBlack col r ∧ parBlack col c ∧ BalC col c n)
  | .right l i c, n => (col i = Black ∧ Bal col l n ∧ BalC col c (n + 1)) ∨ (col i = Red ∧ Bal col l n ∧ rootBlack col l ∧ parBlack col c ∧ BalC col c n)

theorem rb_plug (col : Nat → Bool) (c : Ctx) (t : T) : RB col (c.plug t) ↔ ∃ n, BalC col c n ∧ Bal col t n ∧ (rootBlack col t ∨ parBlack col c) := by
  induction c generalizing t with
  | top => simp [RB, Ctx.plug, BalC, parBlack]; tauto
  | left i r c ih =>
    simp only [Ctx.plug, ih]
    constructor
    · rintro ⟨n, h1, (⟨h2, k, rfl, h3, h4⟩ | ⟨h2, h3, h4, h5, h6⟩), h7⟩
      · exact ⟨k, .inl ⟨h2, h4, h1⟩, h3, .inr h2⟩
      · refine ⟨n, .inr ⟨h2, h4, h6, ?_, h1⟩, h3, .inl h5⟩
        rcases h7 with h7 | h7
        · simp only [rootBlack] at h7; rw [h2] at h7; cases h7
        · exact h7
    · rintro ⟨n, (⟨h1, h2, h3⟩ | ⟨h1, h2, h3, h4, h5⟩), h6, h7⟩
      · exact ⟨n + 1, h3, .inl ⟨h1, n, rfl, h6, h2⟩, .inl h1⟩
      · refine ⟨n, h5, .inr ⟨h1, h6, h2, ?_, h3⟩, .inr h4⟩
        rcases h7 with h7 | h7
        · exact h7
        · simp only [parBlack] at h7; rw [h1] at h7; cases h7
  | right l i c ih =>
    simp only [Ctx.plug, ih]
    constructor
    · rintro ⟨n, h1, (⟨h2, k, rfl, h3, h4⟩ | ⟨h2, h3, h4, h5, h6⟩), h7⟩
      · exact ⟨k, .inl ⟨h2, h3, h1⟩, h4, .inr h2⟩
      · refine ⟨n, .inr ⟨h2, h3, h5, ?_, h1⟩, h4, .inl h6⟩
        rcases h7 with h7 | h7
        · simp only [rootBlack] at h7; rw [h2] at h7; cases h7
        · exact h7
    · rintro ⟨n, (⟨h1, h2, h3⟩ | ⟨h1, h2, h3, h4, h5⟩), h6, h7⟩
      · exact ⟨n + 1, h3, .inl ⟨h1, n, rfl, h2, h6⟩, .inl h1⟩
      · refine ⟨n, h5, .inr ⟨h1, h2, h6, h3, ?_⟩, .inr h4⟩
        rcases h7 with h7 | h7
        · exact h7
        · simp only [parBlack] at h7; rw [h1] at h7; cases h7

/-- Recolouring. -/
def upd (col : Nat → Bool) (i : Nat) (b : Bool) : Nat → Bool := fun j => if j = i then b else col j

@[simp] theorem upd_same (col : Nat → Bool) (i : Nat) (b : Bool) : upd col i b i = b := by simp [upd]
theorem upd_ne (col : Nat → Bool) {i j : Nat} (b : Bool) (h : j ≠ i) : upd col i b j = col j := by simp [upd, h]

theorem rootBlack_congr {col col' : Nat → Bool} {t : T} (h : ∀ i ∈ t.ids, col' i = col i) : rootBlack col' t ↔ rootBlack col t := by
  cases t with
  | nil => rfl
  | node l i r => simp only [rootBlack]; rw [h i (by simp [T.ids])]

theorem bal_congr {col col' : Nat → Bool} {t : T} {n : Nat} (h : ∀ i ∈ t.ids, col' i = col i) : Bal col' t n ↔ Bal col t n := by
  induction t generalizing n with
  | nil => rfl
  | node l i r ihl ihr =>
    have hl : ∀ j ∈ l.ids, col' j = col j := fun j hj => h j (by simp [T.ids, hj])
    have hr : ∀ j ∈ r.ids, col' j = col j := fun j hj => h j (by simp [T.ids, hj])
    simp only [Bal, ihl hl, ihr hr, rootBlack_congr hl, rootBlack_congr hr, h i (by simp [T.ids])]

theorem parBlack_congr {col col' : Nat → Bool} {c : Ctx} (h : ∀ i ∈ c.ids, col' i = col i) : parBlack col' c ↔ parBlack col c := by
  cases c with
  | top => rfl
  | left i r c => simp only [parBlack]; rw [h i (by simp [Ctx.ids, Ctx.after])]
  | right l i c => simp only [parBlack]; rw [h i (by simp [Ctx.ids, Ctx.before])]

theorem balC_congr {col col' : Nat → Bool} {c : Ctx} {n : Nat} (h : ∀ i ∈ c.ids, col' i = col i) : BalC col' c n ↔ BalC col c n := by
  induction c generalizing n with
  | top => rfl
  | left i r c ih =>
    have hr : ∀ j ∈ r.ids, col' j = col j := fun j hj => h j (by simp [Ctx.ids, Ctx.after, hj])
    have hc : ∀ j ∈ c.ids, col' j = col j := fun j hj => h j (by
      simp only [Ctx.ids, List.mem_append] at hj; simp [Ctx.ids, Ctx.before, Ctx.after]; tauto)
    simp only [BalC, ih hc, bal_congr hr, rootBlack_congr hr, parBlack_congr hc, h i (by simp [Ctx.ids, Ctx.after])]
  | right l i c ih =>
    have hr : ∀ j ∈ l.ids, col' j = col j := fun j hj => h j (by simp [Ctx.ids, Ctx.before, hj])
    have hc : ∀ j ∈ c.ids, col' j = col j := fun j hj => h j (by
      simp only [Ctx.ids, List.mem_append] at hj; simp [Ctx.ids, Ctx.before, Ctx.after]; tauto)
    simp only [BalC, ih hc, bal_congr hr, rootBlack_congr hr, parBlack_congr hc, h i (by simp [Ctx.ids, Ctx.before])]

theorem bal_upd {col : Nat → Bool} {i : Nat} {b : Bool} {t : T} {n : Nat} (h : i ∉ t.ids) : Bal (upd col i b) t n ↔ Bal col t n :=
  bal_congr (fun j hj => upd_ne col b (fun e => h (e ▸ hj)))
theorem rootBlack_upd {col : Nat → Bool} {i : Nat} {b : Bool} {t : T} (h : i ∉ t.ids) : rootBlack (upd col i b) t ↔ rootBlack col t :=
  rootBlack_congr (fun j hj => upd_ne col b (fun e => h (e ▸ hj)))
theorem balC_upd {col : Nat → Bool} {i : Nat} {b : Bool} {c : Ctx} {n : Nat} (h : i ∉ c.ids) : BalC (upd col i b) c n ↔ BalC col c n :=
  balC_congr (fun j hj => upd_ne col b (fun e => h (e ▸ hj)))
theorem parBlack_upd {col : Nat → Bool} {i : Nat} {b : Bool} {c : Ctx} (h : i ∉ c.ids) : parBlack (upd col i b) c ↔ parBlack col c :=
  parBlack_congr (fun j hj => upd_ne col b (fun e => h (e ▸ hj)))

/-- Blackening the root of a balanced tree. -/
theorem rb_blacken {col : Nat → Bool} {l r : T} {i n : Nat} (h : Bal col (.node l i r) n) (hn : (T.node l i r).ids.Nodup) :
    RB (upd col i Black) (.node l i r) := by
  have hl : i ∉ l.ids := by simp only [T.ids, List.nodup_append, List.mem_cons] at hn; grind
  have hr : i ∉ r.ids := by simp only [T.ids, List.nodup_append, List.nodup_cons] at hn; grind
  refine ⟨by simp [rootBlack], ?_⟩
  rcases h with ⟨h1, k, rfl, h2, h3⟩ | ⟨h1, h2, h3, h4, h5⟩
  · exact ⟨k + 1, .inl ⟨by simp, k, rfl, (bal_upd hl).2 h2, (bal_upd hr).2 h3⟩⟩
  · exact ⟨n + 1, .inl ⟨by simp, n, rfl, (bal_upd hl).2 h2, (bal_upd hr).2 h3⟩⟩

/-! ### Height -/

def T.height : T → Nat
  | .nil => 0
  | .node l _ r => max l.height r.height + 1

theorem bal_size {col : Nat → Bool} {t : T} {n : Nat} (h : Bal col t n) : 2 ^ n ≤ t.ids.length + 1 := by
  induction t generalizing n with
  | nil => simp only [Bal] at h; subst h; simp [T.ids]
  | node l i r ihl ihr =>
    rcases h with ⟨h1, k, rfl, h2, h3⟩ | ⟨h1, h2, h3, h4, h5⟩
    · have := ihl h2; have := ihr h3
      simp only [T.ids, List.length_append, List.length_cons, Nat.pow_succ]; omega
    · have := ihl h2; have := ihr h3
      simp only [T.ids, List.length_append, List.length_cons]; omega

theorem bal_height {col : Nat → Bool} {t : T} {n : Nat} (h : Bal col t n) : t.height ≤ 2 * n + 1 ∧ (rootBlack col t → t.height ≤ 2 * n) := by
  induction t generalizing n with
  | nil => simp [T.height]
  | node l i r ihl ihr =>
    rcases h with ⟨h1, k, rfl, h2, h3⟩ | ⟨h1, h2, h3, h4, h5⟩
    · have := ihl h2; have := ihr h3
      simp only [T.height]; omega
    · have := (ihl h2).2 h4; have := (ihr h3).2 h5
      refine ⟨by simp only [T.height]; omega, ?_⟩
      intro hb; simp only [rootBlack] at hb; rw [h1] at hb; cases hb

/-- The height of a red-black tree is at most twice the logarithm of its size plus one. -/
theorem rb_height {col : Nat → Bool} {t : T} (h : RB col t) : 2 ^ t.height ≤ (t.ids.length + 1) ^ 2 := by
  obtain ⟨h1, n, h2⟩ := h
  have := (bal_height h2).2 h1
  have h3 := bal_size h2
  calc 2 ^ t.height ≤ 2 ^ (2 * n) := Nat.pow_le_pow_right (by omega) this
    _ = (2 ^ n) ^ 2 := by rw [Nat.mul_comm, Nat.pow_mul]
    _ ≤ _ := Nat.pow_le_pow_left h3 2

end Gds.RBTree
