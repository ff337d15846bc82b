import Verif.PQ.Model
import Mathlib.Data.List.Perm.Basic
import Mathlib.Data.List.Nodup

namespace Gds.PQ
variable {T : Type _}

/-- The stored elements (heap order). -/
def Queue.elems (q : Queue T) : List T := (List.range q.size).map q.cell

/-- parent index -/
abbrev par (k : Nat) : Nat := (k - 1) / 2

theorem tdiv_par (pos : Nat) : (Int.tdiv ((pos : Int) - 1) 2).toNat = par pos := by
  cases pos with
  | zero => rfl
  | succ n =>
    have : ((n + 1 : Nat) : Int) - 1 = (n : Int) := by omega
    rw [this, Int.tdiv_eq_ediv_of_nonneg (by omega)]
    simp [par]; omega

/-- The function with two arguments exchanged. -/
def swapF (f : Nat → T) (i j : Nat) : Nat → T := fun k => if k = j then f i else if k = i then f j else f k

theorem swap_ok (q : Queue T) (i j : Nat) (hi : i < q.len) (hj : j < q.len) :
    q.swap i j = .ok { q with cell := swapF q.cell i j } := by
  simp [Queue.swap, Queue.get, Queue.set, hi, hj]
  funext k; rfl

theorem perm_swapF (f : Nat → T) (i j n : Nat) (hi : i < n) (hj : j < n) :
    ((List.range n).map (swapF f i j)).Perm ((List.range n).map f) := by
  let σ : Nat → Nat := fun k => if k = j then i else if k = i then j else k
  have h : swapF f i j = f ∘ σ := by
    funext k; simp only [swapF, Function.comp, σ]; split
    · rfl
    · split <;> rfl
  rw [h, ← List.map_map]
  apply List.Perm.map
  have inv : ∀ k, σ (σ k) = k := by intro k; simp only [σ]; grind
  have inj : Function.Injective σ := fun a b hab => by rw [← inv a, hab, inv b]
  apply (List.perm_ext_iff_of_nodup (List.Nodup.map inj List.nodup_range) List.nodup_range).2
  intro a
  simp only [List.mem_map, List.mem_range]
  constructor
  · rintro ⟨k, hk, rfl⟩; simp only [σ]; split
    · exact hi
    · split <;> omega
  · intro ha; refine ⟨σ a, ?_, inv a⟩; simp only [σ]; split
    · exact hi
    · split <;> omega

/-- Heap property on the first `n` cells. -/
def Heap (cmp : Compare T) (f : Nat → T) (n : Nat) : Prop :=
  ∀ k, 0 < k → k < n → cmp (f (par k)) (f k) ≤ 0

/-- Heap property except above `pos`. -/
structure UpInv (cmp : Compare T) (f : Nat → T) (n pos : Nat) : Prop where
  rest : ∀ k, 0 < k → k < n → k ≠ pos → cmp (f (par k)) (f k) ≤ 0
  grand : 0 < pos → ∀ k, 0 < k → k < n → par k = pos → cmp (f (par pos)) (f k) ≤ 0

/-- Heap property except below `i`. -/
structure DownInv (cmp : Compare T) (f : Nat → T) (n i : Nat) : Prop where
  rest : ∀ k, 0 < k → k < n → par k ≠ i → cmp (f (par k)) (f k) ≤ 0
  grand : 0 < i → ∀ k, 0 < k → k < n → par k = i → cmp (f (par i)) (f k) ≤ 0

theorem UpInv.step {cmp : Compare T} (hc : cmp.Lawful) {f : Nat → T} {n pos : Nat} (h : UpInv cmp f n pos)
    (h0 : 0 < pos) (hp : pos < n) (hlt : cmp (f pos) (f (par pos)) < 0) :
    UpInv cmp (swapF f (par pos) pos) n (par pos) := by
  have hpp : par pos < pos := by simp [par]; omega
  constructor
  · intro k k0 kn kne
    by_cases hk : k = pos
    · subst hk
      simp only [swapF, if_true]
      have : ¬ par k = k := by omega
      simp only [this, if_false, if_true]
      omega
    · by_cases hkp : par k = pos
      · have h1 := h.grand h0 k k0 kn hkp
        simp only [swapF, hkp, if_true, hk, if_false]
        have : ¬ k = par pos := by simp only [par] at *; omega
        simp only [this, if_false]; exact h1
      · by_cases hkpp : par k = par pos
        · have h1 := h.rest k k0 kn hk
          have e1 : swapF f (par pos) pos (par k) = f pos := by
            simp only [swapF, hkpp]; split
            · next e => omega
            · rfl
          have e2 : swapF f (par pos) pos k = f k := by simp [swapF, hk, kne]
          rw [e1, e2]
          rw [hkpp] at h1
          have := hc.lt_of_lt_of_le hlt h1
          omega
        · have h1 := h.rest k k0 kn hk
          have e1 : swapF f (par pos) pos (par k) = f (par k) := by simp [swapF, hkp, hkpp]
          have e2 : swapF f (par pos) pos k = f k := by simp [swapF, hk, kne]
          rw [e1, e2]; exact h1
  · intro hpp0 k k0 kn hkp
    have hgp : cmp (f (par (par pos))) (f (par pos)) ≤ 0 := h.rest (par pos) hpp0 (by omega) (by omega)
    have hlt2 : par (par pos) < par pos := by simp only [par] at *; omega
    have e1 : swapF f (par pos) pos (par (par pos)) = f (par (par pos)) := by
      simp only [swapF]; rw [if_neg (by omega), if_neg (by omega)]
    rw [e1]
    by_cases hk : k = pos
    · subst hk; simp only [swapF, if_true]; exact hgp
    · have hkne : k ≠ par pos := by simp only [par] at *; omega
      have e2 : swapF f (par pos) pos k = f k := by simp [swapF, hk, hkne]
      rw [e2]
      have h1 := h.rest k k0 kn hk
      rw [hkp] at h1
      exact hc.trans _ _ _ hgp h1

theorem UpInv.done {cmp : Compare T} (hc : cmp.Lawful) {f : Nat → T} {n pos : Nat} (h : UpInv cmp f n pos)
    (hge : pos = 0 ∨ cmp (f pos) (f (par pos)) ≥ 0) : Heap cmp f n := by
  intro k k0 kn
  by_cases hk : k = pos
  · subst hk
    rcases hge with h0 | h1
    · omega
    · have := hc.le_iff (f (par k)) (f k); omega
  · exact h.rest k k0 kn hk

theorem percolateUp_spec {cmp : Compare T} (hc : cmp.Lawful) (q : Queue T) (pos : Nat)
    (hs : q.size ≤ q.len) (hp : pos < q.size) (hu : UpInv cmp q.cell q.size pos) :
    ∃ q', percolateUp cmp q pos = .ok q' ∧ q'.size = q.size ∧ q'.len = q.len ∧ Heap cmp q'.cell q'.size ∧
      q'.elems.Perm q.elems := by
  induction pos using Nat.strongRecOn generalizing q with
  | _ pos ih =>
    rw [percolateUp]
    simp only [tdiv_par]
    by_cases h0 : par pos = pos
    · have : pos = 0 := by simp only [par] at h0; omega
      subst this
      simp only [h0, if_true, Res.pure_eq]
      exact ⟨q, rfl, rfl, rfl, hu.done hc (Or.inl rfl), .rfl⟩
    · have hpos : 0 < pos := by
        rcases Nat.eq_zero_or_pos pos with h | h
        · subst h; exact absurd rfl h0
        · exact h
      have hpp : par pos < pos := by simp only [par]; omega
      have g1 : q.get pos = .ok (q.cell pos) := by simp [Queue.get]; omega
      have g2 : q.get (par pos) = .ok (q.cell (par pos)) := by simp only [Queue.get]; rw [if_pos (by omega)]
      simp only [h0, if_false, g1, g2, Res.bind_ok]
      by_cases hcmp : cmp (q.cell pos) (q.cell (par pos)) ≥ 0
      · simp only [hcmp, if_true, Res.pure_eq]
        exact ⟨q, rfl, rfl, rfl, hu.done hc (Or.inr hcmp), .rfl⟩
      · simp only [hcmp, if_false]
        rw [swap_ok q _ _ (by omega) (by omega)]
        simp only [Res.bind_ok]
        obtain ⟨q', h1, h2, h3, h4, h5⟩ := ih (par pos) hpp { q with cell := swapF q.cell (par pos) pos }
          hs (by simp only; omega) (hu.step hc hpos hp (by omega))
        refine ⟨q', h1, h2, h3, h4, h5.trans ?_⟩
        exact perm_swapF q.cell (par pos) pos q.size (by omega) hp

theorem DownInv.step {cmp : Compare T} (hc : cmp.Lawful) {f : Nat → T} {n i j : Nat} (h : DownInv cmp f n i)
    (hj0 : 0 < j) (hj : j < n) (hpj : par j = i) (hlt : cmp (f j) (f i) < 0)
    (hmin : ∀ k, 0 < k → k < n → par k = i → cmp (f j) (f k) ≤ 0) :
    DownInv cmp (swapF f i j) n j := by
  have hij : i < j := by simp only [par] at hpj; omega
  constructor
  · intro k k0 kn hk
    by_cases hki : par k = i
    · have e1 : swapF f i j (par k) = f j := by simp only [swapF, hki]; rw [if_neg (by omega)]; simp
      rw [e1]
      by_cases hkj : k = j
      · subst hkj; simp only [swapF, if_true]; omega
      · have hki' : k ≠ i := by simp only [par] at hki; omega
        have e2 : swapF f i j k = f k := by simp [swapF, hkj, hki']
        rw [e2]; exact hmin k k0 kn hki
    · have e1 : swapF f i j (par k) = f (par k) := by simp [swapF, hk, hki]
      rw [e1]
      by_cases hkj : k = j
      · subst hkj; exact absurd hpj hki
      · by_cases hkii : k = i
        · subst hkii
          have e2 : swapF f k j k = f j := by simp only [swapF]; rw [if_neg (by omega)]; simp
          rw [e2]
          exact h.grand k0 j hj0 hj hpj
        · have e2 : swapF f i j k = f k := by simp [swapF, hkj, hkii]
          rw [e2]; exact h.rest k k0 kn hki
  · intro _ k k0 kn hkj
    have hkj' : j < k := by simp only [par] at hkj; omega
    rw [hpj]
    have e1 : swapF f i j i = f j := by simp only [swapF]; rw [if_neg (by omega)]; simp
    have e2 : swapF f i j k = f k := by simp only [swapF]; rw [if_neg (by omega), if_neg (by omega)]
    rw [e1, e2, ← hkj]
    exact h.rest k k0 kn (by omega)

theorem DownInv.done {cmp : Compare T} {f : Nat → T} {n i : Nat} (h : DownInv cmp f n i)
    (hge : ∀ k, 0 < k → k < n → par k = i → cmp (f i) (f k) ≤ 0) : Heap cmp f n := by
  intro k k0 kn
  by_cases hk : par k = i
  · rw [hk]; exact hge k k0 kn hk
  · exact h.rest k k0 kn hk

theorem minChild_spec {cmp : Compare T} (hc : cmp.Lawful) (q : Queue T) (i n : Nat) (hn : n ≤ q.len)
    (hj : 2 * i + 1 < n) :
    ∃ j, minChild cmp q (2 * i + 1) n = .ok j ∧ 0 < j ∧ j < n ∧ par j = i ∧
      ∀ k, 0 < k → k < n → par k = i → cmp (q.cell j) (q.cell k) ≤ 0 := by
  have hpar : ∀ k, 0 < k → par k = i → k = 2 * i + 1 ∨ k = 2 * i + 2 := by
    intro k k0 hk; simp only [par] at hk; omega
  unfold minChild
  by_cases h2 : 2 * i + 1 + 1 < n
  · have g1 : q.get (2 * i + 1 + 1) = .ok (q.cell (2 * i + 2)) := by simp only [Queue.get]; rw [if_pos (by omega)]
    have g2 : q.get (2 * i + 1) = .ok (q.cell (2 * i + 1)) := by simp only [Queue.get]; rw [if_pos (by omega)]
    simp only [h2, if_true, g1, g2, Res.bind_ok]
    by_cases hlt : cmp (q.cell (2 * i + 2)) (q.cell (2 * i + 1)) < 0
    · simp only [hlt, if_true]
      refine ⟨2 * i + 2, rfl, by omega, by omega, by simp only [par]; omega, ?_⟩
      intro k k0 kn hk
      rcases hpar k k0 hk with rfl | rfl
      · omega
      · rw [hc.self]; omega
    · simp only [hlt, if_false]
      refine ⟨2 * i + 1, rfl, by omega, by omega, by simp only [par]; omega, ?_⟩
      intro k k0 kn hk
      rcases hpar k k0 hk with rfl | rfl
      · rw [hc.self]; omega
      · have := hc.le_iff (q.cell (2 * i + 1)) (q.cell (2 * i + 2)); omega
  · simp only [h2, if_false]
    refine ⟨2 * i + 1, rfl, by omega, by omega, by simp only [par]; omega, ?_⟩
    intro k k0 kn hk
    rcases hpar k k0 hk with rfl | rfl
    · rw [hc.self]; omega
    · omega

theorem percolateDown_spec {cmp : Compare T} (hc : cmp.Lawful) (q : Queue T) (i n : Nat)
    (hn : n ≤ q.size) (hs : q.size ≤ q.len) (hd : DownInv cmp q.cell n i) :
    ∃ q', percolateDown cmp q i n = .ok q' ∧ q'.size = q.size ∧ q'.len = q.len ∧ Heap cmp q'.cell n ∧
      ((List.range n).map q'.cell).Perm ((List.range n).map q.cell) ∧ ∀ k, n ≤ k → q'.cell k = q.cell k := by
  induction hm : n - i using Nat.strongRecOn generalizing q i with
  | _ m ih =>
    rw [percolateDown]
    by_cases h0 : 2 * i + 1 ≥ n
    · simp only [h0, if_true, Res.pure_eq]
      refine ⟨q, rfl, rfl, rfl, hd.done ?_, .rfl, fun _ _ => rfl⟩
      intro k k0 kn hk; simp only [par] at hk; omega
    · obtain ⟨j, g1, g2, g3, g4, g5⟩ := minChild_spec hc q i n (by omega) (by omega)
      have gi : q.get i = .ok (q.cell i) := by simp only [Queue.get]; rw [if_pos (by omega)]
      have gj : q.get j = .ok (q.cell j) := by simp only [Queue.get]; rw [if_pos (by omega)]
      simp only [h0, if_false, g1, Res.bind_ok, gi, gj]
      by_cases hge : cmp (q.cell j) (q.cell i) ≥ 0
      · simp only [hge, if_true, Res.pure_eq]
        refine ⟨q, rfl, rfl, rfl, hd.done ?_, .rfl, fun _ _ => rfl⟩
        intro k k0 kn hk
        have h1 := g5 k k0 kn hk
        have h2 : cmp (q.cell i) (q.cell j) ≤ 0 := by have := hc.le_iff (q.cell i) (q.cell j); omega
        exact hc.trans _ _ _ h2 h1
      · simp only [hge, if_false]
        rw [swap_ok q i j (by omega) (by omega)]
        simp only [Res.bind_ok]
        have hij : i < j := by simp only [par] at g4; omega
        obtain ⟨q', h1, h2, h3, h4, h5, h6⟩ := ih (n - j) (by omega) { q with cell := swapF q.cell i j } j
          hn hs (hd.step hc g2 g3 g4 (by omega) g5) rfl
        refine ⟨q', h1, h2, h3, h4, h5.trans (perm_swapF q.cell i j n (by omega) g3), ?_⟩
        intro k hk
        rw [h6 k hk]; simp only [swapF]; rw [if_neg (by omega), if_neg (by omega)]

theorem Heap.root_min {cmp : Compare T} (hc : cmp.Lawful) {f : Nat → T} {n : Nat} (h : Heap cmp f n) :
    ∀ k, k < n → cmp (f 0) (f k) ≤ 0 := by
  intro k
  induction k using Nat.strongRecOn with
  | _ k ih =>
    intro hk
    rcases Nat.eq_zero_or_pos k with rfl | h0
    · rw [hc.self]; omega
    · exact hc.trans _ _ _ (ih (par k) (by simp only [par]; omega) (by simp only [par]; omega)) (h k h0 hk)

/-- Representation invariant. -/
structure Inv (cmp : Compare T) (q : Queue T) : Prop where
  fits : q.size ≤ q.len
  heap : Heap cmp q.cell q.size

theorem push_spec {cmp : Compare T} (hc : cmp.Lawful) (q : Queue T) (x : T) (h : Inv cmp q) :
    ∃ q', push cmp q x = .ok q' ∧ Inv cmp q' ∧ q'.size = q.size + 1 ∧ q'.elems.Perm (x :: q.elems) := by
  obtain ⟨h1, h2⟩ := h
  -- common: the queue after the element has been stored at index size
  have main : ∀ q1 : Queue T, q1.size = q.size + 1 → q1.size ≤ q1.len → (∀ k, k < q.size → q1.cell k = q.cell k) →
      q1.cell q.size = x →
      ∃ q', percolateUp cmp q1 (q1.size - 1) = .ok q' ∧ Inv cmp q' ∧ q'.size = q.size + 1 ∧
        q'.elems.Perm (x :: q.elems) := by
    intro q1 e1 e2 e3 e4
    have hu : UpInv cmp q1.cell q1.size (q1.size - 1) := by
      constructor
      · intro k k0 kn kne
        have hk : k < q.size := by omega
        rw [e3 k hk, e3 (par k) (by simp only [par]; omega)]
        exact h2 k k0 hk
      · intro _ k k0 kn hk
        simp only [par] at hk; omega
    obtain ⟨q', g1, g2, g3, g4, g5⟩ := percolateUp_spec hc q1 (q1.size - 1) e2 (by omega) hu
    refine ⟨q', g1, ⟨by omega, g4⟩, by omega, g5.trans ?_⟩
    unfold Queue.elems
    rw [e1, List.range_succ, List.map_append]
    have : (List.range q.size).map q1.cell = (List.range q.size).map q.cell := by
      apply List.map_congr_left; intro k hk; exact e3 k (List.mem_range.1 hk)
    rw [this]
    simp only [List.map_cons, List.map_nil, e4]
    exact List.perm_append_singleton _ _
  unfold push
  by_cases hl : q.size ≥ q.len
  · simp only [hl, if_true, Res.pure_eq, Res.bind_ok]
    apply main
    · rfl
    · simp only; omega
    · intro k hk; simp only; rw [if_neg (by omega)]
    · simp only; rw [if_pos (by omega)]
  · simp only [hl, if_false, Queue.set]
    rw [if_pos (by omega)]
    simp only [Res.bind_ok]
    apply main
    · rfl
    · simp only; omega
    · intro k hk; simp only; rw [if_neg (by omega)]
    · simp only [if_true]

theorem pop_empty {cmp : Compare T} (q : Queue T) (h : q.size = 0) : pop cmp q = .ok (none, q) := by
  simp [pop, h]

theorem pop_spec {cmp : Compare T} (hc : cmp.Lawful) (q : Queue T) (h : Inv cmp q) (hpos : 0 < q.size) :
    ∃ q', pop cmp q = .ok (some (q.cell 0), q') ∧ Inv cmp q' ∧ q'.size + 1 = q.size ∧
      q.elems.Perm (q.cell 0 :: q'.elems) := by
  obtain ⟨h1, h2⟩ := h
  unfold pop
  rw [if_neg (by omega)]
  simp only []
  rw [swap_ok q 0 (q.size - 1) (by omega) (by omega)]
  simp only [Res.bind_ok]
  have hd : DownInv cmp (swapF q.cell 0 (q.size - 1)) (q.size - 1) 0 := by
    constructor
    · intro k k0 kn hk
      have e1 : swapF q.cell 0 (q.size - 1) k = q.cell k := by
        simp only [swapF]; rw [if_neg (by omega), if_neg (by omega)]
      have e2 : swapF q.cell 0 (q.size - 1) (par k) = q.cell (par k) := by
        simp only [swapF]; rw [if_neg (by simp only [par]; omega), if_neg hk]
      rw [e1, e2]; exact h2 k k0 (by omega)
    · intro h0; omega
  obtain ⟨q', g1, g2, g3, g4, g5, g6⟩ := percolateDown_spec hc { q with cell := swapF q.cell 0 (q.size - 1) }
    0 (q.size - 1) (by simp only; omega) h1 hd
  have g2' : q'.size = q.size := g2
  have g3' : q'.len = q.len := g3
  have hlast : q'.cell (q.size - 1) = q.cell 0 := by
    rw [g6 _ (Nat.le_refl _)]; simp [swapF]
  rw [g1]
  simp only [Res.bind_ok]
  have hget : ({ q' with size := q'.size - 1 } : Queue T).get (q'.size - 1) = .ok (q.cell 0) := by
    simp only [Queue.get]; rw [if_pos (by omega), g2', hlast]
  rw [hget]
  refine ⟨_, rfl, ⟨by simp only; omega, by simp only [g2']; exact g4⟩, by simp only; omega, ?_⟩
  unfold Queue.elems
  simp only [g2']
  have hsw := perm_swapF q.cell 0 (q.size - 1) q.size (by omega) (by omega)
  refine hsw.symm.trans ?_
  obtain ⟨n, hn⟩ : ∃ n, q.size = n + 1 := ⟨q.size - 1, by omega⟩
  rw [hn] at g5 g6 hlast ⊢
  simp only [Nat.add_sub_cancel] at *
  rw [List.range_succ, List.map_append]
  have e : (List.map (swapF q.cell 0 n) [n]) = [q.cell 0] := by simp [swapF]
  rw [e]
  refine (List.perm_append_singleton _ _).trans (List.Perm.cons _ g5.symm)

end Gds.PQ
