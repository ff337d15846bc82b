import Verif.SkipList.AnyModel

/-! Property C131, the invariant: whatever the comparator answers, every level consists of finite chains. -/
namespace Gds.SkipList
variable {K V E : Type}

/-! ### Chains of pointers -/

/-- Following `f` from `o` gives the nodes `L` and then nil. -/
inductive Chain (f : Nat → Option Nat) : Option Nat → List Nat → Prop where
  | nil : Chain f none []
  | cons {y L} (h : Chain f (f y) L) : Chain f (some y) (y :: L)

namespace Chain
variable {f g : Nat → Option Nat}

theorem unique {o L L'} (h : Chain f o L) (h' : Chain f o L') : L = L' := by
  induction h generalizing L' with
  | nil => cases h'; rfl
  | cons _ ih => cases h' with | cons h' => rw [ih h']

theorem suffix {A : List Nat} {o y B} (h : Chain f o (A ++ y :: B)) : Chain f (f y) B := by
  induction A generalizing o with
  | nil => cases h with | cons h => exact h
  | cons a A ih => cases h with | cons h => exact ih h

theorem notin {y L} (h : Chain f (f y) L) : y ∉ L := by
  intro hm
  obtain ⟨A, B, rfl⟩ := List.append_of_mem hm
  have := congrArg List.length (h.suffix.unique h)
  simp at this
  omega

theorem congr {o L} (h : Chain f o L) (e : ∀ y ∈ L, g y = f y) : Chain g o L := by
  induction h with
  | nil => exact .nil
  | @cons y L h ih =>
    refine .cons ?_
    rw [e y (by simp)]
    exact ih (fun z hz => e z (by simp [hz]))

theorem redirect {A : List Nat} {o u L M} (h : Chain f o (A ++ u :: L)) (e : ∀ y ∈ A, g y = f y) (hM : Chain g (g u) M) : Chain g o (A ++ u :: M) := by
  induction A generalizing o with
  | nil => cases h with | cons h => exact .cons hM
  | cons a A ih =>
    cases h with
    | cons h =>
      refine .cons ?_
      rw [e a (by simp)]
      exact ih h (fun z hz => e z (by simp [hz]))

/-- A new node `x` behind `u`. -/
theorem link {x u : Nat} {o L} (hg : ∀ y, g y = if y = x then f u else if y = u then some x else f y) (hx : x ∉ L) (hu : u ≠ x) (h : Chain f o L) :
    Chain g o L ∨ ∃ A B, L = A ++ u :: B ∧ Chain g o (A ++ u :: x :: B) := by
  by_cases hm : u ∈ L
  · obtain ⟨A, B, rfl, hA⟩ := List.eq_append_cons_of_mem hm
    refine .inr ⟨A, B, rfl, ?_⟩
    have hB := h.suffix
    have hn := hB.notin
    have e : ∀ y, y ≠ u → y ≠ x → g y = f y := fun y h1 h2 => by rw [hg, if_neg h2, if_neg h1]
    have hM : Chain g (g u) (x :: B) := by
      rw [hg, if_neg hu, if_pos rfl]
      refine .cons ?_
      rw [hg, if_pos rfl]
      exact hB.congr (fun y hy => e y (fun hh => hn (hh ▸ hy)) (fun hh => hx (by simp [← hh, hy])))
    have := h.redirect (fun y hy => e y (fun hh => hA (hh ▸ hy)) (fun hh => hx (by simp [← hh, hy]))) hM
    exact this
  · refine .inl (h.congr (fun y hy => ?_))
    rw [hg, if_neg (fun hh : y = x => hx (hh ▸ hy)), if_neg (fun hh : y = u => hm (hh ▸ hy))]

/-- The node `x` is taken out behind `u`, if it is there. -/
theorem unlink {x u : Nat} {o L} (hg : ∀ y, g y = if y = u ∧ f y = some x then f x else f y) (h : Chain f o L) :
    Chain g o L ∨ ∃ A B, L = A ++ u :: x :: B ∧ Chain g o (A ++ u :: B) := by
  by_cases hm : u ∈ L ∧ f u = some x
  · obtain ⟨hm, hx⟩ := hm
    obtain ⟨A, B, rfl, hA⟩ := List.eq_append_cons_of_mem hm
    have hB := h.suffix
    have hn := hB.notin
    have e : ∀ y, y ≠ u → g y = f y := fun y h1 => by rw [hg, if_neg (fun hh => h1 hh.1)]
    rw [hx] at hB
    cases hB with
    | @cons _ B hB =>
      refine .inr ⟨A, B, rfl, ?_⟩
      have hM : Chain g (g u) B := by
        rw [hg, if_pos ⟨rfl, hx⟩]
        exact hB.congr (fun y hy => e y (fun hh => hn (by simp [← hh, hy])))
      have := h.redirect (fun y hy => e y (fun hh => hA (hh ▸ hy))) hM
      exact this
  · refine .inl (h.congr (fun y hy => ?_))
    rw [hg, if_neg (fun hh : y = u ∧ f y = some x => hm ⟨hh.1 ▸ hy, hh.1 ▸ hh.2⟩)]

/-- The same, from behind a node `y`. -/
theorem link_behind {x u y : Nat} {L} (hg : ∀ y, g y = if y = x then f u else if y = u then some x else f y) (hx : x ∉ L) (hu : u ≠ x) (hy : y ≠ x)
    (h : Chain f (f y) L) : Chain g (g y) L ∨ ∃ A B, L = A ++ B ∧ Chain g (g y) (A ++ x :: B) := by
  rcases (Chain.cons h).link hg (by simp [hx, hy.symm]) hu with h1 | ⟨A, B, e, h1⟩
  · cases h1 with | cons h1 => exact .inl h1
  · cases A with
    | nil =>
      simp only [List.nil_append, List.cons.injEq] at e h1
      obtain ⟨rfl, rfl⟩ := e
      cases h1 with | cons h1 => exact .inr ⟨[], L, rfl, h1⟩
    | cons a A =>
      simp only [List.cons_append, List.cons.injEq] at e h1
      obtain ⟨rfl, rfl⟩ := e
      cases h1 with | cons h1 => exact .inr ⟨A ++ [u], B, by simp, by simpa using h1⟩

theorem unlink_behind {x u y : Nat} {L} (hg : ∀ y, g y = if y = u ∧ f y = some x then f x else f y) (h : Chain f (f y) L) :
    Chain g (g y) L ∨ ∃ A B, L = A ++ x :: B ∧ Chain g (g y) (A ++ B) := by
  rcases (Chain.cons h).unlink hg with h1 | ⟨A, B, e, h1⟩
  · cases h1 with | cons h1 => exact .inl h1
  · cases A with
    | nil =>
      simp only [List.nil_append, List.cons.injEq] at e h1
      obtain ⟨rfl, rfl⟩ := e
      cases h1 with | cons h1 => exact .inr ⟨[], B, rfl, h1⟩
    | cons a A =>
      simp only [List.cons_append, List.cons.injEq] at e h1
      obtain ⟨rfl, rfl⟩ := e
      cases h1 with | cons h1 => exact .inr ⟨A ++ [u], B, by simp, by simpa using h1⟩

end Chain

/-! ### The invariant -/

/-- A node of this list: the header or one made since the last Init or Clear. -/
def Own (s : St K V) (y : Nat) : Prop := s.header ≤ y ∧ y < s.alloc

/-- Positions `ρ` on the lowest level, of all nodes ever made, that forward pointers raise and back pointers lower. -/
def Placed (s : St K V) (n : Nat) (ρ : Nat → Nat) : Prop :=
  (∀ y, Own s y → ρ y ≤ n) ∧ (∀ y, s.header < y → y < s.alloc → 1 ≤ ρ y) ∧ (∀ y z, Own s y → s.fwd y 0 = some z → ρ y < ρ z) ∧
    ∀ y z, Own s y → s.back y = some z → ρ z < ρ y

/-- After `n` insertions, which with the calls of SetValue have stored `I`: pointers lead to nodes that are high enough, chains are finite. -/
structure Sound (zk : K) (zv : V) (s : St K V) (n : Nat) (I : List (K × V)) : Prop where
  num : s.alloc = s.header + 1 + n
  hh : s.height s.header = 32
  l1 : 1 ≤ s.level
  l32 : s.level ≤ 32
  ht : ∀ y, Own s y → 1 ≤ s.height y
  link : ∀ y i z, Own s y → i < s.height y → s.fwd y i = some z → s.header < z ∧ z < s.alloc ∧ i < s.height z
  tail : ∀ t, s.tail = some t → s.header < t ∧ t < s.alloc
  back : ∀ y z, Own s y → s.back y = some z → s.header < z ∧ z < s.alloc
  fin : ∀ y i, Own s y → i < s.height y → ∃ L, Chain (fun y => s.fwd y i) (s.fwd y i) L ∧ L.length ≤ n
  ent : ∀ y, s.header < y → y < s.alloc → (s.key y, s.val y) ∈ I
  zero : s.key s.header = zk ∧ s.val s.header = zv
  ord : ∃ ρ, Placed s n ρ

theorem Sound.hdr {zk : K} {zv : V} {s : St K V} {n I} (S : Sound zk zv s n I) : Own s s.header := ⟨Nat.le_refl _, by have := S.num; omega⟩

/-- What First and Next, Iter and String show. -/
def Listed (s : St K V) (L : List (K × V)) : Prop :=
  ∃ N, Chain (fun y => s.fwd y 0) (s.fwd s.header 0) N ∧ L = N.map (fun y => (s.key y, s.val y))

theorem init_sound (zk : K) (zv : V) (s : St K V) : Sound zk zv (init zk zv s) 0 [] ∧ Listed (init zk zv s) [] := by
  have own : ∀ y, Own (init zk zv s) y → y = s.alloc := fun y h => by
    have h1 : s.alloc ≤ y := h.1
    have h2 : y < s.alloc + 1 := h.2
    omega
  refine ⟨⟨rfl, by simp [init, newNode, maxLevel], Nat.le_refl 1, by simp [init], ?_, ?_, ?_, ?_, ?_, ?_, by simp [init, newNode], ?_⟩, ?_⟩
  · intro y h; rw [own y h]; simp [init, newNode, maxLevel]
  · intro y i z h _ e; rw [own y h] at e; simp [init, newNode] at e
  · intro t h; cases h
  · intro y z h e; rw [own y h] at e; simp [init, newNode] at e
  · intro y i h _
    rw [own y h]
    refine ⟨[], ?_, Nat.le_refl _⟩
    have : (init zk zv s).fwd s.alloc i = none := by simp [init, newNode]
    rw [this]; exact .nil
  · intro y h1 h2
    have h3 : s.alloc < y := h1
    have h4 : y < s.alloc + 1 := h2
    omega
  · refine ⟨fun _ => 0, fun _ _ => Nat.le_refl _, ?_, ?_, ?_⟩
    · intro y h1 h2
      have h3 : s.alloc < y := h1
      have h4 : y < s.alloc + 1 := h2
      omega
    · intro y z h e; rw [own y h] at e; simp [init, newNode] at e
    · intro y z h e; rw [own y h] at e; simp [init, newNode] at e
  · refine ⟨[], ?_, rfl⟩
    have : (init zk zv s).fwd (init zk zv s).header 0 = none := by simp [init, newNode]
    rw [this]; exact .nil

section
variable {zk : K} {zv : V} {s : St K V} {n : Nat} {I : List (K × V)}

/-! ### Walks -/

theorem Sound.walk (S : Sound zk zv s n I) (go : Int → Prop) [DecidablePred go] (cmp : EComp K E) (key : K) (i : Nat) (L : List Nat) (x : Nat) (hx : Own s x)
    (hi : i < s.height x) (hL : Chain (fun y => s.fwd y i) (s.fwd x i) L) (r : Int) (c : Nat) (e : E) :
    ∃ y r' c' e', goWalkE go (counted cmp) s key i x r (c, e) = .ok ((y, r'), (c', e')) ∧ Own s y ∧ i < s.height y ∧ c' ≤ c + L.length := by
  induction L generalizing x r c e with
  | nil =>
    generalize hf : s.fwd x i = o at hL
    cases hL
    rw [goWalkE]
    simp only [St.getFwd, if_pos hi, Res.bind_ok, hf]
    exact ⟨x, r, c, e, rfl, hx, hi, by simp⟩
  | cons z L ih =>
    generalize hf : s.fwd x i = o at hL
    cases hL with
    | cons hL =>
    obtain ⟨h1, h2, h3⟩ := S.link x i z hx hi hf
    rw [goWalkE]
    simp only [St.getFwd, if_pos hi, Res.bind_ok, hf, counted]
    by_cases hg : go (cmp (s.key z) key e).1
    · simp only [hg, if_true, St.getSpan, if_pos hi, Res.bind_ok]
      obtain ⟨y, r', c', e', g1, g2, g3, g4⟩ := ih z ⟨Nat.le_of_lt h1, h2⟩ h3 hL (r + s.span x i) (c + 1) (cmp (s.key z) key e).2
      exact ⟨y, r', c', e', g1, g2, g3, by simp; omega⟩
    · simp only [hg, if_false]
      exact ⟨x, r, c + 1, _, rfl, hx, hi, by simp⟩

theorem walkE_eq (cmp : EComp K E) : walkE (V := V) cmp = goWalkE (· ≠ 1) cmp := by
  delta walkE goWalkE
  rfl

/-- What a descent leaves in `update`. -/
def Marks (s : St K V) (u : Upd) (l : Nat) (U : Nat → Nat) : Prop := ∀ j, j < l → u.upd j = some (U j) ∧ Own s (U j) ∧ j < s.height (U j)

theorem Sound.descend (S : Sound zk zv s n I) (go : Int → Prop) [DecidablePred go] (cmp : EComp K E) (key : K) (i : Nat) (hi : i ≤ 32) (x : Nat) (hx : Own s x)
    (hix : i ≤ s.height x) (r : Int) (u : Upd) (c : Nat) (e : E) :
    ∃ x' u' c' e', descendE go (counted cmp) s key i x r u (c, e) = .ok ((x', u'), (c', e')) ∧ Own s x' ∧ c' ≤ c + i * n ∧
      (∀ j, i ≤ j → u'.upd j = u.upd j) ∧ ∃ U, Marks s u' i U ∧ (0 < i → x' = U 0) := by
  induction i generalizing x r u c e with
  | zero => exact ⟨x, u, c, e, rfl, hx, by omega, fun _ _ => rfl, fun _ => 0, fun j hj => by omega, fun h => by omega⟩
  | succ i ih =>
    obtain ⟨L, hL, hn⟩ := S.fin x i hx (by omega)
    obtain ⟨y, r1, c1, e1, g1, g2, g3, g4⟩ := S.walk go cmp key i L x hx (by omega) hL r c e
    rw [descendE, g1]
    simp only [Res.bind_ok, Upd.set, maxLevel, if_pos (show i < 32 by omega)]
    obtain ⟨x', u', c', e', f1, f2, f3, f4, U, f5, f6⟩ := ih (by omega) y g2 (by omega) r1
      ⟨fun j => if j = i then some y else u.upd j, fun j => if j = i then r1 else u.rank j⟩ c1 e1
    refine ⟨x', u', c', e', f1, f2, ?_, ?_, fun j => if j = i then y else U j, ?_, ?_⟩
    · rw [Nat.succ_mul]; omega
    · intro j hj
      rw [f4 j (by omega)]
      simp only [if_neg (show ¬ j = i by omega)]
    · intro j hj
      by_cases h : j = i
      · subst h
        simp only [if_true]
        rw [f4 j (Nat.le_refl _)]
        exact ⟨by simp, g2, g3⟩
      · simp only [h, if_false]
        exact f5 j (by omega)
    · intro _
      by_cases h : 0 = i
      · subst h
        simp only [if_true]
        rw [descendE] at f1
        cases f1
        rfl
      · simp only [h, if_false]
        exact f6 (by omega)

theorem Sound.search (S : Sound zk zv s n I) (cmp : EComp K E) (key : K) (i : Nat) (x : Nat) (hx : Own s x) (hix : i ≤ s.height x) (r : Int) (c : Nat) (e : E) :
    ∃ o c' e', searchLoopE (counted cmp) s key i x r (c, e) = .ok (o, (c', e')) ∧ c' ≤ c + i * (n + 1) ∧ (∀ y, o.1 = some y → Own s y) := by
  induction i generalizing x r c e with
  | zero => exact ⟨(none, 0), c, e, rfl, by omega, fun y h => by cases h⟩
  | succ i ih =>
    obtain ⟨L, hL, hn⟩ := S.fin x i hx (by omega)
    obtain ⟨y, r1, c1, e1, g1, g2, g3, g4⟩ := S.walk (· ≠ 1) cmp key i L x hx (by omega) hL r c e
    rw [searchLoopE, walkE_eq, g1]
    simp only [Res.bind_ok, counted]
    by_cases hz : (cmp (s.key y) key e1).1 = 0
    · simp only [hz, if_true]
      refine ⟨_, _, _, rfl, ?_, fun z hz => by cases hz; exact g2⟩
      rw [Nat.succ_mul]; omega
    · simp only [hz, if_false]
      obtain ⟨o, c', e', f1, f2, f3⟩ := ih y g2 (by omega) r1 (c1 + 1) (cmp (s.key y) key e1).2
      refine ⟨o, c', e', f1, ?_, f3⟩
      rw [Nat.succ_mul]; omega

/-! ### Insertion -/

theorem Sound.own_chain (S : Sound zk zv s n I) (i : Nat) (L : List Nat) (x : Nat) (hx : Own s x) (hi : i < s.height x)
    (hL : Chain (fun y => s.fwd y i) (s.fwd x i) L) : ∀ z ∈ L, s.header < z ∧ z < s.alloc := by
  induction L generalizing x with
  | nil => intro z hz; cases hz
  | cons y L ih =>
    generalize hf : s.fwd x i = o at hL
    cases hL with
    | cons hL =>
      obtain ⟨h1, h2, h3⟩ := S.link x i y hx hi hf
      intro z hz
      rcases List.mem_cons.1 hz with rfl | hz
      · exact ⟨h1, h2⟩
      · exact ih y ⟨Nat.le_of_lt h1, h2⟩ h3 hL z hz

theorem Sound.insert (S : Sound zk zv s n I) {s' : St K V} {k : K} {v : V} {H : Nat} {U : Nat → Nat} (hH : 1 ≤ H)
    (hl1 : 1 ≤ s'.level) (hl32 : s'.level ≤ 32) (hU : ∀ j, j < H → Own s (U j) ∧ j < s.height (U j))
    (ehd : s'.header = s.header) (eal : s'.alloc = s.alloc + 1)
    (ekey : ∀ y, s'.key y = if y = s.alloc then k else s.key y) (eval : ∀ y, s'.val y = if y = s.alloc then v else s.val y)
    (eht : ∀ y, s'.height y = if y = s.alloc then H else s.height y)
    (efwd : ∀ y j, s'.fwd y j = if j < H then (if y = s.alloc then s.fwd (U j) j else if y = U j then some s.alloc else s.fwd y j)
      else if y = s.alloc then none else s.fwd y j)
    (etl : s'.tail = some s.alloc ∨ s'.tail = s.tail)
    (ebk : ∀ y z, s'.back y = some z → (s.fwd (U 0) 0 = some y ∧ z = s.alloc) ∨ (y = s.alloc ∧ z = U 0 ∧ z ≠ s.header) ∨ (y ≠ s.alloc ∧ s.back y = some z)) :
    Sound zk zv s' (n + 1) ((k, v) :: I) ∧ ∀ L, Listed s L → ∃ L', Listed s' L' ∧ (L' = L ∨ ∃ A B, L = A ++ B ∧ L' = A ++ (k, v) :: B) := by
  have hnum := S.num
  have own : ∀ y, Own s' y → y = s.alloc ∨ (y ≠ s.alloc ∧ Own s y) := by
    intro y h
    unfold Own at h ⊢
    rw [ehd, eal] at h
    omega
  have hUa : ∀ j, j < H → U j ≠ s.alloc := fun j hj => by have := (hU j hj).1.2; omega
  have efun : ∀ j, j < H → ∀ y, s'.fwd y j = if y = s.alloc then s.fwd (U j) j else if y = U j then some s.alloc else s.fwd y j :=
    fun j hj y => by rw [efwd, if_pos hj]
  have step : ∀ y j L, y ≠ s.alloc → Own s y → j < s.height y → Chain (fun y => s.fwd y j) (s.fwd y j) L →
      Chain (fun y => s'.fwd y j) (s'.fwd y j) L ∨ ∃ A B, L = A ++ B ∧ Chain (fun y => s'.fwd y j) (s'.fwd y j) (A ++ s.alloc :: B) := by
    intro y j L hy ho hj hL
    have hmem := S.own_chain j L y ho hj hL
    have hx : s.alloc ∉ L := fun h => by have := (hmem _ h).2; omega
    by_cases hjH : j < H
    · exact hL.link_behind (g := fun y => s'.fwd y j) (efun j hjH) hx (hUa j hjH) hy
    · have e : ∀ z, z ≠ s.alloc → s'.fwd z j = s.fwd z j := fun z hz => by rw [efwd, if_neg hjH, if_neg hz]
      rw [e y hy]
      exact .inl (hL.congr (fun z hz => e z (fun h => hx (h ▸ hz))))
  refine ⟨⟨by rw [eal, ehd]; omega, by rw [eht, ehd, if_neg (by omega)]; exact S.hh, hl1, hl32, ?_, ?_, ?_, ?_, ?_, ?_, ?_, ?_⟩, ?_⟩
  · intro y h
    rcases own y h with rfl | ⟨h1, h2⟩
    · rw [eht, if_pos rfl]; exact hH
    · rw [eht, if_neg h1]; exact S.ht y h2
  · intro y j z h hj e
    rw [ehd, eal, eht z]
    have good : ∀ w, Own s w → j < s.height w → s.fwd w j = some z → s.header < z ∧ z < s.alloc + 1 ∧ j < if z = s.alloc then H else s.height z := by
      intro w h1 h2 h3
      obtain ⟨g1, g2, g3⟩ := S.link w j z h1 h2 h3
      rw [if_neg (by omega)]
      exact ⟨g1, by omega, g3⟩
    rw [efwd] at e
    rw [eht] at hj
    rcases own y h with rfl | ⟨h1, h2⟩
    · rw [if_pos rfl] at hj
      rw [if_pos hj, if_pos rfl] at e
      exact good (U j) (hU j hj).1 (hU j hj).2 e
    · rw [if_neg h1] at hj
      by_cases hjH : j < H
      · rw [if_pos hjH, if_neg h1] at e
        by_cases hyU : y = U j
        · rw [if_pos hyU] at e
          cases e
          rw [if_pos rfl]
          exact ⟨by omega, by omega, hjH⟩
        · rw [if_neg hyU] at e
          exact good y h2 hj e
      · rw [if_neg hjH, if_neg h1] at e
        exact good y h2 hj e
  · intro t h
    rw [ehd, eal]
    rcases etl with e | e
    · rw [e] at h; cases h; omega
    · rw [e] at h; have := S.tail t h; omega
  · intro y z h e
    rw [ehd, eal]
    rcases ebk y z e with ⟨_, rfl⟩ | ⟨_, rfl, h1⟩ | ⟨h1, h2⟩
    · omega
    · have := (hU 0 (by omega)).1
      have h3 := this.1
      have h4 := this.2
      omega
    · rcases own y h with h3 | ⟨_, h3⟩
      · exact absurd h3 h1
      · have := S.back y z h3 h2; omega
  · intro y j h hj
    rcases own y h with rfl | ⟨h1, h2⟩
    · rw [eht, if_pos rfl] at hj
      obtain ⟨L, hL, hn⟩ := S.fin (U j) j (hU j hj).1 (hU j hj).2
      have hmem := S.own_chain j L (U j) (hU j hj).1 (hU j hj).2 hL
      have hx : s.alloc ∉ L := fun h => by have := (hmem _ h).2; omega
      have hn' := hL.notin
      refine ⟨L, ?_, by omega⟩
      rw [efun j hj, if_pos rfl]
      refine hL.congr (fun z hz => ?_)
      show s'.fwd z j = _
      rw [efun j hj, if_neg (fun hh : z = s.alloc => hx (hh ▸ hz)), if_neg (fun hh : z = U j => hn' (hh ▸ hz))]
    · rw [eht, if_neg h1] at hj
      obtain ⟨L, hL, hn⟩ := S.fin y j h2 hj
      rcases step y j L h1 h2 hj hL with h3 | ⟨A, B, rfl, h3⟩
      · exact ⟨L, h3, by omega⟩
      · refine ⟨_, h3, ?_⟩
        simp at hn ⊢
        omega
  · intro y h1 h2
    rw [ehd] at h1
    rw [eal] at h2
    rw [ekey, eval]
    by_cases h : y = s.alloc
    · simp [h]
    · simp only [if_neg h]
      exact List.mem_cons_of_mem _ (S.ent y h1 (by omega))
  · rw [ehd, ekey, eval, if_neg (by omega), if_neg (by omega)]
    exact S.zero
  · obtain ⟨ρ, p1, p2, p3, p4⟩ := S.ord
    have e0 := efun 0 (by omega)
    have u1 := (hU 0 (by omega)).1
    have u2 := (hU 0 (by omega)).2
    refine ⟨fun y => if y = s.alloc then ρ (U 0) + 1 else if ρ (U 0) < ρ y then ρ y + 1 else ρ y, ?_, ?_, ?_, ?_⟩
    · intro y h
      have := p1 _ u1
      rcases own y h with rfl | ⟨h1, h2⟩
      · simp only [if_true]; omega
      · simp only [h1, if_false]; have := p1 y h2; split <;> omega
    · intro y h1 h2
      rw [ehd] at h1
      rw [eal] at h2
      simp only
      by_cases h : y = s.alloc
      · simp only [h, if_true]; omega
      · simp only [h, if_false]; have := p2 y h1 (by omega); split <;> omega
    · intro y z h e
      rw [e0] at e
      rcases own y h with rfl | ⟨h1, h2⟩
      · simp only [if_true] at e ⊢
        have h3 := p3 _ _ u1 e
        have h4 := S.link _ _ _ u1 u2 e
        simp only [if_neg (show ¬ z = s.alloc by omega), if_pos h3]; omega
      · simp only [h1, if_false] at e ⊢
        by_cases hy : y = U 0
        · simp only [hy, if_true] at e ⊢
          cases e
          simp only [if_true, Nat.lt_irrefl, if_false]; omega
        · simp only [hy, if_false] at e
          have h3 := p3 _ _ h2 e
          have h4 : z < s.alloc := (S.link y 0 z h2 (S.ht y h2) e).2.1
          simp only [if_neg (show ¬ z = s.alloc by omega)]
          split <;> split <;> omega
    · intro y z h e
      rcases ebk y z e with ⟨h1, rfl⟩ | ⟨rfl, rfl, h1⟩ | ⟨h1, h2⟩
      · have h3 := p3 _ _ u1 h1
        have h4 := S.link _ _ _ u1 u2 h1
        simp only [if_neg (show ¬ y = s.alloc by omega), if_true, if_pos h3]; omega
      · simp only [if_true, if_neg (hUa 0 (by omega)), Nat.lt_irrefl, if_false]; omega
      · rcases own y h with h3 | ⟨_, h3⟩
        · exact absurd h3 h1
        · have h4 := p4 _ _ h3 h2
          have h5 := S.back y z h3 h2
          simp only [h1, if_false, if_neg (show ¬ z = s.alloc by omega)]
          split <;> split <;> omega
  · rintro L ⟨N, hN, rfl⟩
    have hmem := S.own_chain 0 N s.header S.hdr (by rw [S.hh]; omega) hN
    have old : ∀ M : List Nat, (∀ z ∈ M, z < s.alloc) → M.map (fun y => (s'.key y, s'.val y)) = M.map (fun y => (s.key y, s.val y)) := by
      intro M hM
      apply List.map_congr_left
      intro z hz
      have := hM z hz
      rw [ekey, eval, if_neg (by omega), if_neg (by omega)]
    rcases step s.header 0 N (by omega) S.hdr (by rw [S.hh]; omega) hN with h3 | ⟨A, B, rfl, h3⟩
    · exact ⟨_, ⟨N, by rw [ehd]; exact h3, (old N (fun z hz => (hmem z hz).2)).symm⟩, .inl rfl⟩
    · refine ⟨_, ⟨A ++ s.alloc :: B, by rw [ehd]; exact h3, rfl⟩, .inr ⟨A.map (fun y => (s.key y, s.val y)), B.map (fun y => (s.key y, s.val y)), by simp, ?_⟩⟩
      rw [List.map_append, List.map_cons, old A (fun z hz => (hmem z (by simp [hz])).2), old B (fun z hz => (hmem z (by simp [hz])).2), ekey, eval,
        if_pos rfl, if_pos rfl]

/-! ### Removal -/

theorem Sound.remove (S : Sound zk zv s n I) {s' : St K V} {x l : Nat} {U : Nat → Nat}
    (hl1 : 1 ≤ s'.level) (hl32 : s'.level ≤ 32) (hxl : s.header < x ∧ x < s.alloc)
    (ehd : s'.header = s.header) (eal : s'.alloc = s.alloc) (ekey : s'.key = s.key) (eval : s'.val = s.val) (eht : s'.height = s.height)
    (hU : ∀ j, j < l → Own s (U j) ∧ j < s.height (U j))
    (efwd : ∀ y j, s'.fwd y j = if j < l ∧ y = U j ∧ s.fwd y j = some x then s.fwd x j else s.fwd y j)
    (etl : s'.tail = s.back x ∨ s'.tail = s.tail)
    (ebk : ∀ y, (s.fwd x 0 = some y ∧ s'.back y = s.back x) ∨ s'.back y = s.back y) :
    Sound zk zv s' n I ∧
      (∀ y j L, Chain (fun y => s.fwd y j) (s.fwd y j) L →
        Chain (fun y => s'.fwd y j) (s'.fwd y j) L ∨ ∃ A B, L = A ++ x :: B ∧ Chain (fun y => s'.fwd y j) (s'.fwd y j) (A ++ B)) ∧
      ∀ L, Listed s L → ∃ L', Listed s' L' ∧ (L' = L ∨ ∃ A p B, L = A ++ p :: B ∧ L' = A ++ B) := by
  have own : ∀ y, Own s' y → Own s y := fun y h => by unfold Own at h ⊢; rw [ehd, eal] at h; exact h
  have hx : Own s x := ⟨by omega, hxl.2⟩
  have step : ∀ y j L, Chain (fun y => s.fwd y j) (s.fwd y j) L →
      Chain (fun y => s'.fwd y j) (s'.fwd y j) L ∨ ∃ A B, L = A ++ x :: B ∧ Chain (fun y => s'.fwd y j) (s'.fwd y j) (A ++ B) := by
    intro y j L hL
    by_cases hj : j < l
    · refine hL.unlink_behind (g := fun y => s'.fwd y j) (u := U j) (fun z => ?_)
      show s'.fwd z j = _
      rw [efwd]
      simp only [hj, true_and]
    · have e : ∀ z, s'.fwd z j = s.fwd z j := fun z => by rw [efwd, if_neg (fun h => hj h.1)]
      rw [e]
      exact .inl (hL.congr (fun z _ => e z))
  refine ⟨⟨by rw [eal, ehd]; exact S.num, by rw [eht, ehd]; exact S.hh, hl1, hl32, ?_, ?_, ?_, ?_, ?_, ?_, ?_, ?_⟩, step, ?_⟩
  · intro y h; rw [eht]; exact S.ht y (own y h)
  · intro y j z h hj e
    rw [eht] at hj ⊢
    rw [ehd, eal]
    rw [efwd] at e
    by_cases hc : j < l ∧ y = U j ∧ s.fwd y j = some x
    · rw [if_pos hc] at e
      have := S.link y j x (own y h) hj hc.2.2
      exact S.link x j z hx this.2.2 e
    · rw [if_neg hc] at e
      exact S.link y j z (own y h) hj e
  · intro t h
    rw [ehd, eal]
    rcases etl with e | e
    · rw [e] at h; exact S.back x t hx h
    · rw [e] at h; exact S.tail t h
  · intro y z h e
    rw [ehd, eal]
    rcases ebk y with ⟨_, e1⟩ | e1
    · rw [e1] at e; exact S.back x z hx e
    · rw [e1] at e; exact S.back y z (own y h) e
  · intro y j h hj
    rw [eht] at hj
    obtain ⟨L, hL, hn⟩ := S.fin y j (own y h) hj
    rcases step y j L hL with h3 | ⟨A, B, rfl, h3⟩
    · exact ⟨L, h3, hn⟩
    · refine ⟨_, h3, ?_⟩
      simp at hn ⊢
      omega
  · intro y h1 h2
    rw [ehd] at h1
    rw [eal] at h2
    rw [ekey, eval]
    exact S.ent y h1 h2
  · rw [ehd, ekey, eval]; exact S.zero
  · obtain ⟨ρ, p1, p2, p3, p4⟩ := S.ord
    refine ⟨ρ, fun y h => p1 y (own y h), fun y h1 h2 => p2 y (ehd ▸ h1) (eal ▸ h2), ?_, ?_⟩
    · intro y z h e
      rw [efwd] at e
      by_cases hc : 0 < l ∧ y = U 0 ∧ s.fwd y 0 = some x
      · rw [if_pos hc] at e
        exact Nat.lt_trans (p3 _ _ (own y h) hc.2.2) (p3 _ _ hx e)
      · rw [if_neg hc] at e
        exact p3 _ _ (own y h) e
    · intro y z h e
      rcases ebk y with ⟨e0, e1⟩ | e1
      · rw [e1] at e; exact Nat.lt_trans (p4 _ _ hx e) (p3 _ _ hx e0)
      · rw [e1] at e; exact p4 _ _ (own y h) e
  · rintro L ⟨N, hN, rfl⟩
    rcases step s.header 0 N hN with h3 | ⟨A, B, rfl, h3⟩
    · exact ⟨_, ⟨N, by rw [ehd]; exact h3, by rw [ekey, eval]⟩, .inl rfl⟩
    · exact ⟨_, ⟨A ++ B, by rw [ehd]; exact h3, rfl⟩, .inr ⟨A.map (fun y => (s.key y, s.val y)), (s.key x, s.val x), B.map (fun y => (s.key y, s.val y)), by simp, by simp [ekey, eval]⟩⟩

/-- Following Prev is finite, too. -/
theorem Sound.backs (S : Sound zk zv s n I) (y : Nat) (hy : s.header < y ∧ y < s.alloc) : ∃ B, Chain s.back (s.back y) B ∧ B.length + 1 ≤ n ∧
    ∀ z ∈ B, s.header < z ∧ z < s.alloc := by
  obtain ⟨ρ, p1, p2, p3, p4⟩ := S.ord
  have : ∃ B, Chain s.back (s.back y) B ∧ B.length + 1 ≤ ρ y ∧ ∀ z ∈ B, s.header < z ∧ z < s.alloc := by
    induction hr : ρ y using Nat.strong_induction_on generalizing y with
    | _ r ih =>
      have hyo : Own s y := ⟨by omega, hy.2⟩
      cases hb : s.back y with
      | none => exact ⟨[], .nil, by have := p2 y hy.1 hy.2; simp; omega, fun z hz => by cases hz⟩
      | some z =>
        have h1 := S.back y z hyo hb
        have h2 := p4 y z hyo hb
        obtain ⟨B, b1, b2, b3⟩ := ih (ρ z) (by omega) z h1 rfl
        refine ⟨z :: B, .cons b1, by simp; omega, fun w hw => ?_⟩
        rcases List.mem_cons.1 hw with rfl | hw
        · exact h1
        · exact b3 w hw
  obtain ⟨B, b1, b2, b3⟩ := this
  exact ⟨B, b1, by have := p1 y ⟨by omega, hy.2⟩; omega, b3⟩

end
end Gds.SkipList
