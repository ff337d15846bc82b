import Verif.SkipList.Towers

/-! C111: what a lookup in the skip list answers after any sequence of insertions, and which keys are found whatever the random
levels. -/

namespace Gds.SkipList

variable {K V : Type}

/-- A sequence of `Put` calls, each with the random number its insertion consumes. -/
def puts (es : List (K × V × UInt64)) : List (Op K V) := es.map (fun e => .put e.1 e.2.1 e.2.2)

/-- The keys and values of such a sequence. -/
def calls (es : List (K × V × UInt64)) : List (K × V) := es.map (fun e => (e.1, e.2.1))

/-! ### The exact theorems -/

theorem Built.holds {zk : K} {zv : V} {s : St K V} {T : List (Tower K V)} (h : Built zk zv s T) : Holds zk zv s (plain T) := by
  obtain ⟨n, P, R, rfl, h1, h2, -⟩ := h
  exact ⟨n, P, R, towers_plain.symm, h1, h2⟩

theorem puts_built (comp : Compare K) (zk : K) (zv : V) (es : List (K × V × UInt64)) {s : St K V} {T : List (Tower K V)}
    (h : Built zk zv s T) : ∃ s', run comp zk zv s (puts es) = .ok s' ∧ Built zk zv s' (rowOf comp zk zv T es) := by
  induction es generalizing s T with
  | nil => exact ⟨s, rfl, h⟩
  | cons e es ih =>
    obtain ⟨k, v, d⟩ := e
    obtain ⟨s1, e1, B1⟩ := insert_built (comp := comp) h k v true d
    obtain ⟨s2, e2, B2⟩ := ih B1
    refine ⟨s2, ?_, B2⟩
    simp only [puts, List.map_cons, run, step, insertUnique, e1, Res.bind_ok, Res.pure_eq] at e2 ⊢
    exact e2

/-- After any sequence of `Put`s, for every comparator, the list is the row of towers computed by `rowOf`. -/
theorem puts_row (comp : Compare K) (zk : K) (zv : V) (es : List (K × V × UInt64)) :
    ∃ s, run comp zk zv (new zk zv) (puts es) = .ok s ∧ Built zk zv s (rowOf comp zk zv [] es) ∧
      Shows zv s (plain (rowOf comp zk zv [] es)) := by
  obtain ⟨s, e, B⟩ := puts_built comp zk zv es (new_built zk zv)
  exact ⟨s, e, B, holds_shows B.holds⟩

/-- `Has`, `Get` and `Rank` on a row of towers answer what the ride finds. -/
theorem lookup_exact (comp : Compare K) {zk : K} {zv : V} {s : St K V} {T : List (Tower K V)} (h : Built zk zv s T) (k : K) :
    match seek comp k (top T) (start zk zv T) with
    | none => has comp s k = .ok false ∧ get comp zv s k = .ok zv ∧ rank comp s k = .ok 0
    | some c => has comp s k = .ok true ∧ get comp zv s k = .ok c.val ∧ rank comp s k = .ok ((T.length : Int) - c.rest.length) := by
  obtain ⟨n, P, R, rfl, h1, h2, h3⟩ := h
  have hst : start zk zv (towers s n P) = spot s n P 0 := by simp [start, spot, R.head, h1, h2]
  have := searchLoop_seek R comp k s.level (Nat.le_refl _) 0 (by omega) (fun j hj => by rw [R.head, R.hh]; have := R.l32; omega)
  rw [← h3, hst]
  rw [R.head] at this
  simp only [Int.ofNat_eq_natCast, Int.natCast_zero] at this
  unfold has get rank search
  rcases this with ⟨q, hq, e1, e2⟩ | ⟨e1, e2⟩
  · rw [e1, e2]
    refine ⟨rfl, rfl, ?_⟩
    simp only [Res.bind_ok, Res.pure_eq, spot, List.length_drop, towers_length]
    congr 1; omega
  · rw [e1, e2]
    exact ⟨rfl, rfl, rfl⟩

/-! ### Facts about rides -/

theorem ride_skip (go : K → Bool) (i : Nat) (c : Spot K V) (A B : List (Tower K V)) (h : ∀ t ∈ A, t.height ≤ i) :
    ride go i c (A ++ B) = ride go i c B := by
  induction A with
  | nil => rfl
  | cons t ts ih =>
    rw [List.cons_append, ride, if_pos (h t List.mem_cons_self)]
    exact ih (fun t' ht => h t' (List.mem_cons_of_mem _ ht))

theorem ride_skip_all (go : K → Bool) (i : Nat) (c : Spot K V) (A : List (Tower K V)) (h : ∀ t ∈ A, t.height ≤ i) :
    ride go i c A = c := by
  have := ride_skip go i c A [] h
  simpa [ride] using this

/-- A ride ends where it began, or on one of the towers ahead that passes the test; what lies behind is part of what lay ahead. -/
theorem ride_ends (go : K → Bool) (i : Nat) (c : Spot K V) (ts : List (Tower K V)) :
    ride go i c ts = c ∨ ∃ A t B, ts = A ++ t :: B ∧ go t.key = true ∧ i < t.height ∧ ride go i c ts = ⟨t.key, t.val, B⟩ := by
  induction ts generalizing c with
  | nil => exact .inl rfl
  | cons t ts ih =>
    rw [ride]
    by_cases h1 : t.height ≤ i
    · rw [if_pos h1]
      rcases ih c with h | ⟨A, t', B, e, g, hh, e'⟩
      · exact .inl h
      · exact .inr ⟨t :: A, t', B, by rw [e]; rfl, g, hh, e'⟩
    · rw [if_neg h1]
      by_cases h2 : go t.key = true
      · rw [if_pos h2]
        rcases ih ⟨t.key, t.val, ts⟩ with h | ⟨A, t', B, e, g, hh, e'⟩
        · exact .inr ⟨[], t, ts, rfl, h2, by omega, h⟩
        · exact .inr ⟨t :: A, t', B, by rw [e]; rfl, g, hh, e'⟩
      · rw [if_neg h2]; exact .inl rfl

/-- A key that equals neither the spot's nor any key ahead is not found. -/
theorem seek_none (comp : Compare K) (k : K) (i : Nat) (c : Spot K V) (h1 : comp c.key k ≠ 0) (h2 : ∀ t ∈ c.rest, comp t.key k ≠ 0) :
    seek comp k i c = none := by
  induction i generalizing c with
  | zero => rfl
  | succ i ih =>
    rw [seek]
    rcases ride_ends (fun x => comp x k != 1) i c c.rest with e | ⟨A, t, B, e, -, -, e'⟩
    · simp only [e, if_neg h1]; exact ih c h1 h2
    · have ht : comp t.key k ≠ 0 := h2 t (by rw [e]; simp)
      simp only [e', if_neg ht]
      exact ih _ ht (fun t' ht' => h2 t' (by rw [e]; simp [ht']))

/-- A tower stops every ride over it when its key compares greater. -/
theorem ride_blocked (comp : Compare K) (k : K) (i : Nat) (c : Spot K V) (A B : List (Tower K V)) (t : Tower K V)
    (hr : c.rest = A ++ t :: B) (ht : comp t.key k = 1) (hi : i < t.height) :
    ride (fun x => comp x k != 1) i c c.rest = c ∨
      ∃ A₁ a A₂, A = A₁ ++ a :: A₂ ∧ ride (fun x => comp x k != 1) i c c.rest = ⟨a.key, a.val, A₂ ++ t :: B⟩ := by
  rw [hr]
  suffices h : ∀ (c : Spot K V) (A : List (Tower K V)), ride (fun x => comp x k != 1) i c (A ++ t :: B) = c ∨
      ∃ A₁ a A₂, A = A₁ ++ a :: A₂ ∧ ride (fun x => comp x k != 1) i c (A ++ t :: B) = ⟨a.key, a.val, A₂ ++ t :: B⟩ from h c A
  intro c A
  induction A generalizing c with
  | nil =>
    left
    rw [List.nil_append, ride, if_neg (by omega)]
    simp [ht]
  | cons a A ih =>
    rw [List.cons_append, ride]
    by_cases h1 : a.height ≤ i
    · rw [if_pos h1]
      rcases ih c with h | ⟨A₁, a', A₂, e, h⟩
      · exact .inl h
      · exact .inr ⟨a :: A₁, a', A₂, by rw [e]; rfl, h⟩
    · rw [if_neg h1]
      by_cases h2 : comp a.key k != 1
      · simp only [h2, if_true]
        rcases ih ⟨a.key, a.val, A ++ t :: B⟩ with h | ⟨A₁, a', A₂, e, h⟩
        · exact .inr ⟨[], a, A, rfl, h⟩
        · exact .inr ⟨a :: A₁, a', A₂, by rw [e]; rfl, h⟩
      · simp only [h2, if_false]; exact .inl rfl

/-- Smaller keys in front, greater keys behind: the tower is found. -/
theorem seek_found (comp : Compare K) (k : K) (B : List (Tower K V)) (t : Tower K V) (ht : comp t.key k = 0) (hh : 1 ≤ t.height)
    (hB : ∀ b ∈ B, comp b.key k = 1) (i : Nat) (hi : 1 ≤ i) (c : Spot K V) (A : List (Tower K V)) (hr : c.rest = A ++ t :: B)
    (hc : comp c.key k ≠ 0) (hA : ∀ a ∈ A, comp a.key k = -1) :
    seek comp k i c = some ⟨t.key, t.val, B⟩ := by
  induction i generalizing c A with
  | zero => omega
  | succ i ih =>
    rw [seek]
    have hstopB : ∀ c' : Spot K V, ride (fun x => comp x k != 1) i c' B = c' := by
      intro c'
      rcases ride_ends (fun x => comp x k != 1) i c' B with h | ⟨A', t', B', e, g, -, -⟩
      · exact h
      · have := hB t' (by rw [e]; simp)
        simp [this] at g
    by_cases hti : t.height ≤ i
    · have key : ∀ (c : Spot K V) (A : List (Tower K V)), (∀ a ∈ A, comp a.key k = -1) → c.rest = A ++ t :: B → comp c.key k ≠ 0 →
          ∀ A', (∀ a ∈ A', comp a.key k = -1) → (∃ A'', A = A'' ++ A') →
          ∃ A₂, (ride (fun x => comp x k != 1) i c (A' ++ t :: B)).rest = A₂ ++ t :: B ∧ (∀ a ∈ A₂, comp a.key k = -1) ∧
            comp (ride (fun x => comp x k != 1) i c (A' ++ t :: B)).key k ≠ 0 := by
        intro c A hA hr hc A' hA' hs
        induction A' generalizing c A with
        | nil =>
          rw [List.nil_append, ride, if_pos hti, hstopB]
          exact ⟨A, hr, hA, hc⟩
        | cons a A' ih =>
          rw [List.cons_append, ride]
          obtain ⟨A'', rfl⟩ := hs
          by_cases h1 : a.height ≤ i
          · rw [if_pos h1]
            exact ih c _ hA hr hc (fun x hx => hA' x (List.mem_cons_of_mem _ hx)) ⟨A'' ++ [a], by simp⟩
          · have ha := hA' a List.mem_cons_self
            rw [if_neg h1, if_pos (by simp [ha])]
            exact ih ⟨a.key, a.val, A' ++ t :: B⟩ A' (fun x hx => hA' x (List.mem_cons_of_mem _ hx)) rfl (by simp [ha])
              (fun x hx => hA' x (List.mem_cons_of_mem _ hx)) ⟨[], rfl⟩
      obtain ⟨A₂, h1, h2, h3⟩ := key c A hA hr hc A hA ⟨[], rfl⟩
      rw [← hr] at h1 h3
      simp only [if_neg h3]
      exact ih (by omega) _ A₂ h1 h3 h2
    · have key : ∀ (c : Spot K V) (A : List (Tower K V)), (∀ a ∈ A, comp a.key k = -1) →
          ride (fun x => comp x k != 1) i c (A ++ t :: B) = ⟨t.key, t.val, B⟩ := by
        intro c A hA
        induction A generalizing c with
        | nil =>
          rw [List.nil_append, ride, if_neg hti, if_pos (by simp [ht]), hstopB]
        | cons a A ih =>
          have ha := hA a List.mem_cons_self
          rw [List.cons_append, ride]
          by_cases h1 : a.height ≤ i
          · rw [if_pos h1]; exact ih _ (fun x hx => hA x (List.mem_cons_of_mem _ hx))
          · rw [if_neg h1, if_pos (by simp [ha])]; exact ih _ (fun x hx => hA x (List.mem_cons_of_mem _ hx))
      rw [hr, key c A hA]
      simp [ht]

/-! ### Distinct keys -/

/-- The row of a sequence of distinct keys: the last one first. -/
def rowRev (es : List (K × V × UInt64)) : List (Tower K V) := (es.map (fun e => ⟨e.1, e.2.1, heightOf e.2.2⟩)).reverse

theorem place_front (comp : Compare K) (k : K) (i : Nat) (c : Spot K V) (h : ∀ t ∈ c.rest, comp t.key k ≠ 0) : place comp k i c = c := by
  unfold place
  induction i with
  | zero => rfl
  | succ i ih =>
    rw [glide]
    rcases ride_ends (fun x => comp x k == 0) i c c.rest with e | ⟨A, t, B, e, g, -, -⟩
    · rw [e]; exact ih
    · exact absurd (by simpa using g) (h t (by rw [e]; simp))

theorem rowOf_distinct (comp : Compare K) (zk : K) (zv : V) (es : List (K × V × UInt64)) (T : List (Tower K V))
    (hd : es.Pairwise (fun a b => comp a.1 b.1 ≠ 0)) (hT : ∀ t ∈ T, ∀ e ∈ es, comp t.key e.1 ≠ 0) :
    rowOf comp zk zv T es = rowRev es ++ T := by
  induction es generalizing T with
  | nil => rfl
  | cons e es ih =>
    obtain ⟨k, v, d⟩ := e
    have hi : insertTower comp zk zv T k v d = ⟨k, v, heightOf d⟩ :: T := by
      unfold insertTower
      rw [place_front comp k _ _ (fun t ht => hT t ht (k, v, d) List.mem_cons_self)]
      simp [start]
    rw [rowOf, hi, ih _ (List.pairwise_cons.1 hd).2]
    · simp [rowRev]
    · intro t ht e he
      rcases List.mem_cons.1 ht with rfl | ht
      · exact (List.pairwise_cons.1 hd).1 e he
      · exact hT t ht e (List.mem_cons_of_mem _ he)

/-- After `Put`s of distinct keys: the list, exactly. -/
theorem puts_distinct (comp : Compare K) (zk : K) (zv : V) (es : List (K × V × UInt64))
    (hd : (calls es).Pairwise (fun a b => comp a.1 b.1 ≠ 0)) :
    ∃ s, run comp zk zv (new zk zv) (puts es) = .ok s ∧ Built zk zv s (rowRev es) ∧ Shows zv s (calls es).reverse := by
  obtain ⟨s, e, B, S⟩ := puts_row comp zk zv es
  have hd' : es.Pairwise (fun a b => comp a.1 b.1 ≠ 0) := by
    unfold calls at hd; rw [List.pairwise_map] at hd; exact hd
  have h := rowOf_distinct comp zk zv es [] hd' (by simp)
  rw [List.append_nil] at h
  rw [h] at B S
  refine ⟨s, e, B, ?_⟩
  have : plain (rowRev es) = (calls es).reverse := by
    simp [plain, rowRev, calls, Function.comp_def]
  rwa [this] at S

/-- A choice of random numbers. -/
def withDraws (f : K × V → UInt64) (es : List (K × V)) : List (K × V × UInt64) := es.map (fun e => (e.1, e.2, f e))

theorem calls_withDraws (f : K × V → UInt64) (es : List (K × V)) : calls (withDraws f es) = es := by
  simp [calls, withDraws, Function.comp_def]

theorem rowRev_split (f : K × V → UInt64) (pre post : List (K × V)) (e : K × V) :
    rowRev (withDraws f (pre ++ e :: post)) =
      (post.map (fun x => (⟨x.1, x.2, heightOf (f x)⟩ : Tower K V))).reverse ++ ⟨e.1, e.2, heightOf (f e)⟩ ::
        (pre.map (fun x => (⟨x.1, x.2, heightOf (f x)⟩ : Tower K V))).reverse := by
  simp [rowRev, withDraws, Function.comp_def]

theorem top_le (T : List (Tower K V)) (t : Tower K V) (h : t ∈ T) : t.height ≤ top T := by
  induction T with
  | nil => cases h
  | cons a T ih =>
    rcases List.mem_cons.1 h with rfl | h
    · simp only [top]; omega
    · have := ih h; simp only [top]; omega

theorem top_eq (T : List (Tower K V)) (n : Nat) (h1 : 1 ≤ n) (h : ∀ t ∈ T, t.height ≤ n) (he : n = 1 ∨ ∃ t ∈ T, t.height = n) :
    top T = n := by
  have hle : top T ≤ n := by
    clear he
    induction T with
    | nil => simpa [top] using h1
    | cons a T ih =>
      have := ih (fun t ht => h t (List.mem_cons_of_mem _ ht))
      have := h a List.mem_cons_self
      simp only [top]; omega
  have := top_pos T
  rcases he with rfl | ⟨t, ht, hn⟩
  · omega
  · have := top_le T t ht; omega

/-- The two levels used below. -/
theorem draws_exist : ∃ d1 d2, heightOf d1 = 1 ∧ heightOf d2 = 2 := by
  obtain ⟨d1, h1⟩ := heightOf_onto 1 (by omega) (by omega)
  obtain ⟨d2, h2⟩ := heightOf_onto 2 (by omega) (by omega)
  exact ⟨d1, d2, h1, h2⟩

/-- A key put once (with other keys put before and after) is found whatever the random levels if and only if all keys put before it
    are greater and all keys put after it are smaller. -/
theorem found_always_iff (comp : Compare K) (hc : comp.ThreeWay) (zk : K) (zv : V) (pre post : List (K × V)) (k : K) (v : V)
    (hd : (pre ++ (k, v) :: post).Pairwise (fun a b => comp a.1 b.1 ≠ 0)) (hz : comp zk k ≠ 0) :
    (∀ es, calls es = pre ++ (k, v) :: post → ∀ s, run comp zk zv (new zk zv) (puts es) = .ok s → has comp s k = .ok true) ↔
      (∀ e ∈ pre, comp e.1 k > 0) ∧ (∀ e ∈ post, comp e.1 k < 0) := by
  have hdp : ∀ e ∈ pre, comp e.1 k ≠ 0 := fun e he => (List.pairwise_append.1 hd).2.2 e he (k, v) List.mem_cons_self
  have hdq : ∀ e ∈ post, comp e.1 k ≠ 0 := fun e he h0 =>
    (List.pairwise_cons.1 (List.pairwise_append.1 hd).2.1).1 e he (hc.zero_symm h0)
  constructor
  · intro H
    obtain ⟨d1, d2, hd1, hd2⟩ := draws_exist
    -- what a choice of draws says
    have use : ∀ f : K × V → UInt64, seek comp k (top (rowRev (withDraws f (pre ++ (k, v) :: post))))
        (start zk zv (rowRev (withDraws f (pre ++ (k, v) :: post)))) ≠ none := by
      intro f hn
      have hcalls := calls_withDraws f (pre ++ (k, v) :: post)
      obtain ⟨s, e, B, -⟩ := puts_distinct comp zk zv (withDraws f (pre ++ (k, v) :: post)) (by rw [hcalls]; exact hd)
      have h1 := H _ hcalls s e
      have h2 := lookup_exact comp B k
      rw [hn] at h2
      rw [h2.1] at h1; simp at h1
    constructor
    · intro b hb
      by_contra hneg
      have hbk : comp b.1 k = -1 := by
        have := hdp b hb
        rcases hc.range b.1 k with h | h | h <;> omega
      -- the tower of `b` has two levels, all others one
      apply use (fun e => if comp e.1 b.1 = 0 then d2 else d1)
      obtain ⟨p1, p2, rfl⟩ := List.append_of_mem hb
      rw [show p1 ++ b :: p2 ++ (k, v) :: post = p1 ++ b :: (p2 ++ (k, v) :: post) by simp] at hd ⊢
      rw [rowRev_split]
      have hl1 : ∀ e ∈ p1, (comp e.1 b.1 = 0) = False := fun e he => by
        simpa using (List.pairwise_append.1 hd).2.2 e he b List.mem_cons_self
      have hl2 : ∀ e ∈ p2 ++ (k, v) :: post, (comp e.1 b.1 = 0) = False := fun e he => by
        simpa using fun h0 => (List.pairwise_cons.1 (List.pairwise_append.1 hd).2.1).1 e he (hc.zero_symm h0)
      have hbb : heightOf (if comp b.1 b.1 = 0 then d2 else d1) = 2 := by rw [if_pos (hc.self _), hd2]
      rw [hbb]
      generalize hX : ((p2 ++ (k, v) :: post).map (fun x => (⟨x.1, x.2, heightOf (if comp x.1 b.1 = 0 then d2 else d1)⟩ : Tower K V))).reverse = X
      generalize hY : (p1.map (fun x => (⟨x.1, x.2, heightOf (if comp x.1 b.1 = 0 then d2 else d1)⟩ : Tower K V))).reverse = Y
      have hXh : ∀ t ∈ X, t.height = 1 := by
        intro t ht
        rw [← hX, List.mem_reverse, List.mem_map] at ht
        obtain ⟨x, hx, rfl⟩ := ht
        simp only [hl2 x hx, if_false, hd1]
      have hYh : ∀ t ∈ Y, t.height = 1 ∧ comp t.key k ≠ 0 := by
        intro t ht
        rw [← hY, List.mem_reverse, List.mem_map] at ht
        obtain ⟨x, hx, rfl⟩ := ht
        refine ⟨by simp only [hl1 x hx, if_false, hd1], hdp x (by simp [hx])⟩
      have htop : top (X ++ (⟨b.1, b.2, 2⟩ : Tower K V) :: Y) = 2 := by
        refine top_eq _ 2 (by omega) ?_ (.inr ⟨⟨b.1, b.2, 2⟩, by simp, rfl⟩)
        intro t ht
        rcases List.mem_append.1 ht with h | h
        · have := hXh t h; omega
        · rcases List.mem_cons.1 h with rfl | h
          · exact Nat.le_refl _
          · have := (hYh t h).1; omega
      rw [htop, seek]
      have hride : ride (fun x => comp x k != 1) 1 (start zk zv (X ++ (⟨b.1, b.2, 2⟩ : Tower K V) :: Y))
          (start zk zv (X ++ (⟨b.1, b.2, 2⟩ : Tower K V) :: Y)).rest = ⟨b.1, b.2, Y⟩ := by
        show ride _ 1 _ (X ++ (⟨b.1, b.2, 2⟩ : Tower K V) :: Y) = _
        rw [ride_skip _ _ _ _ _ (fun t ht => by have := hXh t ht; omega), ride, if_neg (show ¬ (2 ≤ 1) by omega),
          if_pos (by simp [hbk]), ride_skip_all _ _ _ _ (fun t ht => by have := (hYh t ht).1; omega)]
      simp only [hride]
      rw [if_neg (by simp [hbk])]
      exact seek_none comp k 1 _ (by simp [hbk]) (fun t ht => (hYh t ht).2)
    · intro b hb
      by_contra hneg
      have hbk : comp b.1 k = 1 := by
        have := hdq b hb
        rcases hc.range b.1 k with h | h | h <;> omega
      -- all towers have one level
      apply use (fun _ => d1)
      obtain ⟨q1, q2, rfl⟩ := List.append_of_mem hb
      rw [show pre ++ (k, v) :: (q1 ++ b :: q2) = (pre ++ (k, v) :: q1) ++ b :: q2 by simp]
      rw [rowRev_split, hd1]
      generalize hY : ((pre ++ (k, v) :: q1).map (fun x => (⟨x.1, x.2, 1⟩ : Tower K V))).reverse = Y
      generalize hX : (q2.map (fun x => (⟨x.1, x.2, 1⟩ : Tower K V))).reverse = X
      have hXh : ∀ t ∈ X, t.height = 1 ∧ comp t.key k ≠ 0 := by
        intro t ht
        rw [← hX, List.mem_reverse, List.mem_map] at ht
        obtain ⟨x, hx, rfl⟩ := ht
        exact ⟨rfl, hdq x (by simp [hx])⟩
      have hYh : ∀ t ∈ Y, t.height = 1 := by
        intro t ht
        rw [← hY, List.mem_reverse, List.mem_map] at ht
        obtain ⟨x, hx, rfl⟩ := ht
        rfl
      have htop : top (X ++ (⟨b.1, b.2, 1⟩ : Tower K V) :: Y) = 1 := by
        refine top_eq _ 1 (by omega) ?_ (.inl rfl)
        intro t ht
        rcases List.mem_append.1 ht with h | h
        · have := hXh t h; omega
        · rcases List.mem_cons.1 h with rfl | h
          · exact Nat.le_refl _
          · have := hYh t h; omega
      rw [htop, seek]
      rcases ride_blocked comp k 0 (start zk zv (X ++ (⟨b.1, b.2, 1⟩ : Tower K V) :: Y)) X Y ⟨b.1, b.2, 1⟩ rfl hbk (by simp) with
        e | ⟨A₁, a, A₂, e, e'⟩
      · simp only [e]
        rw [if_neg (show ¬ comp (start zk zv _).key k = 0 from hz)]
        rfl
      · simp only [e']
        rw [if_neg (hXh a (by rw [e]; simp)).2]
        rfl
  · rintro ⟨h1, h2⟩ es hes s hs
    obtain ⟨s', e, B, -⟩ := puts_distinct comp zk zv es (by rw [hes]; exact hd)
    rw [hs] at e; cases e
    have hsplit : ∃ p1 d p2, es = p1 ++ (k, v, d) :: p2 ∧ calls p1 = pre ∧ calls p2 = post := by
      unfold calls at hes ⊢
      obtain ⟨p1, r, rfl, e1, e2⟩ := List.map_eq_append_iff.1 hes
      obtain ⟨x, p2, rfl, e3, e4⟩ := List.map_eq_cons_iff.1 e2
      obtain ⟨a, b, d⟩ := x
      simp only [Prod.mk.injEq] at e3
      obtain ⟨rfl, rfl⟩ := e3
      exact ⟨p1, d, p2, rfl, e1, e4⟩
    obtain ⟨p1, d, p2, rfl, rfl, rfl⟩ := hsplit
    have hrow : rowRev (p1 ++ (k, v, d) :: p2) = rowRev p2 ++ ⟨k, v, heightOf d⟩ :: rowRev p1 := by simp [rowRev]
    rw [hrow] at B
    have h3 := lookup_exact comp B k
    have mem : ∀ (p : List (K × V × UInt64)) (t : Tower K V), t ∈ rowRev p → ∃ e ∈ calls p, e.1 = t.key := by
      intro p t ht
      unfold rowRev at ht
      rw [List.mem_reverse, List.mem_map] at ht
      obtain ⟨x, hx, rfl⟩ := ht
      exact ⟨(x.1, x.2.1), List.mem_map.2 ⟨x, hx, rfl⟩, rfl⟩
    rw [seek_found comp k (rowRev p1) ⟨k, v, heightOf d⟩ (hc.self _) (heightOf_range d).1
      (fun b hb => by
        obtain ⟨e, he, e1⟩ := mem _ _ hb
        have := h1 e he
        rw [← e1]
        rcases hc.range e.1 k with h | h | h <;> omega)
      _ (top_pos _) (start zk zv _) (rowRev p2) rfl hz (fun a ha => by
        obtain ⟨e, he, e1⟩ := mem _ _ ha
        have := h2 e he
        rw [← e1]
        rcases hc.range e.1 k with h | h | h <;> omega)] at h3
    exact h3.1

/-- Every key put can be found: there are random levels for which it is. -/
theorem found_sometimes (comp : Compare K) (hc : comp.ThreeWay) (zk : K) (zv : V) (pre post : List (K × V)) (k : K) (v : V)
    (hd : (pre ++ (k, v) :: post).Pairwise (fun a b => comp a.1 b.1 ≠ 0)) :
    ∃ es s, calls es = pre ++ (k, v) :: post ∧ run comp zk zv (new zk zv) (puts es) = .ok s ∧ has comp s k = .ok true ∧
      get comp zv s k = .ok v ∧ rank comp s k = .ok ((post.length : Int) + 1) := by
  obtain ⟨d1, d2, hd1, hd2⟩ := draws_exist
  have hcalls := calls_withDraws (fun e : K × V => if comp e.1 k = 0 then d2 else d1) (pre ++ (k, v) :: post)
  obtain ⟨s, e, B, -⟩ := puts_distinct comp zk zv _ (by rw [hcalls]; exact hd)
  refine ⟨_, s, hcalls, e, ?_⟩
  rw [rowRev_split] at B
  have hdp : ∀ e ∈ pre, comp e.1 k ≠ 0 := fun e he => (List.pairwise_append.1 hd).2.2 e he (k, v) List.mem_cons_self
  have hdq : ∀ e ∈ post, comp e.1 k ≠ 0 := fun e he h0 =>
    (List.pairwise_cons.1 (List.pairwise_append.1 hd).2.1).1 e he (hc.zero_symm h0)
  have h1 := lookup_exact comp B k
  have hkk : heightOf (if comp k k = 0 then d2 else d1) = 2 := by rw [if_pos (hc.self _), hd2]
  simp only [hkk] at h1
  have low : ∀ (p : List (K × V)), (∀ e ∈ p, comp e.1 k ≠ 0) →
      ∀ t ∈ (p.map (fun x => (⟨x.1, x.2, heightOf (if comp x.1 k = 0 then d2 else d1)⟩ : Tower K V))).reverse, t.height = 1 := by
    intro p hp t ht
    rw [List.mem_reverse, List.mem_map] at ht
    obtain ⟨x, hx, rfl⟩ := ht
    simp only [if_neg (hp x hx), hd1]
  have lX := low post hdq
  have lY := low pre hdp
  have len : ((post.map (fun x => (⟨x.1, x.2, heightOf (if comp x.1 k = 0 then d2 else d1)⟩ : Tower K V))).reverse).length = post.length := by simp
  generalize ((post.map (fun x => (⟨x.1, x.2, heightOf (if comp x.1 k = 0 then d2 else d1)⟩ : Tower K V))).reverse) = X at h1 lX len
  generalize ((pre.map (fun x => (⟨x.1, x.2, heightOf (if comp x.1 k = 0 then d2 else d1)⟩ : Tower K V))).reverse) = Y at h1 lY
  have htop : top (X ++ (⟨k, v, 2⟩ : Tower K V) :: Y) = 2 := by
    refine top_eq _ 2 (by omega) ?_ (.inr ⟨⟨k, v, 2⟩, by simp, rfl⟩)
    intro t ht
    rcases List.mem_append.1 ht with h | h
    · have := lX t h; omega
    · rcases List.mem_cons.1 h with rfl | h
      · exact Nat.le_refl _
      · have := lY t h; omega
  rw [htop, seek] at h1
  have hride : ride (fun x => comp x k != 1) 1 (start zk zv (X ++ (⟨k, v, 2⟩ : Tower K V) :: Y))
      (start zk zv (X ++ (⟨k, v, 2⟩ : Tower K V) :: Y)).rest = ⟨k, v, Y⟩ := by
    show ride _ 1 _ (X ++ (⟨k, v, 2⟩ : Tower K V) :: Y) = _
    rw [ride_skip _ _ _ _ _ (fun t ht => by have := lX t ht; omega), ride, if_neg (show ¬ (2 ≤ 1) by omega),
      if_pos (by simp [hc.self]), ride_skip_all _ _ _ _ (fun t ht => by have := lY t ht; omega)]
  simp only [hride, hc.self, if_true] at h1
  refine ⟨h1.1, h1.2.1, ?_⟩
  rw [h1.2.2]
  congr 1
  simp only [List.length_append, List.length_cons, len]
  omega

/-- All keys put are found whatever the random levels if and only if they were put in strictly decreasing order. -/
theorem all_found_iff_decreasing (comp : Compare K) (hc : comp.ThreeWay) (zk : K) (zv : V) (cs : List (K × V))
    (hd : cs.Pairwise (fun a b => comp a.1 b.1 ≠ 0)) (hz : ∀ e ∈ cs, comp zk e.1 ≠ 0) :
    (∀ es, calls es = cs → ∀ s, run comp zk zv (new zk zv) (puts es) = .ok s → ∀ e ∈ cs, has comp s e.1 = .ok true) ↔
      cs.Pairwise (fun a b => comp b.1 a.1 < 0) := by
  constructor
  · intro H
    have H' : ∀ pre k v post, cs = pre ++ (k, v) :: post → (∀ e ∈ pre, comp e.1 k > 0) ∧ ∀ e ∈ post, comp e.1 k < 0 := by
      rintro pre k v post rfl
      refine (found_always_iff comp hc zk zv pre post k v hd (hz (k, v) (by simp))).1 ?_
      intro es he s hs
      exact H es he s hs (k, v) (by simp)
    clear H hd hz
    induction cs with
    | nil => exact .nil
    | cons c cs ih =>
      refine List.pairwise_cons.2 ⟨fun b hb => (H' [] c.1 c.2 cs rfl).2 b hb, ih ?_⟩
      intro pre k v post e
      obtain ⟨h1, h2⟩ := H' (c :: pre) k v post (by rw [e]; rfl)
      exact ⟨fun x hx => h1 x (List.mem_cons_of_mem _ hx), h2⟩
  · intro hp es he s hs e hmem
    obtain ⟨pre, post, rfl⟩ := List.append_of_mem hmem
    refine (found_always_iff comp hc zk zv pre post e.1 e.2 hd (hz e hmem)).2 ⟨?_, ?_⟩ es he s hs
    · intro x hx
      have := (List.pairwise_append.1 hp).2.2 x hx e List.mem_cons_self
      exact (hc.flip _ _).1 this
    · intro x hx
      exact (List.pairwise_cons.1 (List.pairwise_append.1 hp).2.1).1 x hx

/-! ### The zero key -/

theorem first_highest (T : List (Tower K V)) (hT : T ≠ []) (hh : ∀ t ∈ T, 1 ≤ t.height) :
    ∃ A t B, T = A ++ t :: B ∧ t.height = top T ∧ ∀ a ∈ A, a.height < top T := by
  induction T with
  | nil => exact absurd rfl hT
  | cons x T ih =>
    have hx := hh x List.mem_cons_self
    by_cases hle : top T ≤ x.height
    · exact ⟨[], x, T, rfl, by simp only [top]; omega, by simp⟩
    · have hne : T ≠ [] := by rintro rfl; simp [top] at hle; omega
      obtain ⟨A, t, B, e, h1, h2⟩ := ih hne (fun t ht => hh t (List.mem_cons_of_mem _ ht))
      refine ⟨x :: A, t, B, by rw [e]; rfl, by simp only [top]; omega, ?_⟩
      intro a ha
      rcases List.mem_cons.1 ha with rfl | ha
      · simp only [top]; omega
      · have := h2 a ha; simp only [top]; omega

/-- The zero key in a non-empty list of distinct keys none of which is below it (such as 0 among natural numbers): `Has` is true
    whether or not it is stored, and `Get` returns its value only if its node is the first of the highest ones; otherwise
    `Get` returns the zero value and `Rank` 0. -/
theorem zero_key_exact (comp : Compare K) (hc : comp.ThreeWay) {zk : K} {zv : V} {s : St K V} {A B : List (Tower K V)} {t : Tower K V}
    (h : Built zk zv s (A ++ t :: B)) (ht : t.height = top (A ++ t :: B)) (hA : ∀ a ∈ A, a.height < top (A ++ t :: B))
    (hnn : ∀ x ∈ A ++ t :: B, comp zk x.key ≤ 0) (hd : (A ++ t :: B).Pairwise (fun a b => comp a.key b.key ≠ 0)) :
    has comp s zk = .ok true ∧
    (comp t.key zk = 0 → get comp zv s zk = .ok t.val ∧ rank comp s zk = .ok ((A.length : Int) + 1)) ∧
    (comp t.key zk ≠ 0 → get comp zv s zk = .ok zv ∧ rank comp s zk = .ok 0) := by
  have h1 := lookup_exact comp h zk
  have hpos := top_pos (A ++ t :: B)
  obtain ⟨m, hm⟩ : ∃ m, top (A ++ t :: B) = m + 1 := ⟨_, (Nat.sub_add_cancel hpos).symm⟩
  rw [hm] at h1 ht hA
  rw [seek] at h1
  have hr : ride (fun x => comp x zk != 1) m (start zk zv (A ++ t :: B)) (start zk zv (A ++ t :: B)).rest =
      if comp t.key zk = 0 then ⟨t.key, t.val, B⟩ else start zk zv (A ++ t :: B) := by
    show ride _ m _ (A ++ t :: B) = _
    rw [ride_skip _ _ _ _ _ (fun a ha => by have := hA a ha; omega), ride, if_neg (by omega)]
    by_cases h0 : comp t.key zk = 0
    · rw [if_pos (by simp [h0]), if_pos h0]
      rcases ride_ends (fun x => comp x zk != 1) m ⟨t.key, t.val, B⟩ B with e | ⟨A', t', B', e, g, -, -⟩
      · exact e
      · exfalso
        have hm' : t' ∈ B := by rw [e]; simp
        have h2 := hnn t' (by simp [hm'])
        have h3 := (List.pairwise_cons.1 (List.pairwise_append.1 hd).2.1).1 t' hm'
        simp only [bne_iff_ne, ne_eq] at g
        have h4 : comp t'.key zk ≤ 0 := by rcases hc.range t'.key zk with h | h | h <;> omega
        have h5 : comp t.key t'.key ≤ 0 := hc.trans _ _ _ (by omega) h2
        have h6 : comp t'.key t.key ≤ 0 := hc.trans _ _ _ h4 (by rw [hc.zero_symm h0])
        have := hc.flip t'.key t.key
        have := hc.flip t.key t'.key
        omega
    · have h2 := hnn t (by simp)
      have h3 : comp t.key zk = 1 := by
        have := hc.flip t.key zk
        rcases hc.range t.key zk with h | h | h <;> omega
      rw [if_neg (by simp [h3]), if_neg h0]
  simp only [hr] at h1
  by_cases h0 : comp t.key zk = 0
  · simp only [h0, if_true] at h1
    refine ⟨h1.1, fun _ => ⟨h1.2.1, ?_⟩, fun h => absurd h0 h⟩
    rw [h1.2.2]
    simp only [List.length_append, List.length_cons]
    congr 1; omega
  · simp only [if_neg h0] at h1
    have hs : comp (start zk zv (A ++ t :: B)).key zk = 0 := hc.self _
    simp only [hs, if_true] at h1
    refine ⟨h1.1, fun h => absurd h h0, fun _ => ⟨h1.2.1, ?_⟩⟩
    rw [h1.2.2]
    simp [start]

/-! ### Non-vacuity -/

/-- Keys 5, 7, 3 put in this order: 5 may be missed (7 came later), and may be found. -/
example : (¬ ∀ es, calls es = [(5, 50), (7, 70), (3, 30)] → ∀ s, run cmpInt 0 (0 : Int) (new 0 0) (puts es) = .ok s →
      has cmpInt s 5 = .ok true) ∧
    ∃ es s, calls es = [(5, 50), (7, 70), (3, 30)] ∧ run cmpInt 0 (0 : Int) (new 0 0) (puts es) = .ok s ∧
      has cmpInt s 5 = .ok true ∧ get cmpInt 0 s 5 = .ok 50 ∧ rank cmpInt s 5 = .ok 3 := by
  constructor
  · intro h
    have := (found_always_iff cmpInt cmpInt_threeWay 0 (0 : Int) [] [(7, 70), (3, 30)] 5 50 (by simp [cmpInt]) (by decide)).1 h
    have := this.2 (7, 70) (by simp)
    revert this; decide
  · exact found_sometimes cmpInt cmpInt_threeWay 0 (0 : Int) [] [(7, 70), (3, 30)] 5 50 (by simp [cmpInt])

/-- Keys 3, 5 put in this order: 5 may be missed although nothing was put after it. -/
example : ¬ ∀ es, calls es = [(3, 30), (5, 50)] → ∀ s, run cmpInt 0 (0 : Int) (new 0 0) (puts es) = .ok s →
    has cmpInt s 5 = .ok true := by
  intro h
  have := (found_always_iff cmpInt cmpInt_threeWay 0 (0 : Int) [(3, 30)] [] 5 50 (by simp [cmpInt]) (by decide)).1 h
  have := this.1 (3, 30) (by simp)
  revert this; decide

/-- The hypotheses of `zero_key_exact`: 5 with two levels, then 0 with one; `Get(0)` is not 99. -/
example : ∃ es s, calls es = [(5, 50), (0, 99)] ∧ run cmpInt 0 (0 : Int) (new 0 0) (puts es) = .ok s ∧
    has cmpInt s 0 = .ok true ∧ get cmpInt 0 s 0 = .ok 0 := by
  obtain ⟨d1, d2, h1, h2⟩ := draws_exist
  obtain ⟨s, e, B, -⟩ := puts_distinct cmpInt 0 (0 : Int) [(5, 50, d2), (0, 99, d1)] (by simp [calls, cmpInt])
  refine ⟨_, s, rfl, e, ?_⟩
  have hrow : rowRev [((5 : Int), (50 : Int), d2), (0, 99, d1)] = [(⟨0, 99, 1⟩ : Tower Int Int)] ++ ⟨5, 50, 2⟩ :: [] := by simp [rowRev, h1, h2]
  rw [hrow] at B
  have := zero_key_exact cmpInt cmpInt_threeWay B (by simp [top]) (by simp [top]) (by simp [cmpInt]) (by simp [cmpInt])
  exact ⟨this.1, (this.2.2 (by decide)).1⟩

end Gds.SkipList
