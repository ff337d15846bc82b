import Verif.SkipList.AnyCalls
import Verif.SkipList.Props

/-! Property C131: the skip list under any comparator, even one with state. -/
namespace Gds.SkipList
variable {K V E : Type}

/-! ### The specification -/

/-- What a user can say about the list: insertions since it was empty, its size, what First and Next show, and the pairs stored by insertions and SetValue. -/
structure View (K V : Type) where
  ins : Nat
  size : Int
  shown : List (K × V)
  stored : List (K × V)

/-- The new list. -/
def View.empty : View K V := ⟨0, 0, [], []⟩

/-- What a call may answer and do when the comparator answers anything. -/
inductive AnyStep : Op K V → Ans → View K V → View K V → Prop where
  | put {k v d w L'} (h : Grown (k, v) w.shown L') : AnyStep (.put k v d) (.flag true) w ⟨w.ins + 1, w.size + 1, L', (k, v) :: w.stored⟩
  | putNot {k v d w} : AnyStep (.put k v d) (.flag false) w w
  | insertUnique {k v d w L'} (h : Grown (k, v) w.shown L') : AnyStep (.insertUnique k v d) (.flag true) w ⟨w.ins + 1, w.size + 1, L', (k, v) :: w.stored⟩
  | insertUniqueNot {k v d w} : AnyStep (.insertUnique k v d) (.flag false) w w
  | insertEquals {k v d w L'} (h : Grown (k, v) w.shown L') : AnyStep (.insertEquals k v d) (.flag true) w ⟨w.ins + 1, w.size + 1, L', (k, v) :: w.stored⟩
  | delete {k w L'} (h : Lost 1 w.shown L') : AnyStep (.delete k) (.flag true) w ⟨w.ins, w.size - 1, L', w.stored⟩
  | deleteNot {k w} : AnyStep (.delete k) (.flag false) w w
  | deleteMapping {k v vc w L'} (h : Lost 1 w.shown L') : AnyStep (.deleteByWholeMapping k v vc) (.flag true) w ⟨w.ins, w.size - 1, L', w.stored⟩
  | deleteMappingNot {k v vc w b} : AnyStep (.deleteByWholeMapping k v vc) (.flag b) w w
  | deleteKeys {ks w L'} (m : Nat) (hm : m ≤ ks.length) (h : Lost m w.shown L') : AnyStep (.deleteKeys ks) (.count m) w ⟨w.ins, w.size - m, L', w.stored⟩
  | deleteRange {mn mx w L'} (m : Nat) (hm : m ≤ w.ins) (h : Lost m w.shown L') : AnyStep (.deleteRange mn mx) (.count m) w ⟨w.ins, w.size - m, L', w.stored⟩
  | clear {w} : AnyStep .clear .none w View.empty
  | setAt {i v w k v'} (h : w.shown[i]? = some (k, v')) : AnyStep (.setAt i v) .none w ⟨w.ins, w.size, w.shown.set i (k, v), (k, v) :: w.stored⟩
  | setAtNot {i v w} (h : w.shown.length ≤ i) : AnyStep (.setAt i v) .none w w

/-- How often a call may call the comparator after `n` insertions. -/
def mostCalls (n : Nat) : Op K V → Nat
  | .put _ _ _ => 32 * n + 1
  | .insertUnique _ _ _ => 32 * n + 1
  | .insertEquals _ _ _ => 32 * n + 1
  | .delete _ => 32 * n + 1
  | .deleteByWholeMapping _ _ _ => 64 * n + 33
  | .deleteKeys ks => ks.length * (32 * n + 1)
  | .deleteRange _ _ => 33 * n
  | .clear => 0
  | .setAt _ _ => 0

/-- A history of calls, its answers and how often it may call the comparator. -/
inductive AnyRun : List (Op K V) → List Ans → View K V → View K V → Nat → Prop where
  | nil {w} : AnyRun [] [] w w 0
  | cons {op a w w1 ops as w' B} (h : AnyStep op a w w1) (t : AnyRun ops as w1 w' B) : AnyRun (op :: ops) (a :: as) w w' (mostCalls w.ins op + B)

/-- A value that a lookup may return: the zero value or one that was stored. -/
def Known (zv : V) (w : View K V) (v : V) : Prop := v = zv ∨ ∃ k, (k, v) ∈ w.stored

/-- What the user sees of a list: all lookups return whatever a comparator answers, and find only what was stored. -/
structure Seen (zk : K) (zv : V) (s : St K V) (w : View K V) : Prop where
  size : size s = w.size
  iter : ∃ f, first s = .ok f ∧ Iter.Yields (SkipList.iter s) f w.shown none
  few : w.shown.length ≤ w.ins
  stored : ∀ p ∈ w.shown, p ∈ w.stored
  back : ∃ B, Iter.Yields (backIter s) (last s) B none ∧ B.length ≤ w.ins ∧ ∀ p ∈ B, p ∈ w.stored
  rank : ∀ r, ∃ v, getByRank zv s r = .ok v ∧ Known zv w v
  get : ∀ {E : Type} (cmp : EComp K E) (k : K) (c : Nat) (e : E), ∃ o c' e', getE (counted cmp) s k (c, e) = .ok (o, (c', e')) ∧ c' ≤ c + 32 * (w.ins + 1) ∧
    ∀ v, o = some v → Known zv w v
  rankOf : ∀ {E : Type} (cmp : EComp K E) (k : K) (c : Nat) (e : E), ∃ r c' e', rankE (counted cmp) s k (c, e) = .ok (r, (c', e')) ∧ c' ≤ c + 32 * (w.ins + 1)
  all : ∀ {E : Type} (cmp : EComp K E) (mn mx : K) (c : Nat) (e : E), ∃ b c' e', isInAllRangeE (counted cmp) s mn mx (c, e) = .ok (b, (c', e')) ∧ c' ≤ c + 5
  part : ∀ {E : Type} (cmp : EComp K E) (mn mx : K) (c : Nat) (e : E), ∃ b c' e', isInPartOfRangeE (counted cmp) s mn mx (c, e) = .ok (b, (c', e')) ∧ c' ≤ c + 3
  firstIn : ∀ {E : Type} (cmp : EComp K E) (mn mx : K) (c : Nat) (e : E), firstInRangeE (counted cmp) s mn mx (c, e) = .panic .explicit ∨
    ∃ o c' e', firstInRangeE (counted cmp) s mn mx (c, e) = .ok (o, (c', e')) ∧ c' ≤ c + 32 * w.ins + 6 ∧ ∀ x, o = some x → getKeyValue s x ∈ w.stored
  lastIn : ∀ {E : Type} (cmp : EComp K E) (mn mx : K) (c : Nat) (e : E), lastInRangeE (counted cmp) s mn mx (c, e) = .panic .explicit ∨
    ∃ o c' e', lastInRangeE (counted cmp) s mn mx (c, e) = .ok (o, (c', e')) ∧ c' ≤ c + 32 * w.ins + 6 ∧ ∀ x, o = some x → getKeyValue s x ∈ w.stored

/-! ### Lookups -/

section
variable {zk : K} {zv : V} {s : St K V} {n : Nat} {I : List (K × V)}

theorem Sound.known (S : Sound zk zv s n I) {y : Nat} (h : Own s y) : s.val y = zv ∨ ∃ k, (k, s.val y) ∈ I := by
  by_cases hy : y = s.header
  · exact .inl (hy ▸ S.zero.2)
  · have := h.1
    exact .inr ⟨s.key y, S.ent y (by omega) h.2⟩

theorem chain_iter (S : Sound zk zv s n I) {N : List Nat} {o : Option Nat} (hc : Chain (fun y => s.fwd y 0) o N) (hm : ∀ z ∈ N, s.header < z ∧ z < s.alloc) :
    Iter.Yields (SkipList.iter s) o (N.map (fun y => (s.key y, s.val y))) none := by
  induction hc with
  | nil => exact .nil _
  | @cons y N hc ih =>
    have hy := hm y (by simp)
    refine .cons ?_ (ih (fun z hz => hm z (by simp [hz])))
    simp only [SkipList.iter, next, St.getFwd, if_pos (show 0 < s.height y from S.ht y ⟨by omega, hy.2⟩), Res.bind_ok]
    rfl

theorem chain_back {N : List Nat} {o : Option Nat} (hc : Chain s.back o N) :
    Iter.Yields (backIter s) o (N.map (fun y => (s.key y, s.val y))) none := by
  induction hc with
  | nil => exact .nil _
  | @cons y N hc ih => exact .cons rfl ih

theorem Sound.rankWalk (S : Sound zk zv s n I) (i : Nat) (rk : Int) (N : List Nat) (x : Nat) (hx : Own s x) (hi : i < s.height x)
    (hc : Chain (fun y => s.fwd y i) (s.fwd x i) N) (t : Int) :
    ∃ y t', SkipList.rankWalk s i rk x t = .ok (y, t') ∧ Own s y ∧ i < s.height y := by
  induction N generalizing x t with
  | nil =>
    generalize hf : s.fwd x i = o at hc
    cases hc
    rw [SkipList.rankWalk]
    simp only [St.getFwd, if_pos hi, Res.bind_ok, hf]
    exact ⟨x, t, rfl, hx, hi⟩
  | cons z N ih =>
    generalize hf : s.fwd x i = o at hc
    cases hc with
    | cons hc =>
      obtain ⟨h1, h2, h3⟩ := S.link x i z hx hi hf
      rw [SkipList.rankWalk]
      simp only [St.getFwd, if_pos hi, Res.bind_ok, hf, St.getSpan]
      by_cases h : t + s.span x i ≤ rk
      · rw [if_pos h]
        exact ih z ⟨by omega, h2⟩ h3 hc _
      · rw [if_neg h]
        exact ⟨x, t, rfl, hx, hi⟩

theorem Sound.rankLoop (S : Sound zk zv s n I) (rk : Int) (i : Nat) (x : Nat) (hx : Own s x) (hi : i ≤ s.height x) (t : Int) :
    ∃ v, SkipList.rankLoop zv s rk i x t = .ok v ∧ (v = zv ∨ ∃ k, (k, v) ∈ I) := by
  induction i generalizing x t with
  | zero => exact ⟨zv, rfl, .inl rfl⟩
  | succ i ih =>
    obtain ⟨N, hN, _⟩ := S.fin x i hx (by omega)
    obtain ⟨y, t', g1, g2, g3⟩ := S.rankWalk i rk N x hx (by omega) hN t
    rw [SkipList.rankLoop, g1]
    simp only [Res.bind_ok]
    by_cases h : t' = rk
    · simp only [h, if_true]
      exact ⟨_, rfl, S.known g2⟩
    · simp only [h, if_false]
      exact ih y g2 (by omega) t'

theorem Sound.first (S : Sound zk zv s n I) : s.getFwd s.header 0 = .ok (s.fwd s.header 0) := by
  simp only [St.getFwd, if_pos (show 0 < s.height s.header by rw [S.hh]; omega)]

theorem ite_ret {α : Type} {P : Prop} [Decidable P] {A B : Res α} {Q : Res α → Prop} (ha : Q A) (hb : Q B) : Q (if P then A else B) := by
  split
  · exact ha
  · exact hb

theorem Sound.isInAll (S : Sound zk zv s n I) (cmp : EComp K E) (mn mx : K) (c : Nat) (e : E) :
    ∃ b c' e', isInAllRangeE (counted cmp) s mn mx (c, e) = .ok (b, (c', e')) ∧ c' ≤ c + 5 := by
  unfold isInAllRangeE
  simp only [counted, S.first]
  by_cases h1 : (cmp mn mx e).1 > -1
  · simp only [h1, if_true]; exact ⟨_, _, _, rfl, by omega⟩
  simp only [h1, if_false]
  cases ht : s.tail with
  | none => exact ⟨_, _, _, rfl, by omega⟩
  | some t =>
    simp only
    by_cases h2 : (cmp (s.key t) mn (cmp mn mx e).2).1 = -1
    · simp only [h2, if_true]; exact ⟨_, _, _, rfl, by omega⟩
    by_cases h3 : (cmp (s.key t) mx (cmp (s.key t) mn (cmp mn mx e).2).2).1 = -1
    · simp only [h2, h3, if_true, if_false]; exact ⟨_, _, _, rfl, by omega⟩
    simp only [h2, h3, if_false, Res.bind_ok]
    cases hf : s.fwd s.header 0 with
    | none => exact ⟨_, _, _, rfl, by omega⟩
    | some x =>
      simp only
      exact ite_ret (Q := fun r => ∃ b c' e', r = .ok (b, (c', e')) ∧ c' ≤ c + 5) ⟨_, _, _, rfl, by omega⟩ (ite_ret (Q := fun r => ∃ b c' e', r = .ok (b, (c', e')) ∧ c' ≤ c + 5) ⟨_, _, _, rfl, by omega⟩ ⟨_, _, _, rfl, by omega⟩)

theorem Sound.isInPart (S : Sound zk zv s n I) (cmp : EComp K E) (mn mx : K) (c : Nat) (e : E) :
    ∃ b c' e', isInPartOfRangeE (counted cmp) s mn mx (c, e) = .ok (b, (c', e')) ∧ c' ≤ c + 3 := by
  unfold isInPartOfRangeE
  simp only [counted, S.first]
  by_cases h1 : (cmp mn mx e).1 > -1
  · simp only [h1, if_true]; exact ⟨_, _, _, rfl, by omega⟩
  simp only [h1, if_false]
  cases ht : s.tail with
  | none => exact ⟨_, _, _, rfl, by omega⟩
  | some t =>
    simp only
    by_cases h2 : (cmp (s.key t) mn (cmp mn mx e).2).1 = -1
    · simp only [h2, if_true]; exact ⟨_, _, _, rfl, by omega⟩
    simp only [h2, if_false, Res.bind_ok]
    cases hf : s.fwd s.header 0 with
    | none => exact ⟨_, _, _, rfl, by omega⟩
    | some x =>
      simp only
      exact ite_ret (Q := fun r => ∃ b c' e', r = .ok (b, (c', e')) ∧ c' ≤ c + 3) ⟨_, _, _, rfl, by omega⟩ ⟨_, _, _, rfl, by omega⟩

theorem Sound.place (S : Sound zk zv s n I) (cmp : EComp K E) (k : K) (c : Nat) (e : E) :
    ∃ x u c' e', descendE (· = -1) (counted cmp) s k s.level s.header 0 .empty (c, e) = .ok ((x, u), (c', e')) ∧ c' ≤ c + 32 * n ∧
      s.getFwd x 0 = .ok (s.fwd x 0) ∧ ∀ y, s.fwd x 0 = some y → s.header < y ∧ y < s.alloc := by
  obtain ⟨x, u, c1, e1, f1, f2, f3, f4, U, f5, f6⟩ := S.descend (· = -1) cmp k s.level S.l32 s.header S.hdr (by rw [S.hh]; exact S.l32) 0 .empty c e
  obtain ⟨m1, m2, m3⟩ := f5 0 S.l1
  rw [← f6 S.l1] at m2 m3
  have : s.level * n ≤ 32 * n := Nat.mul_le_mul_right _ S.l32
  refine ⟨x, u, c1, e1, f1, by omega, by simp only [St.getFwd, if_pos m3], fun y hy => ?_⟩
  have := S.link x 0 y m2 m3 hy
  exact ⟨this.1, this.2.1⟩

theorem Sound.firstIn (S : Sound zk zv s n I) (cmp : EComp K E) (mn mx : K) (c : Nat) (e : E) :
    firstInRangeE (counted cmp) s mn mx (c, e) = .panic .explicit ∨
    ∃ o c' e', firstInRangeE (counted cmp) s mn mx (c, e) = .ok (o, (c', e')) ∧ c' ≤ c + 32 * n + 6 ∧ ∀ x, o = some x → getKeyValue s x ∈ I := by
  obtain ⟨b, c1, e1, h1, h2⟩ := S.isInAll cmp mn mx c e
  unfold firstInRangeE
  rw [h1]
  simp only [Res.bind_ok]
  cases b with
  | false => exact .inr ⟨none, c1, e1, rfl, by omega, fun x h => by cases h⟩
  | true =>
    obtain ⟨x, u, c2, e2, g1, g2, g3, g4⟩ := S.place cmp mn c1 e1
    simp only [if_true, g1, Res.bind_ok, g3]
    cases hf : s.fwd x 0 with
    | none => exact .inl rfl
    | some y =>
      right
      simp only [counted]
      have hy := g4 y hf
      exact ite_ret (Q := fun r => ∃ o c' e', r = .ok (o, (c', e')) ∧ c' ≤ c + 32 * n + 6 ∧ ∀ x, o = some x → getKeyValue s x ∈ I) ⟨_, _, _, rfl, by omega, fun x h => (by cases h)⟩
        ⟨_, _, _, rfl, by omega, fun x h => (by cases h; exact S.ent y hy.1 hy.2)⟩

theorem Sound.lastIn (S : Sound zk zv s n I) (cmp : EComp K E) (mn mx : K) (c : Nat) (e : E) :
    lastInRangeE (counted cmp) s mn mx (c, e) = .panic .explicit ∨
    ∃ o c' e', lastInRangeE (counted cmp) s mn mx (c, e) = .ok (o, (c', e')) ∧ c' ≤ c + 32 * n + 6 ∧ ∀ x, o = some x → getKeyValue s x ∈ I := by
  obtain ⟨b, c1, e1, h1, h2⟩ := S.isInAll cmp mn mx c e
  unfold lastInRangeE
  rw [h1]
  simp only [Res.bind_ok]
  cases b with
  | false => exact .inr ⟨none, c1, e1, rfl, by omega, fun x h => by cases h⟩
  | true =>
    obtain ⟨x, u, c2, e2, g1, g2, g3, g4⟩ := S.place cmp mx c1 e1
    simp only [if_true, g1, Res.bind_ok, g3]
    cases hf : s.fwd x 0 with
    | none => exact .inl rfl
    | some y =>
      right
      simp only [counted]
      have hy := g4 y hf
      exact ite_ret (Q := fun r => ∃ o c' e', r = .ok (o, (c', e')) ∧ c' ≤ c + 32 * n + 6 ∧ ∀ x, o = some x → getKeyValue s x ∈ I) ⟨_, _, _, rfl, by omega, fun x h => (by cases h)⟩
        ⟨_, _, _, rfl, by omega, fun x h => (by cases h; exact S.ent y hy.1 hy.2)⟩

/-- The state behind a view. -/
def Behind (zk : K) (zv : V) (s : St K V) (w : View K V) : Prop := Sound zk zv s w.ins w.stored ∧ s.size = w.size ∧ Listed s w.shown

theorem Behind.seen {w : View K V} (h : Behind zk zv s w) : Seen zk zv s w := by
  obtain ⟨S, hs, N, hN, hw⟩ := h
  have h0 : 0 < s.height s.header := by rw [S.hh]; omega
  have hm := S.own_chain 0 N s.header S.hdr h0 hN
  obtain ⟨N', hN', hn⟩ := S.fin s.header 0 S.hdr h0
  obtain rfl := hN.unique hN'
  have hlv : s.level ≤ s.height s.header := by rw [S.hh]; exact S.l32
  have hmul : s.level * (w.ins + 1) ≤ 32 * (w.ins + 1) := Nat.mul_le_mul_right _ S.l32
  refine ⟨hs, ⟨_, S.first, hw ▸ chain_iter S hN hm⟩, by rw [hw]; simpa using hn, ?_, ?_, fun r => S.rankLoop r s.level s.header S.hdr hlv 0, ?_, ?_,
    fun cmp mn mx c e => S.isInAll cmp mn mx c e, fun cmp mn mx c e => S.isInPart cmp mn mx c e, fun cmp mn mx c e => S.firstIn cmp mn mx c e,
    fun cmp mn mx c e => S.lastIn cmp mn mx c e⟩
  · intro p hp
    rw [hw] at hp
    obtain ⟨y, hy, rfl⟩ := List.mem_map.1 hp
    exact S.ent y (hm y hy).1 (hm y hy).2
  · unfold last
    cases ht : s.tail with
    | none => exact ⟨[], .nil _, Nat.zero_le _, fun p hp => by cases hp⟩
    | some t =>
      have h1 := S.tail t ht
      obtain ⟨B, b1, b2, b3⟩ := S.backs t h1
      refine ⟨_, chain_back (.cons b1), by simp; omega, fun p hp => ?_⟩
      obtain ⟨y, hy, rfl⟩ := List.mem_map.1 hp
      rcases List.mem_cons.1 hy with rfl | hy
      · exact S.ent y h1.1 h1.2
      · exact S.ent y (b3 y hy).1 (b3 y hy).2
  · intro E cmp k c e
    obtain ⟨o, c1, e1, f1, f2, f3⟩ := S.search cmp k s.level s.header S.hdr hlv 0 c e
    unfold getE
    rw [f1]
    simp only [Res.bind_ok]
    cases ho : o.1 with
    | none => exact ⟨none, c1, e1, rfl, by omega, fun v h => by cases h⟩
    | some y => exact ⟨_, c1, e1, rfl, by omega, fun v h => by cases h; exact S.known (f3 y ho)⟩
  · intro E cmp k c e
    obtain ⟨o, c1, e1, f1, f2, f3⟩ := S.search cmp k s.level s.header S.hdr hlv 0 c e
    unfold rankE
    rw [f1]
    simp only [Res.bind_ok]
    cases ho : o.1 with
    | none => exact ⟨0, c1, e1, rfl, by omega⟩
    | some y => exact ⟨_, c1, e1, rfl, by omega⟩

/-! ### Calls and histories -/

theorem Behind.step {w : View K V} (h : Behind zk zv s w) (cmp : EComp K E) (op : Op K V) (c : Nat) (e : E) :
    ∃ s' a c' e' w', stepE (counted cmp) zk zv s (c, e) op = .ok ((s', a), (c', e')) ∧ AnyStep op a w w' ∧ Behind zk zv s' w' ∧ c' ≤ c + mostCalls w.ins op := by
  obtain ⟨S, hs, hL⟩ := h
  have hmul : s.level * w.ins ≤ 32 * w.ins := Nat.mul_le_mul_right _ S.l32
  have hmul2 : s.level * (w.ins + 1) ≤ 32 * (w.ins + 1) := Nat.mul_le_mul_right _ S.l32
  have hB : Behind zk zv s w := ⟨S, hs, hL⟩
  cases op with
  | put k v d =>
    obtain ⟨s', b, c', e', h1, h2, h3, h4⟩ := S.insertE cmp k v true d c e hL
    simp only [stepE, h1, Res.bind_ok, mostCalls]
    cases b with
    | false => obtain ⟨rfl, -⟩ := h3 rfl; exact ⟨_, _, _, _, w, rfl, .putNot, hB, by omega⟩
    | true => obtain ⟨a1, a2, L', a3, a4⟩ := h4 rfl; exact ⟨_, _, _, _, _, rfl, .put a4, ⟨a1, by rw [a2, hs], a3⟩, by omega⟩
  | insertUnique k v d =>
    obtain ⟨s', b, c', e', h1, h2, h3, h4⟩ := S.insertE cmp k v true d c e hL
    simp only [stepE, h1, Res.bind_ok, mostCalls]
    cases b with
    | false => obtain ⟨rfl, -⟩ := h3 rfl; exact ⟨_, _, _, _, w, rfl, .insertUniqueNot, hB, by omega⟩
    | true => obtain ⟨a1, a2, L', a3, a4⟩ := h4 rfl; exact ⟨_, _, _, _, _, rfl, .insertUnique a4, ⟨a1, by rw [a2, hs], a3⟩, by omega⟩
  | insertEquals k v d =>
    obtain ⟨s', b, c', e', h1, h2, h3, h4⟩ := S.insertE cmp k v false d c e hL
    simp only [stepE, h1, Res.bind_ok, mostCalls]
    cases b with
    | false => obtain ⟨-, h⟩ := h3 rfl; cases h
    | true => obtain ⟨a1, a2, L', a3, a4⟩ := h4 rfl; exact ⟨_, _, _, _, _, rfl, .insertEquals a4, ⟨a1, by rw [a2, hs], a3⟩, by omega⟩
  | delete k =>
    obtain ⟨s', b, c', e', h1, h2, -, h3, h4, h5⟩ := S.deleteE cmp k c e hL
    simp only [stepE, h1, Res.bind_ok, mostCalls]
    cases b with
    | false => obtain rfl := h4 rfl; exact ⟨_, _, _, _, w, rfl, .deleteNot, hB, by omega⟩
    | true => obtain ⟨a1, L', a2, a3⟩ := h5 rfl; exact ⟨_, _, _, _, _, rfl, .delete a3, ⟨h3, by rw [a1, hs], a2⟩, by omega⟩
  | deleteByWholeMapping k v vc =>
    obtain ⟨s', b, c', e', h1, h2, h3, h4, h5⟩ := S.deleteByWholeMappingE cmp k v vc c e hL
    simp only [stepE, h1, Res.bind_ok, mostCalls]
    rcases h5 with rfl | ⟨a1, L', a2, a3⟩
    · exact ⟨_, _, _, _, w, rfl, .deleteMappingNot, hB, by omega⟩
    · cases b with
      | false => obtain rfl := h4 rfl; exact ⟨_, _, _, _, w, rfl, .deleteMappingNot, hB, by omega⟩
      | true => exact ⟨_, _, _, _, _, rfl, .deleteMapping a3, ⟨h3, by rw [a1, hs], a2⟩, by omega⟩
  | deleteKeys ks =>
    obtain ⟨s', m, c', e', h1, h2, h3, h4, h5, L', h6, h7⟩ := Sound.deleteKeysE cmp ks S 0 c e hL
    simp only [stepE, h1, Res.bind_ok, mostCalls, Int.zero_add]
    have : ks.length * (s.level * w.ins + 1) ≤ ks.length * (32 * w.ins + 1) := Nat.mul_le_mul_left _ (by omega)
    exact ⟨_, _, _, _, _, rfl, .deleteKeys m h2 h7, ⟨h4, by rw [h5, hs], h6⟩, by omega⟩
  | deleteRange mn mx =>
    obtain ⟨s', m, c', e', h1, h2, h3, h4, h5, L', h6, h7⟩ := S.deleteRangeByKeyE cmp mn mx c e hL
    simp only [stepE, h1, Res.bind_ok, mostCalls]
    exact ⟨_, _, _, _, _, rfl, .deleteRange m h2 h7, ⟨h4, by rw [h5, hs], h6⟩, by omega⟩
  | clear =>
    obtain ⟨a1, a2⟩ := init_sound zk zv s
    exact ⟨_, _, _, _, _, rfl, .clear, ⟨a1, rfl, a2⟩, by simp [mostCalls]⟩
  | setAt i v =>
    obtain ⟨o, h1, h2⟩ := S.setAt i v hL
    simp only [stepE, h1, Res.bind_ok, mostCalls]
    cases o with
    | none => exact ⟨_, _, _, _, w, rfl, .setAtNot h2, hB, by omega⟩
    | some x =>
      obtain ⟨k, v', a1, a2, a3⟩ := h2
      exact ⟨_, _, _, _, _, rfl, .setAt a1, ⟨a2, hs, a3⟩, by omega⟩

theorem Behind.run (cmp : EComp K E) (ops : List (Op K V)) : ∀ {s : St K V} {w : View K V} (_ : Behind zk zv s w) (c : Nat) (e : E),
    ∃ s' as c' e' w' B, runE (counted cmp) zk zv s (c, e) ops = .ok ((s', as), (c', e')) ∧ AnyRun ops as w w' B ∧ Behind zk zv s' w' ∧ c' ≤ c + B := by
  induction ops with
  | nil => intro s w h c e; exact ⟨s, [], c, e, w, 0, rfl, .nil, h, by omega⟩
  | cons op ops ih =>
    intro s w h c e
    obtain ⟨s1, a, c1, e1, w1, f1, f2, f3, f4⟩ := h.step cmp op c e
    obtain ⟨s', as, c', e', w', B, g1, g2, g3, g4⟩ := ih f3 c1 e1
    refine ⟨s', a :: as, c', e', w', _, ?_, .cons f2 g2, g3, by omega⟩
    rw [runE, f1]
    simp only [Res.bind_ok, g1]
    rfl

theorem new_behind : Behind zk zv (new zk zv) (View.empty : View K V) := by
  unfold new
  exact ⟨(init_sound zk zv _).1, rfl, (init_sound zk zv _).2⟩

end

/-- C131: whatever the comparator answers, call by call, every history of calls on a new list returns: its answers and what the user sees afterwards are
    among those the specification allows, and the comparator was called at most as often as it says. -/
theorem any_comparator (zk : K) (zv : V) (cmp : EComp K E) (e : E) (ops : List (Op K V)) :
    ∃ s as c e' w B, runE (counted cmp) zk zv (new zk zv) (0, e) ops = .ok ((s, as), (c, e')) ∧ AnyRun ops as View.empty w B ∧ Seen zk zv s w ∧ c ≤ B := by
  obtain ⟨s', as, c', e', w', B, h1, h2, h3, h4⟩ := Behind.run cmp ops (new_behind (zk := zk) (zv := zv)) 0 e
  exact ⟨s', as, c', e', w', B, h1, h2, h3.seen, by omega⟩

end Gds.SkipList
