import Verif.BPlus.Props
import Verif.Go.EComp
import Mathlib.Data.Nat.Log

/-! Property C128: the B+ tree with a comparator that has state, and how often it is called. -/
namespace Gds.BPlus
open BT Tree
variable {K V E : Type} [Inhabited K] [Inhabited V]

/-! ### The code with a comparator that has state -/

/-- bplustree.go:210-224, the binary search in one node. -/
def bsearchE (cmp : EComp K E) (e : E) (t : Tree K V) (node : Option Nat) (key : K) (l hi mid : Nat) : Res ((Nat × Nat × Bool) × E) :=
  if l < hi then do
    let mid := (l + (hi - 1)) / 2
    let v ← t.getVal node mid
    let c := cmp key v.1 e
    if c.1 < 0 then bsearchE cmp c.2 t node key l mid mid
    else if 0 < c.1 then bsearchE cmp c.2 t node key (mid + 1) hi mid
    else .ok ((l, mid, true), c.2)
  else .ok ((l, mid, false), e)
termination_by hi - l

/-- bplustree.go:204-233, the loop of `search`. -/
def searchLoopE (cmp : EComp K E) (e : E) (t : Tree K V) (node : Option Nat) (key : K) : Res ((Option Nat × Nat × Bool) × E) := do
  let n ← t.getNum node
  let r ← bsearchE cmp e t node key 0 n 0
  let lf ← t.getLeaf node
  if lf then
    if r.1.2.2 then .ok ((node, r.1.2.1, true), r.2) else .ok ((node, r.1.1, false), r.2)
  else
    let c ← t.getKid node r.1.1
    searchLoopE cmp r.2 t c key
partial_fixpoint

/-- bplustree.go:200-233 `search` -/
def searchE (cmp : EComp K E) (e : E) (t : Tree K V) (key : K) : Res ((Option Nat × Nat × Bool) × E) :=
  if t.size = 0 then .ok ((none, 0, false), e) else searchLoopE cmp e t t.root key

/-- bplustree.go:49-52 `ContainsKey` -/
def containsKeyE (cmp : EComp K E) (e : E) (t : Tree K V) (key : K) : Res (Bool × E) := do
  let r ← searchE cmp e t key
  .ok (r.1.2.2, r.2)

/-- bplustree.go:70-76 `GetVerify`, the value and the flag as an option -/
def getVerifyE (cmp : EComp K E) (e : E) (t : Tree K V) (key : K) : Res (Option V × E) := do
  let r ← searchE cmp e t key
  if r.1.2.2 then
    let v ← t.getVal r.1.1 r.1.2.1
    .ok (some v.2, r.2)
  else .ok (none, r.2)

/-- bplustree.go:156-160, the loop of the leaf case of `insertNonFull`. -/
def leafShiftE (cmp : EComp K E) (e : E) (t : Tree K V) (node : Option Nat) (key : K) : Nat → Res ((Tree K V × Nat) × E)
  | 0 => .ok ((t, 0), e)
  | pos + 1 => do
    let v ← t.getVal node pos
    let c := cmp key v.1 e
    if c.1 < 0 then
      let t ← t.setVal node (pos + 1) v
      leafShiftE cmp c.2 t node key pos
    else .ok ((t, pos + 1), c.2)

/-- bplustree.go:167-170, the loop of the inner case of `insertNonFull`. -/
def descendPosE (cmp : EComp K E) (e : E) (t : Tree K V) (node : Option Nat) (key : K) : Nat → Res (Nat × E)
  | 0 => .ok (0, e)
  | pos + 1 => do
    let v ← t.getVal node pos
    let c := cmp key v.1 e
    if c.1 < 0 then descendPosE cmp c.2 t node key pos else .ok (pos + 1, c.2)

/-- bplustree.go:154-181 `insertNonFull` -/
def insertNonFullE (cmp : EComp K E) (e : E) (t : Tree K V) (node : Option Nat) (p : K × V) : Res (Tree K V × E) := do
  let lf ← t.getLeaf node
  if lf then
    let n ← t.getNum node
    let r ← leafShiftE cmp e t node p.1 n
    let t ← r.1.1.setVal node r.1.2 p
    let t ← t.setNum node (n + 1)
    .ok ({ t with size := t.size + 1 }, r.2)
  else
    let n ← t.getNum node
    let r ← descendPosE cmp e t node p.1 n
    let c ← t.getKid node r.1
    let cn ← t.getNum c
    if 2 * t.degree - 1 = cn then
      let t ← splitChild t node c r.1
      let v ← t.getVal node r.1
      let a := cmp v.1 p.1 r.2
      let c ← t.getKid node (if a.1 < 0 then r.1 + 1 else r.1)
      insertNonFullE cmp a.2 t c p
    else
      insertNonFullE cmp r.2 t c p
partial_fixpoint

/-- bplustree.go:183-198 `insert`, with the assignment of its result to `bt.root` (bplustree.go:239, 248). -/
def insertE (cmp : EComp K E) (e : E) (t : Tree K V) (p : K × V) : Res (Tree K V × E) := do
  if t.root = none then .ok ({ t with root := none }, e)
  else
    let n ← t.getNum t.root
    if t.degree * 2 - 1 = n then
      let root := t.root
      let node := some t.fresh
      let t := newNode t
      let t ← t.setLeaf node false
      let t ← t.setKid node 0 root
      let t ← splitChild t node root 0
      let r ← insertNonFullE cmp e t node p
      .ok ({ r.1 with root := node }, r.2)
    else
      insertNonFullE cmp e t t.root p

/-- bplustree.go:243-252 `InsertUnique` -/
def insertUniqueE (cmp : EComp K E) (e : E) (t : Tree K V) (key : K) (val : V) : Res (Tree K V × Bool × E) := do
  let b ← containsKeyE cmp e t key
  if !b.1 then
    let r ← insertE cmp b.2 t (key, val)
    .ok (r.1, true, r.2)
  else .ok (t, false, b.2)

/-- bplustree.go:346-349, 361-365, the loop that finds the slot. -/
def findSlotE (cmp : EComp K E) (e : E) (t : Tree K V) (root : Option Nat) (key : K) (i : Nat) : Nat → Res (Nat × E)
  | 0 => .ok (i, e)
  | k + 1 => do
    let v ← t.getVal root i
    let c := cmp v.1 key e
    if c.1 < 0 then findSlotE cmp c.2 t root key (i + 1) k else .ok (i, c.2)

/-- bplustree.go:343-392 `deleteNonOne` -/
def deleteNonOneE (cmp : EComp K E) (e : E) (t : Tree K V) (root : Option Nat) (key : K) : Res (Tree K V × E) := do
  let M := t.degree
  let lf ← t.getLeaf root
  let n ← t.getNum root
  let q ← findSlotE cmp e t root key 0 n
  if lf then
    let v ← t.getVal root q.1
    let a := cmp key v.1 q.2
    if a.1 = 0 then
      let t ← t.copyValsUp root q.1 root (q.1 + 1) (2 * M - 1 - (q.1 + 1))
      let t ← t.setNum root (n - 1)
      .ok ({ t with size := t.size - 1 }, a.2)
    else .ok (t, a.2)
  else
    let y ← t.getKid root q.1
    let z ← if q.1 < n then t.getKid root (q.1 + 1) else .ok none
    let s ← if 0 < q.1 then t.getKid root (q.1 - 1) else .ok none
    let yn ← t.getNum y
    if yn = M - 1 then
      let sn ← if 0 < q.1 then t.getNum s else .ok 0
      if 0 < q.1 ∧ M - 1 < sn then
        let t ← shiftToRightChild t root s y (q.1 - 1)
        deleteNonOneE cmp q.2 t y key
      else
        let zn ← if q.1 < n then t.getNum z else .ok 0
        if q.1 < n ∧ M - 1 < zn then
          let t ← shiftToLeftChild t root y z q.1
          deleteNonOneE cmp q.2 t y key
        else if 0 < q.1 then
          let t ← mergeChild t root s y (q.1 - 1)
          deleteNonOneE cmp q.2 t s key
        else
          let t ← mergeChild t root y z q.1
          deleteNonOneE cmp q.2 t y key
    else
      deleteNonOneE cmp q.2 t y key
partial_fixpoint

/-- bplustree.go:322-341 `delete`, with the assignment of its result to `bt.root` (bplustree.go:104). -/
def deleteRootE (cmp : EComp K E) (e : E) (t : Tree K V) (key : K) : Res (Tree K V × E) := do
  let root := t.root
  let n ← t.getNum root
  if 1 = n then
    let y ← t.getKid root 0
    let z ← t.getKid root 1
    if y ≠ none ∧ z ≠ none then
      let yn ← t.getNum y
      let zn ← t.getNum z
      if t.degree - 1 = yn ∧ t.degree - 1 = zn then
        let t ← mergeChild t root y z 0
        let r ← deleteNonOneE cmp e t y key
        .ok ({ r.1 with root := y }, r.2)
      else deleteNonOneE cmp e t root key
    else deleteNonOneE cmp e t root key
  else deleteNonOneE cmp e t root key

/-- bplustree.go:100-109 `Delete` -/
def deleteE (cmp : EComp K E) (e : E) (t : Tree K V) (key : K) : Res (Tree K V × Bool × E) := do
  let b ← containsKeyE cmp e t key
  if b.1 then
    let r ← deleteRootE cmp b.2 t key
    .ok (r.1, true, r.2)
  else .ok (t, false, b.2)

/-- The calls of a history. -/
inductive ECall (K V : Type) where
  | has (k : K)
  | get (k : K)
  | insertEqual (k : K) (v : V)
  | insertUnique (k : K) (v : V)
  | delete (k : K)

/-- Their answers. -/
inductive EAns (V : Type) where
  | has (b : Bool)
  | get (v : Option V)
  | inserted (b : Bool)
  | deleted (b : Bool)

/-- One call (bplustree.go:49-76, 100-109, 235-252). -/
def stepE (cmp : EComp K E) (e : E) (t : Tree K V) : ECall K V → Res (EAns V × Tree K V × E)
  | .has k => do let r ← containsKeyE cmp e t k; .ok (.has r.1, t, r.2)
  | .get k => do let r ← getVerifyE cmp e t k; .ok (.get r.1, t, r.2)
  | .insertEqual k v => do let r ← insertE cmp e t (k, v); .ok (.inserted true, r.1, r.2)
  | .insertUnique k v => do let r ← insertUniqueE cmp e t k v; .ok (.inserted r.2.1, r.1, r.2.2)
  | .delete k => do let r ← deleteE cmp e t k; .ok (.deleted r.2.1, r.1, r.2.2)

/-- A history (bplustree.go:49-76, 100-109, 235-252). -/
def runE (cmp : EComp K E) (e : E) (t : Tree K V) : List (ECall K V) → Res (List (EAns V) × Tree K V × E)
  | [] => .ok ([], t, e)
  | c :: cs => do
    let a ← stepE cmp e t c
    let r ← runE cmp a.2.2 a.2.1 cs
    .ok (a.1 :: r.1, r.2.1, r.2.2)

/-! ### Specification -/

/-- What a call may do to the entries and answer, when nothing is known of the comparator. -/
inductive AnyStep : List (K × V) → ECall K V → EAns V → List (K × V) → Prop where
  | empty (k) : AnyStep [] (.has k) (.has false) []
  | has (k) (b) (es : List (K × V)) : es ≠ [] → AnyStep es (.has k) (.has b) es
  | absent (k) (es : List (K × V)) : AnyStep es (.get k) (.get none) es
  | present (k) (es : List (K × V)) (x : K × V) : x ∈ es → AnyStep es (.get k) (.get (some x.2)) es
  | equal (k v) (es es' : List (K × V)) : Added (k, v) es es' → AnyStep es (.insertEqual k v) (.inserted true) es'
  | unique (k v) (es es' : List (K × V)) : Added (k, v) es es' → AnyStep es (.insertUnique k v) (.inserted true) es'
  | refused (k v) (es : List (K × V)) : es ≠ [] → AnyStep es (.insertUnique k v) (.inserted false) es
  | kept (k) (es : List (K × V)) : AnyStep es (.delete k) (.deleted false) es
  | deleted (k) (es ms es' : List (K × V)) : es ≠ [] → Smear es ms → (es' = ms ∨ ∃ P x S, ms = P ++ x :: S ∧ es' = P ++ S) →
      AnyStep es (.delete k) (.deleted true) es'

/-- A history of such steps. -/
inductive AnyRun : List (K × V) → List (ECall K V) → List (EAns V) → List (K × V) → Prop where
  | nil {es} : AnyRun es [] [] es
  | cons {es c a es' cs as es''} : AnyStep es c a es' → AnyRun es' cs as es'' → AnyRun es (c :: cs) (a :: as) es''

/-- The most comparator calls of a call on a tree of degree `M` with `n` entries. -/
def callBound (M n : Nat) : ECall K V → Nat
  | .has _ | .get _ => (Nat.log M n + 1) * (Nat.log 2 (2 * M - 1) + 1)
  | .insertEqual _ _ => (Nat.log M n + 2) * (2 * M)
  | .insertUnique _ _ => (Nat.log M n + 1) * (Nat.log 2 (2 * M - 1) + 1) + (Nat.log M n + 2) * (2 * M)
  | .delete _ => (Nat.log M n + 1) * (Nat.log 2 (2 * M - 1) + 1) + (Nat.log M n + 1) * (2 * M)

/-! ### Lookups -/

theorem bsearchE_any (cmp : EComp K E) (t : Tree K V) (q : Nat) (key : K) :
    ∀ (m l hi mid c : Nat) (e : E), hi - l < 2 ^ m → l ≤ hi → hi ≤ 2 * t.degree - 1 →
    ∃ l' mid' ex c' e', bsearchE (counted cmp) (c, e) t (some q) key l hi mid = .ok ((l', mid', ex), (c', e')) ∧ l' ≤ hi ∧
      (ex = true → mid' < hi) ∧ c' ≤ c + m := by
  intro m
  induction m with
  | zero =>
    intro l hi mid c e hm hl hh
    have : ¬ l < hi := by simp at hm; omega
    exact ⟨l, mid, false, c, e, by rw [bsearchE, if_neg this], hl, by simp, by omega⟩
  | succ m ih =>
    intro l hi mid c e hm hl hh
    by_cases hlt : l < hi
    · rw [bsearchE, if_pos hlt]
      generalize hmd : (l + (hi - 1)) / 2 = md
      have hmd1 : l ≤ md := by omega
      have hmd2 : md < hi := by omega
      have hb : md < 2 * t.degree - 1 := by omega
      rw [Nat.pow_succ] at hm
      simp only [getVal, hb, if_true, Res.bind_ok, counted]
      by_cases hc1 : (cmp key (t.h.values q md).1 e).1 < 0
      · simp only [hc1, if_true]
        obtain ⟨l', mid', ex, c', e', h1, h2, h3, h4⟩ := ih l md md (c + 1) (cmp key (t.h.values q md).1 e).2 (by omega) hmd1 (by omega)
        exact ⟨l', mid', ex, c', e', h1, by omega, fun h => by have := h3 h; omega, by omega⟩
      · simp only [hc1, if_false]
        by_cases hc2 : 0 < (cmp key (t.h.values q md).1 e).1
        · simp only [hc2, if_true]
          obtain ⟨l', mid', ex, c', e', h1, h2, h3, h4⟩ := ih (md + 1) hi md (c + 1) (cmp key (t.h.values q md).1 e).2 (by omega) (by omega) hh
          exact ⟨l', mid', ex, c', e', h1, by omega, h3, by omega⟩
        · simp only [hc2, if_false]
          exact ⟨l, md, true, _, _, rfl, by omega, fun _ => hmd2, by omega⟩
    · rw [bsearchE, if_neg hlt]
      exact ⟨l, mid, false, c, e, rfl, hl, by simp, by omega⟩

theorem searchLoopE_any (cmp : EComp K E) (t : Tree K V) (key : K) (hdeg : 2 ≤ t.degree) : ∀ (d : Nat) (b : BT K V d) (c : Nat) (e : E), Rep t.h b →
    b.KidsOcc t.degree → b.vals.length ≤ 2 * t.degree - 1 →
    ∃ q i ex c' e', searchLoopE (counted cmp) (c, e) t (some b.ptr) key = .ok ((some q, i, ex), (c', e')) ∧
      (ex = true → i < 2 * t.degree - 1 ∧ t.h.values q i ∈ b.entries) ∧ c' ≤ c + (d + 1) * (Nat.log 2 (2 * t.degree - 1) + 1) := by
  have hlog : ∀ n, n ≤ 2 * t.degree - 1 → n - 0 < 2 ^ (Nat.log 2 (2 * t.degree - 1) + 1) := by
    intro n hn
    have := Nat.lt_pow_succ_log_self (b := 2) (by omega) (2 * t.degree - 1)
    omega
  intro d
  induction d with
  | zero =>
    intro b c e hr _ hlen
    obtain ⟨p, vs, rfl⟩ := exists_leaf b
    obtain ⟨r1, r2, r3, r4⟩ := (rep_leaf _ _ _).1 hr
    simp only [leaf_ptr, leaf_vals, leaf_entries] at hlen ⊢
    obtain ⟨l', mid', ex, c', e', h1, h2, h3, h4⟩ := bsearchE_any cmp t p key _ 0 vs.length 0 c e (hlog _ hlen) (Nat.zero_le _) hlen
    rw [searchLoopE]
    simp only [getNum, r2, Res.bind_ok, h1, getLeaf, r1, if_true]
    cases ex with
    | true =>
      have h6 := h3 rfl
      refine ⟨p, mid', true, c', e', rfl, fun _ => ⟨by omega, ?_⟩, by omega⟩
      rw [r3 _ h6]; exact List.getElem_mem _
    | false => exact ⟨p, l', false, c', e', rfl, by simp, by omega⟩
  | succ d ih =>
    intro b c e hr hocc hlen
    obtain ⟨p, vs, ks, rfl⟩ := exists_inner b
    obtain ⟨r1, r2, r3, r4, r5, r6⟩ := (rep_inner _ _ _ _).1 hr
    simp only [inner_ptr, inner_vals, inner_entries] at hlen ⊢
    obtain ⟨pos, mid', ex, c1, e1, h1, h2, h3, h4⟩ := bsearchE_any cmp t p key _ 0 vs.length 0 c e (hlog _ hlen) (Nat.zero_le _) hlen
    have hpk : pos < ks.length := by omega
    obtain ⟨A, k, B, hA, hks⟩ : ∃ A k B, A.length = pos ∧ ks = A ++ k :: B :=
      ⟨ks.take pos, ks[pos], ks.drop (pos + 1), by simp; omega, by rw [← List.drop_eq_getElem_cons hpk]; simp⟩
    subst hks
    have hkc : t.h.children p pos = some k.ptr := by
      have : Slots (t.h.children p) (A.map (fun k => some k.ptr) ++ some k.ptr :: B.map (fun k => some k.ptr)) := by simpa using r5
      have := this.at
      simpa [hA] using this
    have hocck := (inner_kidsOcc _ _ _ _).1 hocc k (by simp)
    have hp2 : pos < 2 * t.degree := by omega
    rw [searchLoopE]
    simp only [getNum, r2, Res.bind_ok, h1, getLeaf, r1, Bool.false_eq_true, if_false, getKid, hp2, if_true, hkc]
    obtain ⟨q, i, ex', c', e', f1, f2, f3⟩ := ih k c1 e1 (r6 k (by simp)) hocck.2 hocck.1.2
    refine ⟨q, i, ex', c', e', f1, fun h => ?_, ?_⟩
    · obtain ⟨a1, a2⟩ := f2 h
      exact ⟨a1, by simp [a2]⟩
    · have : (d + 1 + 1) * (Nat.log 2 (2 * t.degree - 1) + 1) = (d + 1) * (Nat.log 2 (2 * t.degree - 1) + 1) + (Nat.log 2 (2 * t.degree - 1) + 1) := by
        rw [Nat.add_mul, Nat.one_mul]
      omega

/-- The depth of a tree, from the number of its entries. -/
theorem Good.depth {t : Tree K V} {d : Nat} {b : BT K V d} (g : Good t b) : d ≤ Nat.log t.degree b.entries.length := by
  have hM := g.pre.deg
  cases d with
  | zero => exact Nat.zero_le _
  | succ d =>
    have h := g.holds.depth_le hM
    apply Nat.le_log_of_pow_le (by omega)
    have : t.degree ^ (d + 1) ≤ 2 * (t.degree ^ d * (t.degree - 1)) := by
      rw [Nat.pow_succ, Nat.mul_left_comm]
      exact Nat.mul_le_mul_left _ (by omega)
    omega

theorem searchE_any (cmp : EComp K E) (t : Tree K V) {d : Nat} (b : BT K V d) (g : Good t b) (key : K) (c : Nat) (e : E) :
    ∃ q i ex c' e', searchE (counted cmp) (c, e) t key = .ok ((q, i, ex), (c', e')) ∧
      (ex = true → ∃ p, q = some p ∧ i < 2 * t.degree - 1 ∧ t.h.values p i ∈ b.entries) ∧ (b.entries = [] → ex = false) ∧
      c' ≤ c + (Nat.log t.degree b.entries.length + 1) * (Nat.log 2 (2 * t.degree - 1) + 1) := by
  unfold searchE
  by_cases h0 : t.size = 0
  · rw [if_pos h0]
    exact ⟨none, 0, false, c, e, rfl, by simp, fun _ => rfl, by omega⟩
  · rw [if_neg h0, g.root]
    obtain ⟨q, i, ex, c', e', h1, h2, h3⟩ := searchLoopE_any cmp t key g.pre.deg d b c e g.pre.rep g.pre.occ g.hi
    refine ⟨some q, i, ex, c', e', h1, fun h => ⟨q, rfl, h2 h⟩, fun h => ?_, h3.trans (Nat.add_le_add_left (Nat.mul_le_mul_right _ (by have := g.depth; omega)) _)⟩
    have := g.size
    rw [h] at this
    exact absurd this (by simpa using h0)

/-! ### Insertions -/

/-- A comparator that is not consistent: the clauses about order in the lemmas of C61 are void for it. -/
abbrev anyCmp : Compare K := fun _ _ => 1

omit [Inhabited V] in
theorem anyCmp_not : ¬ (anyCmp : Compare K).Lawful := fun h => absurd (h.self default) (by simp [anyCmp])

theorem leafShiftE_any (cmp : EComp K E) (q : Nat) (key : K) : ∀ (n : Nat) (t : Tree K V) (c : Nat) (e : E), n < 2 * t.degree - 1 →
    ∃ pos c' e', pos ≤ n ∧ leafShiftE (counted cmp) (c, e) t (some q) key n = .ok (({ t with h := { t.h with
        values := fun x j => if x = q ∧ pos < j ∧ j ≤ n then t.h.values q (j - 1) else t.h.values x j } }, pos), (c', e')) ∧ c' ≤ c + n := by
  intro n
  induction n with
  | zero =>
    intro t c e _
    have : ∀ x j, ¬ (x = q ∧ 0 < j ∧ j ≤ 0) := by intros; omega
    refine ⟨0, c, e, Nat.le_refl _, ?_, by omega⟩
    simp only [leafShiftE, this, if_false]
  | succ n ih =>
    intro t c e hn
    have h1 : n < 2 * t.degree - 1 := by omega
    by_cases hc : (cmp key (t.h.values q n).1 e).1 < 0
    · obtain ⟨pos, c', e', h2, h3, h4⟩ := ih { t with h := { t.h with values := fun x j => if x = q ∧ j = n + 1 then t.h.values q n else t.h.values x j } }
        (c + 1) (cmp key (t.h.values q n).1 e).2 h1
      refine ⟨pos, c', e', by omega, ?_, by omega⟩
      rw [leafShiftE]
      simp only [getVal, setVal, h1, hn, if_true, Res.bind_ok, counted, hc]
      rw [h3]
      simp only [Res.ok.injEq, Prod.mk.injEq, Tree.mk.injEq, Heap.mk.injEq, and_true, true_and]
      funext x j
      grind
    · refine ⟨n + 1, c + 1, (cmp key (t.h.values q n).1 e).2, Nat.le_refl _, ?_, by omega⟩
      have : ∀ x j, ¬ (x = q ∧ n + 1 < j ∧ j ≤ n + 1) := by intros; omega
      rw [leafShiftE]
      simp only [getVal, h1, if_true, Res.bind_ok, counted, hc, if_false, this]

theorem descendPosE_any (cmp : EComp K E) (t : Tree K V) (q : Nat) (key : K) : ∀ (n c : Nat) (e : E), n ≤ 2 * t.degree - 1 →
    ∃ pos c' e', pos ≤ n ∧ descendPosE (counted cmp) (c, e) t (some q) key n = .ok (pos, (c', e')) ∧ c' ≤ c + n := by
  intro n
  induction n with
  | zero => exact fun c e _ => ⟨0, c, e, Nat.le_refl _, rfl, by omega⟩
  | succ n ih =>
    intro c e hn
    have h1 : n < 2 * t.degree - 1 := by omega
    by_cases hc : (cmp key (t.h.values q n).1 e).1 < 0
    · obtain ⟨pos, c', e', h2, h3, h4⟩ := ih (c + 1) (cmp key (t.h.values q n).1 e).2 (by omega)
      refine ⟨pos, c', e', by omega, ?_, by omega⟩
      rw [descendPosE]
      simp only [getVal, h1, if_true, Res.bind_ok, counted, hc]
      exact h3
    · refine ⟨n + 1, c + 1, (cmp key (t.h.values q n).1 e).2, Nat.le_refl _, ?_, by omega⟩
      rw [descendPosE]
      simp only [getVal, h1, if_true, Res.bind_ok, counted, hc, if_false]

theorem insertNonFullE_any (cmp : EComp K E) : ∀ (d : Nat) (t : Tree K V) (b : BT K V d) (x : K × V) (X Y : List Nat) (c : Nat) (e : E), Pre t b X Y →
    b.vals.length < 2 * t.degree - 1 → ∃ t' b' c' e', insertNonFullE (counted cmp) (c, e) t (some b.ptr) x = .ok (t', (c', e')) ∧
      InsPost anyCmp x t t' b b' X Y ∧ c' ≤ c + (d + 1) * (2 * t.degree) := by
  intro d
  induction d with
  | zero =>
    intro t b x X Y c e pre hlen
    obtain ⟨p, vs, rfl⟩ := exists_leaf b
    simp only [leaf_vals, leaf_ptr] at hlen ⊢
    obtain ⟨r1, r2, r3, r4⟩ := (rep_leaf _ _ _).1 pre.rep
    obtain ⟨pos, c', e', h1, h2, h3⟩ := leafShiftE_any cmp p x.1 vs.length t c e hlen
    have hposM : pos < 2 * t.degree - 1 := by omega
    rw [insertNonFullE]
    simp only [getLeaf, r1, Res.bind_ok, if_true, getNum, r2, h2, setVal, hposM, setNum]
    refine ⟨_, leaf p (vs.take pos ++ x :: vs.drop pos), c', e', rfl, ?_, by omega⟩
    have hsplit := List.take_append_drop pos vs
    constructor
    · refine (rep_leaf _ _ _).2 ⟨r1, by simp; omega, ?_, r4⟩
      refine Slots.insert (f := t.h.values p) (by rw [hsplit]; exact r3) (fun j hj => ?_)
      simp at hj ⊢
      grind
    · rfl
    · rfl
    · rfl
    · rfl
    · exact Nat.le_refl _
    · simp
    · intro q hq; exact Or.inl hq
    · intro q _ hq
      simp at hq
      refine ⟨rfl, ?_, ?_, rfl⟩
      · simp [hq]
      · funext j; simp [hq]
    · simp
    · simp; omega
    · simp only [leaf_entries]
      exact ⟨_, _, hsplit.symm, rfl⟩
    · exact pre.ring.congr (fun q hq => ⟨rfl, rfl⟩)
    · exact fun h => absurd h anyCmp_not
    · exact fun h => absurd h anyCmp_not
  | succ d ih =>
    intro t b x X Y c e pre hlen
    obtain ⟨p, vs, ks, rfl⟩ := exists_inner b
    simp only [inner_vals, inner_ptr] at hlen ⊢
    obtain ⟨r1, r2, r3, r4, r5, r6⟩ := (rep_inner _ _ _ _).1 pre.rep
    obtain ⟨pos, c1, e1, h1, h2, h3⟩ := descendPosE_any cmp t p x.1 vs.length c e (by omega)
    have hdeg := pre.deg
    have hpk : pos < ks.length := by omega
    obtain ⟨va, vb, hva, hvs⟩ : ∃ va vb, va.length = pos ∧ vs = va ++ vb := ⟨vs.take pos, vs.drop pos, by simp; omega, by simp⟩
    obtain ⟨A, k, B, hA, hks⟩ : ∃ A k B, A.length = pos ∧ ks = A ++ k :: B :=
      ⟨ks.take pos, ks[pos], ks.drop (pos + 1), by simp; omega, by rw [← List.drop_eq_getElem_cons hpk]; simp⟩
    subst hvs hks
    have hkc : t.h.children p pos = some k.ptr := by
      have : Slots (t.h.children p) (A.map (fun k => some k.ptr) ++ some k.ptr :: B.map (fun k => some k.ptr)) := by simpa using r5
      have := this.at
      simpa [hA] using this
    have hAva : A.length = va.length := by omega
    have hkpre := pre.kid
    have hocck := ((inner_kidsOcc _ _ _ _).1 pre.occ k (by simp)).1
    have hlast : (anyCmp : Compare K).Lawful → ∀ v, va.getLast? = some v → (anyCmp : Compare K) v.1 x.1 ≤ 0 := fun h => absurd h anyCmp_not
    have hfirst : (anyCmp : Compare K).Lawful → ∀ v, vb.head? = some v → (anyCmp : Compare K) x.1 v.1 ≤ 0 := fun h => absurd h anyCmp_not
    have hmul : (d + 1 + 1) * (2 * t.degree) = (d + 1) * (2 * t.degree) + 2 * t.degree := by rw [Nat.add_mul (d + 1), Nat.one_mul]
    rw [insertNonFullE]
    have hp2 : pos < 2 * t.degree := by omega
    simp only [getLeaf, r1, Res.bind_ok, Bool.false_eq_true, if_false, getNum, r2, h2, getKid, hp2, if_true, hkc, hkpre.rep.num_eq]
    by_cases hfull : 2 * t.degree - 1 = k.vals.length
    · have hp_lt : p < t.fresh := pre.lt p (by simp)
      have hnd := pre.nodup
      simp only [inner_ids, List.nodup_cons, List.flatMap_append, List.flatMap_cons, List.mem_append] at hnd
      have hpk' : p ≠ k.ptr := fun h => hnd.1 (Or.inr (Or.inl (h ▸ ptr_mem_ids k)))
      obtain ⟨t1, e1', sp⟩ := splitChild_post t p k.ptr pos hpk' hp_lt (hkpre.lt _ (ptr_mem_ids k)) (by omega) (by omega) (by omega) (by
        intro hl
        have hd : d = 0 := by
          rw [hkpre.rep.isLeaf_eq] at hl; simpa using hl
        subst hd
        have hmem : k.ptr ∈ X ++ List.flatMap leaves A ++ k.leaves ++ (List.flatMap leaves B ++ Y) := by
          obtain ⟨c, ws, rfl⟩ := exists_leaf k
          simp
        obtain ⟨s, hs1, hs2⟩ := hkpre.ring.next_mem hmem
        exact ⟨s, hs1, hkpre.rlt s hs2⟩)
      rw [if_pos hfull]
      have hm : t.degree - 1 < k.vals.length := by omega
      rw [← hA] at sp
      have pre1 := pre.after_split hAva sp hfull.symm hm
      obtain ⟨s1, s2, s3, s4, s5, s6⟩ := (rep_inner _ _ _ _).1 pre1.rep
      have hmid : t1.h.values p pos = k.vals[t.degree - 1] := by have := s3.at; rw [hva] at this; exact this
      have hb1 : pos < 2 * t.degree - 1 := by omega
      have hb2 : pos + 1 < 2 * t.degree := by omega
      have hlenL := splitL_length (M := t.degree) (by omega) k hfull.symm
      have hlenR := splitR_length (M := t.degree) (n := t.fresh) k hfull.symm
      simp only [e1', Res.bind_ok, getVal, sp.degree, hb1, if_true, hmid, counted]
      by_cases hc : (cmp (k.vals[t.degree - 1]).1 x.1 e1).1 < 0
      · -- the right half
        have hkid : t1.h.children p (pos + 1) = some (k.splitR t.degree t.fresh).ptr := by
          have : Slots (t1.h.children p) ((A ++ [k.splitL t.degree]).map (fun k => some k.ptr) ++ some (k.splitR t.degree t.fresh).ptr :: B.map (fun k => some k.ptr)) := by
            simpa using s5
          have := this.at
          simpa [hA] using this
        simp only [hc, if_true, hb2, hkid, Res.bind_ok]
        have pre2 : Pre t1 (inner p ((va ++ [k.vals[t.degree - 1]]) ++ vb) ((A ++ [k.splitL t.degree]) ++ k.splitR t.degree t.fresh :: B)) X Y := by
          simpa using pre1
        obtain ⟨t', k', c', e', he, post, hcount⟩ := ih t1 (k.splitR t.degree t.fresh) x _ _ (c1 + 1) (cmp (k.vals[t.degree - 1]).1 x.1 e1).2 pre2.kid (by rw [sp.degree]; omega)
        have hl := post.len
        have lifted := post.lift pre2 (by simp [hAva]) (by rw [sp.degree]; omega) (fun h => absurd h anyCmp_not) (fun h => absurd h anyCmp_not)
        refine ⟨t', _, c', e', he, InsPost.after_split pre hAva sp hfull.symm hm (ks' := (A ++ [k.splitL t.degree]) ++ k' :: B) (by simpa using lifted), ?_⟩
        rw [sp.degree] at hcount
        omega
      · -- the left half
        have hkid : t1.h.children p pos = some (k.splitL t.degree).ptr := by
          have : Slots (t1.h.children p) (A.map (fun k => some k.ptr) ++ some (k.splitL t.degree).ptr :: some (k.splitR t.degree t.fresh).ptr :: B.map (fun k => some k.ptr)) := by
            simpa using s5
          have := this.at
          simpa [hA] using this
        simp only [hc, if_false, hp2, if_true, hkid, Res.bind_ok]
        obtain ⟨t', k', c', e', he, post, hcount⟩ := ih t1 (k.splitL t.degree) x _ _ (c1 + 1) (cmp (k.vals[t.degree - 1]).1 x.1 e1).2 pre1.kid
          (by rw [sp.degree]; split at hlenL <;> omega)
        have hl := post.len
        have lifted := post.lift pre1 hAva (by rw [sp.degree]; split at hlenL <;> omega) hlast (fun h => absurd h anyCmp_not)
        refine ⟨t', _, c', e', he, InsPost.after_split pre hAva sp hfull.symm hm lifted, ?_⟩
        rw [sp.degree] at hcount
        omega
    · rw [if_neg hfull]
      obtain ⟨t', k', c', e', he, post, hcount⟩ := ih t k x _ _ c1 e1 hkpre (by omega)
      have hl := post.len
      exact ⟨t', _, c', e', he, post.lift pre hAva (by omega) hlast hfirst, by omega⟩

theorem insertE_any (cmp : EComp K E) (t : Tree K V) {d : Nat} (b : BT K V d) (x : K × V) (g : Good t b) (c : Nat) (e : E) :
    ∃ t' d' b' c' e', insertE (counted cmp) (c, e) t x = .ok (t', (c', e')) ∧ Good t' (d := d') b' ∧ t'.degree = t.degree ∧ Added x b.entries b'.entries ∧
      c' ≤ c + (Nat.log t.degree b.entries.length + 2) * (2 * t.degree) := by
  have hdepth := g.depth
  obtain ⟨hroot, pre, hhi, hlo, hsize⟩ := g
  have hdeg := pre.deg
  unfold insertE
  simp only [hroot, reduceCtorEq, if_false, getNum, Res.bind_ok, pre.rep.num_eq]
  by_cases hfull : t.degree * 2 - 1 = b.vals.length
  · rw [if_pos hfull]
    have hkid : 0 < 2 * (newNode t).degree := by show 0 < 2 * t.degree; omega
    simp only [newNode, setLeaf, setKid, Res.bind_ok] at hkid ⊢
    simp only [hkid, if_true, Res.bind_ok]
    generalize ht0 : Tree.mk _ _ _ _ _ = t0
    have f0 : t0.fresh = t.fresh + 1 := by rw [← ht0]
    have d0 : t0.degree = t.degree := by rw [← ht0]
    have s0 : t0.size = t.size := by rw [← ht0]
    have same0 : ∀ q, q < t.fresh → SameAt t.h t0.h q := by
      intro q hq
      have : q ≠ t.fresh := by omega
      rw [← ht0]
      constructor
      · simp [this]
      · simp [this]
      · funext j; simp [this]
      · funext j; simp [this]
    have link0 : ∀ q, q < t.fresh → t0.h.next q = t.h.next q ∧ t0.h.prev q = t.h.prev q := by
      intro q hq
      have : q ≠ t.fresh := by omega
      rw [← ht0]
      simp [this]
    have rep0 : Rep t0.h (inner t.fresh [] [b]) := by
      refine (rep_inner _ _ _ _).2 ⟨by rw [← ht0]; simp, by rw [← ht0]; simp, by intro i hi; simp at hi, by simp, ?_, ?_⟩
      · intro i hi
        simp at hi
        subst hi
        rw [← ht0]; simp
      · intro k hk
        simp at hk
        subst hk
        exact pre.rep.congr (fun q hq => same0 q (pre.lt q hq))
    have pre0 : Pre t0 (inner t.fresh [] [b]) [] [] := by
      have hlv : [] ++ (inner t.fresh [] [b]).leaves ++ [] = [] ++ b.leaves ++ [] := by simp
      refine ⟨rep0, ?_, ?_, by omega, ?_, ?_, ?_, ?_⟩
      · simp only [inner_ids, List.flatMap_cons, List.flatMap_nil, List.append_nil, List.nodup_cons]
        exact ⟨fun h => by have := pre.lt _ h; omega, pre.nodup⟩
      · intro q hq
        simp only [inner_ids, List.flatMap_cons, List.flatMap_nil, List.append_nil, List.mem_cons] at hq
        rcases hq with h | h
        · omega
        · have := pre.lt q h; omega
      · intro k hk
        replace hk : k ∈ [b] := hk
        simp at hk
        subst hk
        rw [d0]
        exact ⟨by omega, pre.occ⟩
      · rw [hlv]
        exact pre.ring.congr (fun q hq => link0 q (pre.rlt q hq))
      · rw [hlv]; exact pre.rnodup
      · rw [hlv]; intro q hq; have := pre.rlt q hq; omega
    have hbf : b.ptr < t.fresh := pre.lt _ (ptr_mem_ids b)
    have rk0 : Rep t0.h b := ((rep_inner _ _ _ _).1 rep0).2.2.2.2.2 b (by simp)
    obtain ⟨t1, e1, sp⟩ := splitChild_post t0 t.fresh b.ptr 0 (by omega) (by omega) (by omega) (by omega) (by omega)
      (by rw [((rep_inner _ _ _ _).1 rep0).2.1]; simp; omega) (by
        intro hl
        have hd : d = 0 := by
          rw [rk0.isLeaf_eq] at hl; simpa using hl
        subst hd
        have hmem : b.ptr ∈ [] ++ b.leaves ++ [] := by
          obtain ⟨c, ws, rfl⟩ := exists_leaf b
          simp
        obtain ⟨s, hs1, hs2⟩ := pre.ring.next_mem hmem
        exact ⟨s, by rw [(link0 _ hbf).1]; exact hs1, by have := pre.rlt s hs2; omega⟩)
    rw [e1]
    simp only [Res.bind_ok]
    have hlen0 : b.vals.length = 2 * t0.degree - 1 := by omega
    have pre1 := Pre.after_split (A := []) (B := []) (va := []) (vb := []) pre0 rfl sp hlen0 (by omega)
    simp only [List.nil_append] at pre1
    obtain ⟨t2, b2, c', e', e2, post, hcount⟩ := insertNonFullE_any cmp (d + 1) t1 _ x [] [] c e pre1 (by simp [sp.degree]; omega)
    obtain ⟨p2, vs2, ks2, rfl⟩ := exists_inner b2
    have hp2 := post.ptr
    simp only [inner_ptr] at hp2 e2
    subst hp2
    rw [e2]
    have hl := post.len
    simp only [inner_vals, List.length_singleton] at hl
    have hpre2 := post.good pre1
    refine ⟨_, d + 1, _, c', e', rfl, ⟨rfl, ⟨hpre2.rep, hpre2.nodup, hpre2.lt, hpre2.deg, hpre2.occ, hpre2.ring.congr (fun q hq => ⟨rfl, rfl⟩), hpre2.rnodup, hpre2.rlt⟩,
      ?_, ?_, ?_⟩, ?_, ?_, ?_⟩
    · show (inner _ vs2 ks2).vals.length ≤ 2 * t2.degree - 1
      rw [post.degree, sp.degree, d0]
      simp only [inner_vals]
      omega
    · intro _; simp only [inner_vals]; omega
    · show t2.size = _
      rw [post.size, sp.size, s0, hsize, post.entries.perm.length_eq]
      simp only [inner_entries, List.flatMap_cons, List.flatMap_nil, List.append_nil, List.length_cons]
      rw [split_entries]
      simp
    · show t2.degree = _
      rw [post.degree, sp.degree, d0]
    · have := post.entries
      simp only [inner_entries, List.flatMap_cons, List.flatMap_nil, List.append_nil] at this
      rwa [split_entries] at this
    · rw [sp.degree, d0] at hcount
      exact hcount.trans (Nat.add_le_add_left (Nat.mul_le_mul_right _ (by omega)) _)
  · rw [if_neg hfull]
    obtain ⟨t', b', c', e', he, post, hcount⟩ := insertNonFullE_any cmp d t b x [] [] c e pre (by omega)
    have hl := post.len
    refine ⟨t', d, b', c', e', he, ⟨by rw [post.root, hroot, post.ptr], post.good pre, by rw [post.degree]; omega, fun h => ?_, ?_⟩, post.degree, post.entries,
      hcount.trans (Nat.add_le_add_left (Nat.mul_le_mul_right _ (by omega)) _)⟩
    · have := hlo h; omega
    · rw [post.size, hsize, post.entries.perm.length_eq]; simp

end Gds.BPlus
