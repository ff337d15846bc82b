import Verif.SkipList.AnyProps

/-! Property C140: the skip list with a comparator that may panic, and a caller that recovers. -/
namespace Gds.SkipList
variable {K V E F : Type}

/-! ### The code with a comparator that may panic

`none` in the place of an answer: the comparator panicked. The panic passes through the list's code, which has no deferred calls, to the caller, who
recovers it; the list is then as the code left it at that moment. -/

/-- A Go closure `func(a, b K) int` (fn/comp.go:11 `fn.Compare`) with state, that panics when it answers `none`. -/
abbrev PComp (K E : Type) := K → K → E → Option Int × E

/-- The inner loops of insert, Delete, search and DeleteRangeByKey (skiplist.go:95-98, 112-114, 279-282, 467-469); `go` is the test of the comparator's
    answer. They write nothing. -/
def goWalkP (go : Int → Prop) [DecidablePred go] (cmp : PComp K E) (s : St K V) (key : K) (i : Nat) (x : Nat) (r : Int) (e : E) :
    Res (Option (Nat × Int) × E) := do
  let f ← s.getFwd x i
  match f with
  | none => pure (some (x, r), e)
  | some y =>
    let c := cmp (s.key y) key e
    match c.1 with
    | none => pure (none, c.2)
    | some a =>
      if go a then do
        let sp ← s.getSpan x i
        goWalkP go cmp s key i y (r + sp) c.2
      else pure (some (x, r), c.2)
partial_fixpoint

/-- The outer loops (skiplist.go:271-284 and, ignoring ranks, 111-117, 466-472): from level `i - 1` down to 0; they write to local variables only. -/
def descendP (go : Int → Prop) [DecidablePred go] (cmp : PComp K E) (s : St K V) (key : K) :
    (i : Nat) → (x : Nat) → (r : Int) → Upd → E → Res (Option (Nat × Upd) × E)
  | 0, x, _, u, e => pure (some (x, u), e)
  | i + 1, x, r, u, e => do
    let w ← goWalkP go cmp s key i x r e
    match w.1 with
    | none => pure (none, w.2)
    | some a => do
      let u ← u.set i a.1 a.2
      descendP go cmp s key i a.1 a.2 u w.2

/-- skiplist.go:93-104, the loop of `search`, which writes nothing. -/
def searchLoopP (cmp : PComp K E) (s : St K V) (key : K) : (i : Nat) → (x : Nat) → (r : Int) → E → Res (Option (Option Nat) × E)
  | 0, _, _, e => pure (some none, e)
  | i + 1, x, r, e => do
    let w ← goWalkP (· ≠ 1) cmp s key i x r e
    match w.1 with
    | none => pure (none, w.2)
    | some a =>
      let c := cmp (s.key a.1) key w.2
      match c.1 with
      | none => pure (none, c.2)
      | some z => if z = 0 then pure (some (some a.1), c.2) else searchLoopP cmp s key i a.1 a.2 c.2

/-- skiplist.go:286-288: the test for a duplicate, evaluated from left to right. -/
def dupP (cmp : PComp K E) (s : St K V) (key : K) (isUnique : Bool) (f : Option Nat) (e : E) : Option Bool × E :=
  if isUnique then
    match f with
    | some y => ((cmp (s.key y) key e).1.map fun a => decide (a = 0), (cmp (s.key y) key e).2)
    | none => (some false, e)
  else (some false, e)

/-- skiplist.go:266-331 `insert`. -/
def insertP (cmp : PComp K E) (s : St K V) (key : K) (val : V) (isUnique : Bool) (draw : UInt64) (e : E) : Res ((St K V × Option Bool) × E) := do
  let d ← descendP (· = 0) cmp s key s.level s.header 0 .empty e
  match d.1 with
  | none => pure ((s, none), d.2)
  | some a => do
    let p ← deref (a.2.upd 0)
    let f ← s.getFwd p 0
    let b := dupP cmp s key isUnique f d.2
    match b.1 with
    | none => pure ((s, none), b.2)
    | some true => pure ((s, some false), b.2)
    | some false => do
      let level ← randomLevel draw
      let s ← insertAt s a.2 key val level
      pure ((s, some true), b.2)

/-- skiplist.go:107-126 `Delete`. -/
def deleteP (cmp : PComp K E) (s : St K V) (key : K) (e : E) : Res ((St K V × Option Bool) × E) := do
  let d ← descendP (· = 0) cmp s key s.level s.header 0 .empty e
  match d.1 with
  | none => pure ((s, none), d.2)
  | some a => do
    let f ← s.getFwd a.1 0
    match f with
    | none => pure ((s, some false), d.2)
    | some x =>
      let c := cmp key (s.key x) d.2
      match c.1 with
      | none => pure ((s, none), c.2)
      | some z =>
        if z = 0 then do
          let s ← deleteNode s x a.2
          pure ((s, some true), c.2)
        else pure ((s, some false), c.2)

/-- skiplist.go:128-135 `DeleteByWholeMapping`; the comparator for the values does not panic. -/
def deleteByWholeMappingP (cmp : PComp K E) (s : St K V) (key : K) (val : V) (valComp : Compare V) (e : E) : Res ((St K V × Option Bool) × E) := do
  let r ← searchLoopP cmp s key s.level s.header 0 e
  match r.1 with
  | none => pure ((s, none), r.2)
  | some none => pure ((s, some false), r.2)
  | some (some n) =>
    if valComp val (s.val n) = 0 then do
      let d ← deleteP cmp s key r.2
      match d.1.2 with
      | none => pure ((d.1.1, none), d.2)
      | some _ => pure ((d.1.1, some true), d.2)
    else pure ((s, some false), r.2)

/-- skiplist.go:137-145 `DeleteKeys`, continuing with a count. -/
def deleteKeysP (cmp : PComp K E) (s : St K V) : List K → Int → E → Res ((St K V × Option Int) × E)
  | [], c, e => pure ((s, some c), e)
  | k :: ks, c, e => do
    let d ← deleteP cmp s k e
    match d.1.2 with
    | none => pure ((d.1.1, none), d.2)
    | some b => deleteKeysP cmp d.1.1 ks (if b then c + 1 else c) d.2

/-- skiplist.go:476-481, the loop of `DeleteRangeByKey`. -/
def rangeLoopP (cmp : PComp K E) (max : K) (u : Upd) (s : St K V) (x : Option Nat) (removed : Nat) (e : E) : Res ((St K V × Option Nat) × E) := do
  match x with
  | none => pure ((s, some removed), e)
  | some x =>
    let c := cmp (s.key x) max e
    match c.1 with
    | none => pure ((s, none), c.2)
    | some z =>
      if z = -1 then do
        let nx ← s.getFwd x 0
        let s ← deleteNode s x u
        rangeLoopP cmp max u s nx (removed + 1) c.2
      else pure ((s, some removed), c.2)
partial_fixpoint

/-- skiplist.go:461-483 `DeleteRangeByKey`. -/
def deleteRangeByKeyP (cmp : PComp K E) (s : St K V) (min max : K) (e : E) : Res ((St K V × Option Nat) × E) := do
  let d ← descendP (· = -1) cmp s min s.level s.header 0 .empty e
  match d.1 with
  | none => pure ((s, none), d.2)
  | some a => do
    let x ← s.getFwd a.1 0
    rangeLoopP cmp max a.2 s x 0 d.2

/-- One call of a history (skiplist.go:69-71, 107-150, 194-200, 461-483, and SetValue of a node reached by First and Next); `none`: the comparator
    panicked in it. -/
def stepP (cmp : PComp K E) (zk : K) (zv : V) (s : St K V) (e : E) : Op K V → Res ((St K V × Option Ans) × E)
  | .put k v d => do let r ← insertP cmp s k v true d e; pure ((r.1.1, r.1.2.map .flag), r.2)
  | .insertUnique k v d => do let r ← insertP cmp s k v true d e; pure ((r.1.1, r.1.2.map .flag), r.2)
  | .insertEquals k v d => do let r ← insertP cmp s k v false d e; pure ((r.1.1, r.1.2.map .flag), r.2)
  | .delete k => do let r ← deleteP cmp s k e; pure ((r.1.1, r.1.2.map .flag), r.2)
  | .deleteByWholeMapping k v c => do let r ← deleteByWholeMappingP cmp s k v c e; pure ((r.1.1, r.1.2.map .flag), r.2)
  | .deleteKeys ks => do let r ← deleteKeysP cmp s ks 0 e; pure ((r.1.1, r.1.2.map .count), r.2)
  | .deleteRange mn mx => do let r ← deleteRangeByKeyP cmp s mn mx e; pure ((r.1.1, r.1.2.map fun m => .count m), r.2)
  | .clear => pure ((clear zk zv s, some .none), e)
  | .setAt i v => do
    let x ← nodeAt s i
    match x with
    | none => pure ((s, some .none), e)
    | some x => pure ((setValue s x v, some .none), e)

/-- A history (skiplist.go:69-483) whose caller recovers the comparator's panics and goes on with the list as it is. -/
def runP (cmp : PComp K E) (zk : K) (zv : V) (s : St K V) (e : E) : List (Op K V) → Res ((St K V × List (Option Ans)) × E)
  | [] => pure ((s, []), e)
  | op :: ops => do
    let r ← stepP cmp zk zv s e op
    let q ← runP cmp zk zv r.1.1 r.2 ops
    pure ((q.1.1, r.1.2 :: q.1.2), q.2)

/-! ### Specification -/

/-- The calls that delete several keys; the others change the list at most once. -/
def Batch : Op K V → Prop
  | .deleteKeys _ => True
  | .deleteRange _ _ => True
  | _ => False

/-- What a call in which the comparator panicked may have done: nothing, unless it is one that deletes several keys. These have deleted up to `m`
    entries, `DeleteKeys` fewer than it was asked for. -/
inductive RaisedStep : Op K V → View K V → View K V → Prop where
  | single {op w} (h : ¬ Batch op) : RaisedStep op w w
  | deleteKeys {ks w L'} (m : Nat) (hm : m < ks.length) (h : Lost m w.shown L') : RaisedStep (.deleteKeys ks) w ⟨w.ins, w.size - m, L', w.stored⟩
  | deleteRange {mn mx w L'} (m : Nat) (hm : m ≤ w.ins) (h : Lost m w.shown L') : RaisedStep (.deleteRange mn mx) w ⟨w.ins, w.size - m, L', w.stored⟩

/-- A history of calls, with `none` for the calls in which the comparator panicked. -/
inductive RaisedRun : List (Op K V) → List (Option Ans) → View K V → View K V → Prop where
  | nil {w} : RaisedRun [] [] w w
  | returned {op a w w1 ops as w'} (h : AnyStep op a w w1) (t : RaisedRun ops as w1 w') : RaisedRun (op :: ops) (some a :: as) w w'
  | raised {op w w1 ops as w'} (h : RaisedStep op w w1) (t : RaisedRun ops as w1 w') : RaisedRun (op :: ops) (none :: as) w w'

/-- The calls that returned. -/
def returned : List (Op K V) → List (Option Ans) → List (Op K V)
  | op :: ops, some _ :: as => op :: returned ops as
  | _ :: ops, none :: as => returned ops as
  | _, _ => []

/-- What they returned. -/
def answers (as : List (Option Ans)) : List Ans := as.filterMap id

/-- The comparator that answers 0 where the other one panics. -/
def fill (cmp : PComp K E) : EComp K E := fun a b e => let r := cmp a b e; (r.1.getD 0, r.2)

/-- A comparator without state. -/
def stateless (cmp : Compare K) : EComp K Unit := fun a b _ => (cmp a b, ())

/-! ### Up to a panic, the calls are those of C131 -/

/-- As long as the one comparator does not panic, it answers like the other. -/
def Agrees (R : E → F → Prop) (p : PComp K E) (q : EComp K F) : Prop :=
  ∀ a b e f x, R e f → (p a b e).1 = some x → (q a b f).1 = x ∧ R (p a b e).2 (q a b f).2

/-- A call with the one comparator panicked and left `stay`, or does what the call with the other does. -/
inductive Tracks (R : E → F → Prop) {α : Type} (stay : St K V → Prop) : Res ((St K V × Option α) × E) → Res ((St K V × α) × (Nat × F)) → Prop
  | raised {s'} (h : stay s') (e' q) : Tracks R stay (.ok ((s', none), e')) q
  | ret {s' a e' c' f'} : R e' f' → Tracks R stay (.ok ((s', some a), e')) (.ok ((s', a), (c', f')))

variable {R : E → F → Prop} {p : PComp K E} {q : EComp K F}
variable {zk : K} {zv : V} {s : St K V} {n : Nat} {I : List (K × V)}

theorem Tracks.keep {R : E → F → Prop} {α : Type} {s : St K V} (e' : E) (q : Res ((St K V × α) × (Nat × F))) : Tracks R (· = s) (.ok ((s, none), e')) q :=
  Tracks.raised (stay := (· = s)) (s' := s) rfl e' q

theorem walkP_spec (S : Sound zk zv s n I) (hA : Agrees R p q) (go : Int → Prop) [DecidablePred go] (key : K) (i : Nat) (L : List Nat) (x : Nat) (hx : Own s x)
    (hi : i < s.height x) (hL : Chain (fun y => s.fwd y i) (s.fwd x i) L) (r : Int) (e : E) (c : Nat) (f : F) (hr : R e f) :
    (∃ e', goWalkP go p s key i x r e = .ok (none, e')) ∨
    ∃ a e' c' f', goWalkP go p s key i x r e = .ok (some a, e') ∧ goWalkE go (counted q) s key i x r (c, f) = .ok (a, (c', f')) ∧ R e' f' := by
  induction L generalizing x r c e f with
  | nil =>
    generalize hf : s.fwd x i = o at hL
    cases hL
    rw [goWalkP, goWalkE]
    simp only [St.getFwd, if_pos hi, Res.bind_ok, hf]
    exact .inr ⟨_, _, _, _, rfl, rfl, hr⟩
  | cons z L ih =>
    generalize hf : s.fwd x i = o at hL
    cases hL with
    | cons hL =>
    obtain ⟨h1, h2, h3⟩ := S.link x i z hx hi hf
    rw [goWalkP, goWalkE]
    simp only [St.getFwd, if_pos hi, Res.bind_ok, hf, counted]
    cases hc : (p (s.key z) key e).1 with
    | none => exact .inl ⟨_, rfl⟩
    | some a =>
      obtain ⟨g1, g2⟩ := hA _ _ _ _ _ hr hc
      simp only [g1]
      by_cases hg : go a
      · simp only [hg, if_true, St.getSpan, if_pos hi, Res.bind_ok]
        exact ih z ⟨Nat.le_of_lt h1, h2⟩ h3 hL _ _ _ _ g2
      · simp only [hg, if_false]
        exact .inr ⟨_, _, _, _, rfl, rfl, g2⟩

theorem descendP_spec (S : Sound zk zv s n I) (hA : Agrees R p q) (go : Int → Prop) [DecidablePred go] (key : K) (i : Nat) (hi : i ≤ 32) (x : Nat)
    (hx : Own s x) (hix : i ≤ s.height x) (r : Int) (u : Upd) (e : E) (c : Nat) (f : F) (hr : R e f) :
    (∃ e', descendP go p s key i x r u e = .ok (none, e')) ∨
    ∃ a e' c' f', descendP go p s key i x r u e = .ok (some a, e') ∧ descendE go (counted q) s key i x r u (c, f) = .ok (a, (c', f')) ∧ R e' f' := by
  induction i generalizing x r u c e f with
  | zero => exact .inr ⟨_, _, _, _, rfl, rfl, hr⟩
  | succ i ih =>
    obtain ⟨L, hL, hn⟩ := S.fin x i hx (by omega)
    rw [descendP, descendE]
    rcases walkP_spec S hA go key i L x hx (by omega) hL r e c f hr with ⟨e1, h1⟩ | ⟨⟨y, r1⟩, e1, c1, f1, h1, h2, h3⟩
    · rw [h1]; exact .inl ⟨_, rfl⟩
    · obtain ⟨y', r', c', e', g1, g2, g3, g4⟩ := S.walk go q key i L x hx (by omega) hL r c f
      rw [h2] at g1
      cases g1
      rw [h1, h2]
      simp only [Res.bind_ok, Upd.set, maxLevel, if_pos (show i < 32 by omega)]
      exact ih (by omega) y g2 (by omega) _ _ _ _ _ h3

theorem searchP_spec (S : Sound zk zv s n I) (hA : Agrees R p q) (key : K) (i : Nat) (x : Nat) (hx : Own s x) (hix : i ≤ s.height x) (r : Int)
    (e : E) (c : Nat) (f : F) (hr : R e f) :
    (∃ e', searchLoopP p s key i x r e = .ok (none, e')) ∨
    ∃ o e' c' f', searchLoopP p s key i x r e = .ok (some o.1, e') ∧ searchLoopE (counted q) s key i x r (c, f) = .ok (o, (c', f')) ∧ R e' f' := by
  induction i generalizing x r c e f with
  | zero => exact .inr ⟨(none, 0), _, _, _, rfl, rfl, hr⟩
  | succ i ih =>
    obtain ⟨L, hL, hn⟩ := S.fin x i hx (by omega)
    rw [searchLoopP, searchLoopE, walkE_eq]
    rcases walkP_spec S hA (· ≠ 1) key i L x hx (by omega) hL r e c f hr with ⟨e1, h1⟩ | ⟨⟨y, r1⟩, e1, c1, f1, h1, h2, h3⟩
    · rw [h1]; exact .inl ⟨_, rfl⟩
    · obtain ⟨y', r', c', e', g1, g2, g3, g4⟩ := S.walk (· ≠ 1) q key i L x hx (by omega) hL r c f
      rw [h2] at g1
      cases g1
      rw [h1, h2]
      simp only [Res.bind_ok, counted]
      cases hc : (p (s.key y) key e1).1 with
      | none => exact .inl ⟨_, rfl⟩
      | some a =>
        obtain ⟨k1, k2⟩ := hA _ _ _ _ _ h3 hc
        simp only [k1]
        by_cases hz : a = 0
        · simp only [hz, if_true]; exact .inr ⟨_, _, _, _, rfl, rfl, k2⟩
        · simp only [hz, if_false]; exact ih y g2 (by omega) _ _ _ _ k2

theorem dupP_spec (hA : Agrees R p q) (s : St K V) (key : K) (uniq : Bool) (o : Option Nat) {e : E} {f : F} (c : Nat) (hr : R e f) :
    (∃ e', dupP p s key uniq o e = (none, e')) ∨
    ∃ b e' c' f', dupP p s key uniq o e = (some b, e') ∧ dupE (counted q) s key uniq o (c, f) = (b, (c', f')) ∧ R e' f' := by
  unfold dupP dupE
  cases uniq with
  | false => exact .inr ⟨_, _, _, _, rfl, rfl, hr⟩
  | true =>
    cases o with
    | none => exact .inr ⟨_, _, _, _, rfl, rfl, hr⟩
    | some y =>
      simp only [if_true, counted]
      cases hc : (p (s.key y) key e).1 with
      | none => exact .inl ⟨_, rfl⟩
      | some a =>
        obtain ⟨k1, k2⟩ := hA _ _ _ _ _ hr hc
        exact .inr ⟨_, _, _, _, rfl, by simp only [counted]; subst k1; rfl, k2⟩

theorem insertP_spec (S : Sound zk zv s n I) (hA : Agrees R p q) (k : K) (v : V) (uniq : Bool) (d : UInt64) {e : E} (c : Nat) {f : F} (hr : R e f) :
    Tracks R (· = s) (insertP p s k v uniq d e) (insertE (counted q) s k v uniq d (c, f)) := by
  have hl1 := S.l1
  have hlv : s.level ≤ s.height s.header := by rw [S.hh]; exact S.l32
  unfold insertP insertE
  rcases descendP_spec S hA (· = 0) k s.level S.l32 s.header S.hdr hlv 0 .empty e c f hr with ⟨e1, h1⟩ | ⟨⟨x, u⟩, e1, c1, f1, h1, h2, h3⟩
  · rw [h1]; exact .keep _ _
  · obtain ⟨x', u', c', e', g1, g2, g3, g4, U, g5, g6⟩ := S.descend (· = 0) q k s.level S.l32 s.header S.hdr hlv 0 .empty c f
    rw [h2] at g1
    cases g1
    obtain ⟨m1, m2, m3⟩ := g5 0 hl1
    rw [h1, h2]
    simp only [Res.bind_ok, m1, deref, St.getFwd, if_pos m3]
    rcases dupP_spec hA s k uniq (s.fwd (U 0) 0) c1 h3 with ⟨e2, i1⟩ | ⟨b, e2, c2, f2, i1, i2, i3⟩
    · rw [i1]; exact .keep _ _
    · rw [i1, i2]
      cases b with
      | true => exact .ret i3
      | false =>
        obtain ⟨H, j1, j2, j3⟩ := randomLevel_ok d
        obtain ⟨s', k1, -⟩ := S.insertAt g5 k v H j2 j3
        simp only [j1, Res.bind_ok, k1]
        exact .ret i3

theorem deleteP_spec (S : Sound zk zv s n I) (hA : Agrees R p q) (k : K) {e : E} (c : Nat) {f : F} (hr : R e f) :
    Tracks R (· = s) (deleteP p s k e) (deleteE (counted q) s k (c, f)) := by
  have hl1 := S.l1
  have hlv : s.level ≤ s.height s.header := by rw [S.hh]; exact S.l32
  unfold deleteP deleteE
  rcases descendP_spec S hA (· = 0) k s.level S.l32 s.header S.hdr hlv 0 .empty e c f hr with ⟨e1, h1⟩ | ⟨⟨x, u⟩, e1, c1, f1, h1, h2, h3⟩
  · rw [h1]; exact .keep _ _
  · obtain ⟨x', u', c', e', g1, g2, g3, g4, U, g5, g6⟩ := S.descend (· = 0) q k s.level S.l32 s.header S.hdr hlv 0 .empty c f
    rw [h2] at g1
    cases g1
    have hx := g6 hl1
    subst hx
    obtain ⟨m1, m2, m3⟩ := g5 0 hl1
    rw [h1, h2]
    simp only [Res.bind_ok, St.getFwd, if_pos m3]
    cases hf : s.fwd (U 0) 0 with
    | none => exact .ret h3
    | some y =>
      simp only [counted]
      cases hc : (p k (s.key y) e1).1 with
      | none => exact .keep _ _
      | some a =>
        obtain ⟨k1, k2⟩ := hA _ _ _ _ _ h3 hc
        simp only [k1]
        by_cases hz : a = 0
        · have hy := S.link _ _ _ m2 m3 hf
          obtain ⟨s', i1, -⟩ := S.deleteNode (Nat.le_refl _) g5 y ⟨hy.1, hy.2.1⟩
          simp only [hz, if_true, i1, Res.bind_ok]
          exact .ret k2
        · simp only [hz, if_false]
          exact .ret k2

theorem mappingP_spec (S : Sound zk zv s n I) (hA : Agrees R p q) (k : K) (v : V) (vc : Compare V) {e : E} (c : Nat) {f : F} (hr : R e f) :
    Tracks R (· = s) (deleteByWholeMappingP p s k v vc e) (deleteByWholeMappingE (counted q) s k v vc (c, f)) := by
  have hlv : s.level ≤ s.height s.header := by rw [S.hh]; exact S.l32
  unfold deleteByWholeMappingP deleteByWholeMappingE
  rcases searchP_spec S hA k s.level s.header S.hdr hlv 0 e c f hr with ⟨e1, h1⟩ | ⟨o, e1, c1, f1, h1, h2, h3⟩
  · rw [h1]; exact .keep _ _
  · rw [h1, h2]
    simp only [Res.bind_ok]
    cases o.1 with
    | none => exact .ret h3
    | some y =>
      by_cases h : vc v (s.val y) = 0
      · simp only [h, if_true]
        have hs := deleteP_spec S hA k c1 h3
        generalize deleteP p s k e1 = x at hs
        generalize deleteE (counted q) s k (c1, f1) = w at hs
        cases hs with
        | raised h => subst h; exact .keep _ _
        | ret h => exact .ret h
      · simp only [h, if_false]
        exact .ret h3

theorem keysP_spec (hA : Agrees R p q) (ks : List K) : ∀ {s : St K V} (_ : Sound zk zv s n I) (r : Int) {e : E} (c : Nat) {f : F} (_ : R e f) {L : List (K × V)} (_ : Listed s L),
    Tracks R (fun s' => ∃ m L', m < ks.length ∧ Sound zk zv s' n I ∧ s'.size = s.size - (m : Nat) ∧ Listed s' L' ∧ Lost m L L')
      (deleteKeysP p s ks r e) (deleteKeysE (counted q) s ks r (c, f)) := by
  induction ks with
  | nil => intro s S r e c f hr L hL; exact .ret hr
  | cons k ks ih =>
    intro s S r e c f hr L hL
    have hs := deleteP_spec S hA k c hr
    obtain ⟨s1, b, c1, e1, g1, g2, g3, g4, g5, g6⟩ := S.deleteE q k c f hL
    rw [deleteKeysP, deleteKeysE, g1]
    rw [g1] at hs
    generalize deleteP p s k e = x at hs
    cases hs with
    | raised h =>
      subst h
      exact .raised ⟨0, L, by simp, S, by simp, hL, Lost.refl _ _⟩ _ _
    | @ret _ _ e2 _ _ h =>
      simp only [Res.bind_ok]
      cases b with
      | false =>
        obtain rfl := g5 rfl
        have := ih S r c1 h hL
        simp only [Bool.false_eq_true, if_false]
        generalize deleteKeysP p s1 ks r e2 = x at this
        generalize deleteKeysE (counted q) s1 ks r (c1, e1) = y at this
        cases this with
        | raised h => obtain ⟨m, L', h1, h2⟩ := h; exact .raised ⟨m, L', by simp; omega, h2⟩ _ _
        | ret h => exact .ret h
      | true =>
        obtain ⟨h1, L1, h2, h3⟩ := g6 rfl
        have := ih g4 (r + 1) c1 h h2
        simp only [if_true]
        generalize deleteKeysP p s1 ks (r + 1) e2 = x at this
        generalize deleteKeysE (counted q) s1 ks (r + 1) (c1, e1) = y at this
        cases this with
        | raised h =>
          obtain ⟨m, L', k1, k2, k3, k4, k5⟩ := h
          exact .raised ⟨m + 1, L', by simp; omega, k2, by rw [k3, h1]; push_cast; omega, k4, by rw [Nat.add_comm]; exact h3.trans k5⟩ _ _
        | ret h => exact .ret h

theorem rangeP_spec (hA : Agrees R p q) (max : K) {u : Upd} {U : Nat → Nat} {l : Nat} (N : List Nat) :
    ∀ {s : St K V} (_ : Sound zk zv s n I) (_ : s.level ≤ l) (_ : Marks s u l U) (o : Option Nat) (_ : Chain (fun y => s.fwd y 0) o N) (_ : ∀ z, z ∈ N → s.header < z ∧ z < s.alloc)
      (r : Nat) {e : E} (c : Nat) {f : F} (_ : R e f) {L : List (K × V)} (_ : Listed s L),
    Tracks R (fun s' => ∃ m L', m ≤ N.length ∧ Sound zk zv s' n I ∧ s'.size = s.size - (m : Nat) ∧ Listed s' L' ∧ Lost m L L')
      (rangeLoopP p max u s o r e) (rangeLoopE (counted q) max u s o r (c, f)) := by
  induction hN : N.length using Nat.strong_induction_on generalizing N with
  | _ w ih =>
  intro s S hl M o hc hm r e c f hr L hL
  cases hc with
  | nil => rw [SkipList.rangeLoopP, SkipList.rangeLoopE]; exact .ret hr
  | @cons y N hc =>
    have hy := hm y (by simp)
    have hyo : Own s y := ⟨by omega, hy.2⟩
    rw [SkipList.rangeLoopP, SkipList.rangeLoopE]
    simp only [counted]
    cases hcc : (p (s.key y) max e).1 with
    | none => exact .raised ⟨0, L, by omega, S, by simp, hL, Lost.refl _ _⟩ _ _
    | some a =>
      obtain ⟨v1, v2⟩ := hA _ _ _ _ _ hr hcc
      simp only [v1]
      by_cases h : a = -1
      · simp only [h, if_true, St.getFwd, if_pos (show 0 < s.height y from S.ht y hyo), Res.bind_ok]
        obtain ⟨s1, i1, i2, i3, i4, i5, i6, i7, i8⟩ := S.deleteNode hl M y hy
        obtain ⟨L1, j1, j2⟩ := i8 L hL
        simp only [i1, Res.bind_ok]
        have hnext : ∃ N1, Chain (fun y => s1.fwd y 0) (s.fwd y 0) N1 ∧ N1.length ≤ N.length ∧ ∀ z ∈ N1, s1.header < z ∧ z < s1.alloc := by
          have hmem : ∀ z ∈ N, s1.header < z ∧ z < s1.alloc := fun z hz => by rw [i6.1, i6.2.1]; exact hm z (by simp [hz])
          generalize s.fwd y 0 = o at hc
          cases hc with
          | nil => exact ⟨[], .nil, Nat.le_refl _, fun z hz => by cases hz⟩
          | @cons w N2 hc =>
            rcases i7 w 0 N2 hc with h3 | ⟨A, B, rfl, h3⟩
            · exact ⟨_, .cons h3, Nat.le_refl _, hmem⟩
            · refine ⟨_, .cons h3, by simp, fun z hz => hmem z ?_⟩
              simp at hz ⊢
              grind
        obtain ⟨N1, n1, n2, n3⟩ := hnext
        have := ih N1.length (by simp at hN; omega) N1 rfl i2 (by omega) i5 _ n1 n3 (r + 1) (c + 1) v2 j1
        simp at hN
        generalize rangeLoopP p max u s1 (s.fwd y 0) (r + 1) (p (s.key y) max e).2 = x at this
        generalize SkipList.rangeLoopE (counted q) max u s1 (s.fwd y 0) (r + 1) (c + 1, (q (s.key y) max f).2) = z at this
        cases this with
        | raised h =>
          obtain ⟨m, L', k1, k2, k3, k4, k5⟩ := h
          exact .raised ⟨m + 1, L', by omega, k2, by rw [k3, i3]; push_cast; omega, k4, by rw [Nat.add_comm]; exact j2.lost.trans k5⟩ _ _
        | ret h => exact .ret h
      · simp only [h, if_false]
        exact .ret v2

theorem deleteRangeP_spec (S : Sound zk zv s n I) (hA : Agrees R p q) (mn mx : K) {e : E} (c : Nat) {f : F} (hr : R e f) {L : List (K × V)} (hL : Listed s L) :
    Tracks R (fun s' => ∃ m L', m ≤ n ∧ Sound zk zv s' n I ∧ s'.size = s.size - (m : Nat) ∧ Listed s' L' ∧ Lost m L L')
      (deleteRangeByKeyP p s mn mx e) (deleteRangeByKeyE (counted q) s mn mx (c, f)) := by
  have hl1 := S.l1
  have hlv : s.level ≤ s.height s.header := by rw [S.hh]; exact S.l32
  unfold deleteRangeByKeyP deleteRangeByKeyE
  rcases descendP_spec S hA (· = -1) mn s.level S.l32 s.header S.hdr hlv 0 .empty e c f hr with ⟨e1, h1⟩ | ⟨⟨x, u⟩, e1, c1, f1, h1, h2, h3⟩
  · rw [h1]; exact .raised ⟨0, L, by omega, S, by simp, hL, Lost.refl _ _⟩ _ _
  · obtain ⟨x', u', c', e', g1, g2, g3, g4, U, g5, g6⟩ := S.descend (· = -1) q mn s.level S.l32 s.header S.hdr hlv 0 .empty c f
    rw [h2] at g1
    cases g1
    have hx := g6 hl1
    subst hx
    obtain ⟨m1, m2, m3⟩ := g5 0 hl1
    obtain ⟨N, hN, hNn⟩ := S.fin _ _ m2 m3
    rw [h1, h2]
    simp only [Res.bind_ok, St.getFwd, if_pos m3]
    have := rangeP_spec hA mx N S (Nat.le_refl _) g5 _ hN (S.own_chain 0 N _ m2 m3 hN) 0 c1 h3 hL
    generalize rangeLoopP p mx u s (s.fwd (U 0) 0) 0 e1 = x at this
    generalize rangeLoopE (counted q) mx u s (s.fwd (U 0) 0) 0 (c1, f1) = z at this
    cases this with
    | raised h => obtain ⟨m, L', k1, k2⟩ := h; exact .raised ⟨m, L', by omega, k2⟩ _ _
    | ret h => exact .ret h

theorem stepP_spec {w : View K V} (h : Behind zk zv s w) (hA : Agrees R p q) (op : Op K V) {e : E} (c : Nat) {f : F} (hr : R e f) :
    Tracks R (fun s' => (¬ Batch op → s' = s) ∧ ∃ w', RaisedStep op w w' ∧ Behind zk zv s' w')
      (stepP p zk zv s e op) (stepE (counted q) zk zv s (c, f) op) := by
  obtain ⟨S, hs, hL⟩ := h
  have hB : Behind zk zv s w := ⟨S, hs, hL⟩
  cases op with
  | put k v d =>
    have := insertP_spec S hA k v true d c hr
    simp only [stepP, stepE]
    generalize insertP p s k v true d e = x at this
    generalize insertE (counted q) s k v true d (c, f) = y at this
    cases this with
    | raised h => subst h; exact .raised ⟨fun _ => rfl, w, .single (fun h => h), hB⟩ _ _
    | ret h => exact .ret h
  | insertUnique k v d =>
    have := insertP_spec S hA k v true d c hr
    simp only [stepP, stepE]
    generalize insertP p s k v true d e = x at this
    generalize insertE (counted q) s k v true d (c, f) = y at this
    cases this with
    | raised h => subst h; exact .raised ⟨fun _ => rfl, w, .single (fun h => h), hB⟩ _ _
    | ret h => exact .ret h
  | insertEquals k v d =>
    have := insertP_spec S hA k v false d c hr
    simp only [stepP, stepE]
    generalize insertP p s k v false d e = x at this
    generalize insertE (counted q) s k v false d (c, f) = y at this
    cases this with
    | raised h => subst h; exact .raised ⟨fun _ => rfl, w, .single (fun h => h), hB⟩ _ _
    | ret h => exact .ret h
  | delete k =>
    have := deleteP_spec S hA k c hr
    simp only [stepP, stepE]
    generalize deleteP p s k e = x at this
    generalize deleteE (counted q) s k (c, f) = y at this
    cases this with
    | raised h => subst h; exact .raised ⟨fun _ => rfl, w, .single (fun h => h), hB⟩ _ _
    | ret h => exact .ret h
  | deleteByWholeMapping k v vc =>
    have := mappingP_spec S hA k v vc c hr
    simp only [stepP, stepE]
    generalize deleteByWholeMappingP p s k v vc e = x at this
    generalize deleteByWholeMappingE (counted q) s k v vc (c, f) = y at this
    cases this with
    | raised h => subst h; exact .raised ⟨fun _ => rfl, w, .single (fun h => h), hB⟩ _ _
    | ret h => exact .ret h
  | deleteKeys ks =>
    have := keysP_spec hA ks S 0 c hr hL
    simp only [stepP, stepE]
    generalize deleteKeysP p s ks 0 e = x at this
    generalize deleteKeysE (counted q) s ks 0 (c, f) = y at this
    cases this with
    | raised h =>
      obtain ⟨m, L', k1, k2, k3, k4, k5⟩ := h
      exact .raised ⟨fun h => absurd trivial h, _, .deleteKeys m k1 k5, k2, by rw [k3, hs], k4⟩ _ _
    | ret h => exact .ret h
  | deleteRange mn mx =>
    have := deleteRangeP_spec S hA mn mx c hr hL
    simp only [stepP, stepE]
    generalize deleteRangeByKeyP p s mn mx e = x at this
    generalize deleteRangeByKeyE (counted q) s mn mx (c, f) = y at this
    cases this with
    | raised h =>
      obtain ⟨m, L', k1, k2, k3, k4, k5⟩ := h
      exact .raised ⟨fun h => absurd trivial h, _, .deleteRange m k1 k5, k2, by rw [k3, hs], k4⟩ _ _
    | ret h => exact .ret h
  | clear => exact .ret hr
  | setAt i v =>
    obtain ⟨o, h1, h2⟩ := S.setAt i v hL
    simp only [stepP, stepE, h1, Res.bind_ok]
    cases o <;> exact .ret hr

theorem agrees_fill (pc : PComp K E) : Agrees (· = ·) pc (fill pc) := by
  rintro a b e _ x rfl hx
  simp [fill, hx]

theorem runP_any (pc : PComp K E) : ∀ (ops : List (Op K V)) {s : St K V} {w : View K V} (_ : Behind zk zv s w) (e : E),
    ∃ s' as e' w', runP pc zk zv s e ops = .ok ((s', as), e') ∧ as.length = ops.length ∧ RaisedRun ops as w w' ∧ Behind zk zv s' w' := by
  intro ops
  induction ops with
  | nil => intro s w h e; exact ⟨s, [], e, w, rfl, rfl, .nil, h⟩
  | cons op ops ih =>
    intro s w h e
    have hs := stepP_spec h (agrees_fill pc) op 0 (rfl : e = e)
    obtain ⟨s1, a, c1, e1, w1, f1, f2, f3, -⟩ := h.step (fill pc) op 0 e
    rw [f1] at hs
    generalize hx : stepP pc zk zv s e op = x at hs
    cases hs with
    | @raised s2 hw e2 =>
      obtain ⟨-, w2, r1, r2⟩ := hw
      obtain ⟨s', as, e', w', g1, g2, g3, g4⟩ := ih r2 e2
      exact ⟨s', none :: as, e', w', by simp only [runP, hx, Res.bind_ok, g1, Res.pure_eq], by simp [g2], .raised r1 g3, g4⟩
    | @ret _ _ e2 =>
      obtain ⟨s', as, e', w', g1, g2, g3, g4⟩ := ih f3 e2
      exact ⟨s', some a :: as, e', w', by simp only [runP, hx, Res.bind_ok, g1, Res.pure_eq], by simp [g2], .returned f2 g3, g4⟩

/-! ### C140 -/

/-- C140: a call in which the comparator panics, other than `DeleteKeys` and `DeleteRangeByKey`, leaves the list as it was: every pointer, span, key, value,
    the level and the size, after any history, with any comparator. -/
theorem raised_unchanged (pc : PComp K E) (zk : K) (zv : V) (e : E) (ops : List (Op K V)) {s : St K V} {as : List (Option Ans)} {e1 : E}
    (h : runP pc zk zv (new zk zv) e ops = .ok ((s, as), e1)) (op : Op K V) (hop : ¬ Batch op) {s' : St K V} {e2 : E}
    (h' : stepP pc zk zv s e1 op = .ok ((s', none), e2)) : s' = s := by
  obtain ⟨s1, as1, e3, w1, h1, -, -, h2⟩ := runP_any pc ops (new_behind (zk := zk) (zv := zv)) e
  rw [h1] at h
  cases h
  have hs := stepP_spec h2 (agrees_fill pc) op 0 (rfl : e1 = e1)
  rw [h'] at hs
  cases hs with
  | raised h => exact h.1 hop

/-- C140: a call of `DeleteKeys` in which the comparator panics leaves the list that `DeleteKeys` with some of the first of its keys, not all of them,
    leaves when it returns. -/
theorem raised_deleteKeys (pc : PComp K E) (zk : K) (zv : V) (e : E) (ops : List (Op K V)) {s : St K V} {as : List (Option Ans)} {e1 : E}
    (h : runP pc zk zv (new zk zv) e ops = .ok ((s, as), e1)) (ks : List K) {s' : St K V} {e2 : E}
    (h' : stepP pc zk zv s e1 (.deleteKeys ks) = .ok ((s', none), e2)) :
    ∃ j < ks.length, ∃ m e3, stepP pc zk zv s e1 (.deleteKeys (ks.take j)) = .ok ((s', some (.count m)), e3) := by
  obtain ⟨s1, as1, e3, w1, h1, -, -, h2, -, hL⟩ := runP_any pc ops (new_behind (zk := zk) (zv := zv)) e
  rw [h1] at h
  cases h
  suffices H : ∀ (ks : List K) {s : St K V} (_ : Sound zk zv s w1.ins w1.stored) {L : List (K × V)} (_ : Listed s L) (r : Int) (e1 : E) {s' : St K V} {e2 : E},
      deleteKeysP pc s ks r e1 = .ok ((s', none), e2) → ∃ j < ks.length, ∃ m e3, deleteKeysP pc s (ks.take j) r e1 = .ok ((s', some m), e3) by
    simp only [stepP] at h' ⊢
    cases hx : deleteKeysP pc s ks 0 e1 with
    | panic => rw [hx] at h'; cases h'
    | hang => rw [hx] at h'; cases h'
    | ok x =>
      obtain ⟨⟨s2, o⟩, e4⟩ := x
      rw [hx] at h'
      cases o with
      | some => cases h'
      | none =>
        cases h'
        obtain ⟨j, hj, m, e5, hm⟩ := H ks h2 hL 0 e1 hx
        exact ⟨j, hj, m, e5, by rw [hm]; rfl⟩
  intro ks
  induction ks with
  | nil => intro s S L hL r e1 s' e2 h; cases h
  | cons k ks ih =>
    intro s S L hL r e1 s' e2 h
    have hs := deleteP_spec S (agrees_fill pc) k 0 (rfl : e1 = e1)
    obtain ⟨s1, b, c1, f1, g1, g2, g3, g4, g5, g6⟩ := S.deleteE (fill pc) k 0 e1 hL
    rw [g1] at hs
    rw [deleteKeysP] at h
    generalize hx : deleteP pc s k e1 = x at hs h
    cases hs with
    | raised h' =>
      subst h'
      cases h
      exact ⟨0, by simp, r, e1, rfl⟩
    | @ret _ _ e3 _ _ hr =>
      simp only [Res.bind_ok] at h
      have : ∃ L1, Listed s1 L1 := by
        cases b with
        | false => obtain rfl := g5 rfl; exact ⟨L, hL⟩
        | true => obtain ⟨-, L1, h2, -⟩ := g6 rfl; exact ⟨L1, h2⟩
      obtain ⟨L1, hL1⟩ := this
      obtain ⟨j, hj, m, e5, hm⟩ := ih g4 hL1 _ e3 h
      refine ⟨j + 1, by simp; omega, m, e5, ?_⟩
      rw [List.take_succ_cons, deleteKeysP, hx]
      exact hm

/-- C140: a history whose comparator panics now and then always returns. Its answers, and what the user sees of the list afterwards, are those of a history
    in which the calls that panicked did nothing, or deleted a part of what they were asked to delete. -/
theorem raised_history (pc : PComp K E) (zk : K) (zv : V) (e : E) (ops : List (Op K V)) :
    ∃ s as e' w, runP pc zk zv (new zk zv) e ops = .ok ((s, as), e') ∧ as.length = ops.length ∧ RaisedRun ops as View.empty w ∧ Seen zk zv s w := by
  obtain ⟨s', as, e', w', h1, h2, h3, h4⟩ := runP_any pc ops (new_behind (zk := zk) (zv := zv)) e
  exact ⟨s', as, e', w', h1, h2, h3, h4.seen⟩

/-- C140: if the comparator, whenever it does not panic, gives the answer of `cmp`, a history without `DeleteKeys` and `DeleteRangeByKey` has the answers,
    and leaves the very list, that the calls that returned have and leave with `cmp` and without the others: as if those had not been made. -/
theorem raised_as_if_absent (cmp : Compare K) (pc : PComp K E) (hc : ∀ a b e x, (pc a b e).1 = some x → x = cmp a b) (zk : K) (zv : V) (e : E)
    (ops : List (Op K V)) (hops : ∀ op ∈ ops, ¬ Batch op) {s : St K V} {as : List (Option Ans)} {e' : E}
    (h : runP pc zk zv (new zk zv) e ops = .ok ((s, as), e')) :
    ∃ c, runE (counted (stateless cmp)) zk zv (new zk zv) (0, ()) (returned ops as) = .ok ((s, answers as), (c, ())) := by
  have hA : Agrees (fun (_ : E) (_ : Unit) => True) pc (stateless cmp) := by
    intro a b e f x _ hx
    exact ⟨(hc a b e x hx).symm, trivial⟩
  suffices H : ∀ (ops : List (Op K V)) (_ : ∀ op ∈ ops, ¬ Batch op) {s0 : St K V} {w : View K V} (_ : Behind zk zv s0 w) (e0 : E) (c0 : Nat) {s : St K V}
      {as : List (Option Ans)} {e' : E}, runP pc zk zv s0 e0 ops = .ok ((s, as), e') →
      ∃ c, runE (counted (stateless cmp)) zk zv s0 (c0, ()) (returned ops as) = .ok ((s, answers as), (c, ())) from H ops hops new_behind e 0 h
  intro ops
  induction ops with
  | nil => intro _ s0 w _ e0 c0 s as e' h; cases h; exact ⟨c0, rfl⟩
  | cons op ops ih =>
    intro hops s0 w hB e0 c0 s as e' h
    have hs := stepP_spec hB hA op c0 (e := e0) (f := ()) trivial
    obtain ⟨s1, a, c1, f1, w1, g1, -, g3, -⟩ := hB.step (stateless cmp) op c0 ()
    rw [g1] at hs
    rw [runP] at h
    generalize hx : stepP pc zk zv s0 e0 op = x at hs h
    cases hs with
    | @raised s2 hw e2 =>
      obtain rfl := hw.1 (hops op (by simp))
      simp only [Res.bind_ok] at h
      cases hy : runP pc zk zv s2 e2 ops with
      | panic => rw [hy] at h; cases h
      | hang => rw [hy] at h; cases h
      | ok y =>
        rw [hy] at h
        cases h
        exact ih (fun o ho => hops o (by simp [ho])) hB e2 c0 hy
    | @ret _ _ e2 =>
      simp only [Res.bind_ok] at h
      cases hy : runP pc zk zv s1 e2 ops with
      | panic => rw [hy] at h; cases h
      | hang => rw [hy] at h; cases h
      | ok y =>
        rw [hy] at h
        cases h
        obtain ⟨c2, g4⟩ := ih (fun o ho => hops o (by simp [ho])) g3 e2 c1 hy
        refine ⟨c2, ?_⟩
        simp only [returned, answers, List.filterMap_cons, id]
        rw [runE, g1]
        simp only [Res.bind_ok]
        simp only [answers, id] at g4
        rw [g4]
        rfl

/-! ### The hypotheses are met -/

/-- A comparator that answers from a script: the third `Put` fails and adds nothing, `DeleteKeys` fails at its second key, when an entry is gone. -/
example : (do
    let r ← runP (E := List (Option Int)) (fun _ _ e => ((e.head?).getD none, e.tail)) (0 : Nat) (0 : Nat)
      (new 0 0) [some 1, some 1, none, some 1, some 0, none] [.put 1 10 4294967294, .put 2 20 4294967294, .put 3 30 4294967294, .deleteKeys [2, 3]]
    let f ← first r.1.1
    let a ← iter r.1.1 f
    pure (r.1.2, r.1.1.size, a.1, r.2)) = .ok ([some (.flag true), some (.flag true), none, none], 1, some (1, 10), []) := by cbv

end Gds.SkipList
