import Verif.SkipList.AnyProps
import Verif.SkipList.Rows

/-! Property C131, the link: with a comparator without state the model with state does what the model without does. -/
namespace Gds.SkipList
variable {K V E : Type}

/-- The answers of `cmp` are those of `comp`, whatever its state. -/
abbrev Answers (cmp : EComp K E) (comp : Compare K) : Prop := ∀ a b e, (cmp a b e).1 = comp a b

theorem answers_counted {cmp : EComp K E} {comp : Compare K} (h : Answers cmp comp) : Answers (counted cmp) comp := fun a b e => h a b e.2

section
variable {zk : K} {zv : V} {s : St K V} {n : Nat} {I : List (K × V)} {cmp : EComp K E} {comp : Compare K}

theorem Sound.walk_agrees (S : Sound zk zv s n I) (hp : Answers cmp comp) (go : Int → Prop) [DecidablePred go] (key : K) (i : Nat) (L : List Nat) (x : Nat) (hx : Own s x)
    (hi : i < s.height x) (hL : Chain (fun y => s.fwd y i) (s.fwd x i) L) (r : Int) (e : E) :
    ∃ y r' e', goWalkE go cmp s key i x r e = .ok ((y, r'), e') ∧ SkipList.walk s i (fun k => decide (go (comp k key))) x r = .ok (y, r') ∧ Own s y ∧ i < s.height y := by
  induction L generalizing x r e with
  | nil =>
    generalize hf : s.fwd x i = o at hL
    cases hL
    rw [goWalkE, SkipList.walk]
    simp only [St.getFwd, if_pos hi, Res.bind_ok, hf]
    exact ⟨x, r, e, rfl, rfl, hx, hi⟩
  | cons z L ih =>
    generalize hf : s.fwd x i = o at hL
    cases hL with
    | cons hL =>
    obtain ⟨h1, h2, h3⟩ := S.link x i z hx hi hf
    rw [goWalkE, SkipList.walk]
    simp only [St.getFwd, if_pos hi, Res.bind_ok, hf, hp]
    by_cases hg : go (comp (s.key z) key)
    · simp only [hg, decide_true, if_true, St.getSpan, if_pos hi, Res.bind_ok]
      exact ih z ⟨Nat.le_of_lt h1, h2⟩ h3 hL (r + s.span x i) (cmp (s.key z) key e).2
    · simp only [hg, decide_false, if_false, Bool.false_eq_true]
      exact ⟨x, r, _, rfl, rfl, hx, hi⟩

theorem Sound.descend_agrees (S : Sound zk zv s n I) (hp : Answers cmp comp) (go : Int → Prop) [DecidablePred go] (key : K) (i : Nat) (hi : i ≤ 32) (x : Nat) (hx : Own s x)
    (hix : i ≤ s.height x) (r : Int) (u : Upd) (e : E) :
    ∃ x' u' e', descendE go cmp s key i x r u e = .ok ((x', u'), e') ∧ SkipList.descend s (fun k => decide (go (comp k key))) i x r u = .ok (x', u') := by
  induction i generalizing x r u e with
  | zero => exact ⟨x, u, e, rfl, rfl⟩
  | succ i ih =>
    obtain ⟨L, hL, hn⟩ := S.fin x i hx (by omega)
    obtain ⟨y, r1, e1, g1, g2, g3, g4⟩ := S.walk_agrees hp go key i L x hx (by omega) hL r e
    rw [descendE, SkipList.descend, g1, g2]
    simp only [Res.bind_ok, Upd.set, maxLevel, if_pos (show i < 32 by omega)]
    exact ih (by omega) y g3 (by omega) r1 _ e1

theorem Sound.search_agrees (S : Sound zk zv s n I) (hp : Answers cmp comp) (key : K) (i : Nat) (x : Nat) (hx : Own s x) (hix : i ≤ s.height x) (r : Int) (e : E) :
    ∃ o e', searchLoopE cmp s key i x r e = .ok (o, e') ∧ SkipList.searchLoop comp s key i x r = .ok o := by
  induction i generalizing x r e with
  | zero => exact ⟨(none, 0), e, rfl, rfl⟩
  | succ i ih =>
    obtain ⟨L, hL, hn⟩ := S.fin x i hx (by omega)
    obtain ⟨y, r1, e1, g1, g2, g3, g4⟩ := S.walk_agrees hp (· ≠ 1) key i L x hx (by omega) hL r e
    have hc : (fun k => decide (comp k key ≠ 1)) = (fun k => comp k key != 1) := by funext k; by_cases h : comp k key = 1 <;> simp [h, bne]
    rw [hc] at g2
    rw [searchLoopE, walkE_eq, g1, searchLoop, g2]
    simp only [Res.bind_ok, hp]
    by_cases h : comp (s.key y) key = 0
    · simp only [h, if_true]; exact ⟨_, _, rfl, rfl⟩
    · simp only [h, if_false]
      exact ih y g3 (by omega) r1 _

theorem cond_eq (a : Int) (key : K) : (fun k => decide (comp k key = a)) = (fun k => comp k key == a) := by
  funext k; by_cases h : comp k key = a <;> simp [h]

theorem dupE_agrees (hp : Answers cmp comp) (s : St K V) (key : K) (uniq : Bool) (f : Option Nat) (e : E) :
    ∃ e', dupE cmp s key uniq f e = ((match f with
      | some y => uniq && comp (s.key y) key == 0
      | none => false), e') := by
  unfold dupE
  cases uniq <;> cases f <;> simp [hp]
  exact by_contra (fun h => h (by simp [BEq.beq]))

theorem Sound.insert_agrees (S : Sound zk zv s n I) (hp : Answers cmp comp) (k : K) (v : V) (uniq : Bool) (d : UInt64) (e : E) (r : St K V × Bool)
    (h : SkipList.insert comp s k v uniq d = .ok r) : ∃ e', SkipList.insertE cmp s k v uniq d e = .ok (r, e') := by
  obtain ⟨x, u, e1, f1, f2⟩ := S.descend_agrees hp (· = 0) k s.level S.l32 s.header S.hdr (by rw [S.hh]; exact S.l32) 0 .empty e
  rw [cond_eq] at f2
  unfold SkipList.insert at h
  unfold SkipList.insertE
  rw [f2] at h
  rw [f1]
  simp only [Res.bind_ok] at h ⊢
  cases hu : u.upd 0 with
  | none => rw [hu] at h; cases h
  | some p =>
    rw [hu] at h
    simp only [deref, Res.bind_ok] at h ⊢
    cases hf : s.getFwd p 0 with
    | panic q => rw [hf] at h; cases h
    | hang => rw [hf] at h; cases h
    | ok f =>
      rw [hf] at h
      simp only [Res.bind_ok] at h ⊢
      obtain ⟨e2, he2⟩ := dupE_agrees hp s k uniq f e1
      rw [he2]
      simp only
      have fin : ∀ b : Bool, (if b = true then pure (s, false) else (do
          let level ← randomLevel d
          let s ← SkipList.insertAt s u k v level
          pure (s, true)) : Res (St K V × Bool)) = .ok r →
        ∃ e', (if b = true then pure ((s, false), e2) else (do
          let level ← randomLevel d
          let s ← SkipList.insertAt s u k v level
          pure ((s, true), e2)) : Res ((St K V × Bool) × E)) = .ok (r, e') := by
        intro b h
        cases b with
        | true => cases h; exact ⟨_, rfl⟩
        | false =>
          simp only [Bool.false_eq_true, if_false] at h ⊢
          cases hl : randomLevel d with
          | panic q => rw [hl] at h; cases h
          | hang => rw [hl] at h; cases h
          | ok lv =>
            rw [hl] at h
            simp only [Res.bind_ok] at h ⊢
            cases hi : SkipList.insertAt s u k v lv with
            | panic q => rw [hi] at h; cases h
            | hang => rw [hi] at h; cases h
            | ok s' =>
              rw [hi] at h
              cases h
              exact ⟨_, rfl⟩
      cases f with
      | none => exact fin _ h
      | some y => exact fin _ h

theorem Sound.delete_agrees (S : Sound zk zv s n I) (hp : Answers cmp comp) (k : K) (e : E) (r : St K V × Bool)
    (h : SkipList.delete comp s k = .ok r) : ∃ e', SkipList.deleteE cmp s k e = .ok (r, e') := by
  obtain ⟨x, u, e1, f1, f2⟩ := S.descend_agrees hp (· = 0) k s.level S.l32 s.header S.hdr (by rw [S.hh]; exact S.l32) 0 .empty e
  rw [cond_eq] at f2
  unfold SkipList.delete at h
  unfold SkipList.deleteE
  rw [f2] at h
  rw [f1]
  simp only [Res.bind_ok] at h ⊢
  cases hf : s.getFwd x 0 with
  | panic q => rw [hf] at h; cases h
  | hang => rw [hf] at h; cases h
  | ok f =>
    rw [hf] at h
    simp only [Res.bind_ok] at h ⊢
    cases f with
    | none => cases h; exact ⟨_, rfl⟩
    | some y =>
      simp only [hp] at h ⊢
      by_cases hc : comp k (s.key y) = 0
      · simp only [hc, if_true] at h ⊢
        cases hd : SkipList.deleteNode s y u with
        | panic q => rw [hd] at h; cases h
        | hang => rw [hd] at h; cases h
        | ok s' => rw [hd] at h; cases h; exact ⟨_, rfl⟩
      · simp only [hc, if_false] at h ⊢
        cases h; exact ⟨_, rfl⟩

theorem Sound.mapping_agrees (S : Sound zk zv s n I) (hp : Answers cmp comp) (k : K) (v : V) (vc : Compare V) (e : E) (r : St K V × Bool)
    (h : SkipList.deleteByWholeMapping comp s k v vc = .ok r) : ∃ e', SkipList.deleteByWholeMappingE cmp s k v vc e = .ok (r, e') := by
  obtain ⟨o, e1, f1, f2⟩ := S.search_agrees hp k s.level s.header S.hdr (by rw [S.hh]; exact S.l32) 0 e
  unfold SkipList.deleteByWholeMapping SkipList.search at h
  unfold SkipList.deleteByWholeMappingE
  rw [f2] at h
  rw [f1]
  simp only [Res.bind_ok] at h ⊢
  cases ho : o.1 with
  | none => rw [ho] at h; cases h; exact ⟨_, rfl⟩
  | some y =>
    rw [ho] at h
    simp only at h ⊢
    by_cases hc : vc v (s.val y) = 0
    · simp only [hc, if_true] at h ⊢
      cases hd : SkipList.delete comp s k with
      | panic q => rw [hd] at h; cases h
      | hang => rw [hd] at h; cases h
      | ok q =>
        rw [hd] at h
        cases h
        obtain ⟨e2, he2⟩ := S.delete_agrees hp k e1 q hd
        simp only [he2, Res.bind_ok]
        exact ⟨_, rfl⟩
    · simp only [hc, if_false] at h ⊢
      cases h; exact ⟨_, rfl⟩

end

section
variable {zk : K} {zv : V} {n : Nat} {I : List (K × V)} {cmp : EComp K E} {comp : Compare K}

theorem keys_agree (hp : Answers cmp comp) (ks : List K) : ∀ {s : St K V} (_ : Sound zk zv s n I) (c : Int) (ce : Nat) (e : E) {L : List (K × V)} (_ : Listed s L)
    (r : St K V × Int) (_ : SkipList.deleteKeys comp s ks c = .ok r), ∃ e', SkipList.deleteKeysE (counted cmp) s ks c (ce, e) = .ok (r, e') := by
  induction ks with
  | nil => intro s S c ce e L hL r h; cases h; exact ⟨_, rfl⟩
  | cons k ks ih =>
    intro s S c ce e L hL r h
    rw [SkipList.deleteKeys] at h
    cases hd : SkipList.delete comp s k with
    | panic q => rw [hd] at h; cases h
    | hang => rw [hd] at h; cases h
    | ok q =>
      rw [hd] at h
      simp only [Res.bind_ok] at h
      obtain ⟨⟨c1, e1⟩, he⟩ := S.delete_agrees (answers_counted hp) k (ce, e) q hd
      obtain ⟨s1, b, c2, e2, g1, g2, g3, g4, g5, g6⟩ := S.deleteE cmp k ce e hL
      rw [SkipList.deleteKeysE, he]
      rw [he] at g1
      cases g1
      simp only [Res.bind_ok]
      have : ∃ L', Listed s1 L' := by
        cases b with
        | false => rw [g5 rfl]; exact ⟨L, hL⟩
        | true => obtain ⟨_, L', h1, _⟩ := g6 rfl; exact ⟨L', h1⟩
      obtain ⟨L', h'⟩ := this
      exact ih g4 _ _ _ h' r h

theorem range_agrees (hp : Answers cmp comp) (mx : K) (u : Upd) {U : Nat → Nat} {l : Nat} (N : List Nat) :
    ∀ {s : St K V} (_ : Sound zk zv s n I) (_ : s.level ≤ l) (_ : Marks s u l U) (o : Option Nat) (_ : Chain (fun y => s.fwd y 0) o N) (_ : ∀ z, z ∈ N → s.header < z ∧ z < s.alloc)
      (q : Nat) (e : E) (r : St K V × Nat) (_ : SkipList.rangeLoop comp mx u s o q = .ok r), ∃ e', SkipList.rangeLoopE cmp mx u s o q e = .ok (r, e') := by
  induction hN : N.length using Nat.strong_induction_on generalizing N with
  | _ m ih =>
  intro s S hl M o hc hm q e r h
  cases hc with
  | nil =>
    rw [SkipList.rangeLoop] at h
    rw [SkipList.rangeLoopE]
    cases h; exact ⟨_, rfl⟩
  | @cons y N hc =>
    have hy := hm y (by simp)
    have hyo : Own s y := ⟨by omega, hy.2⟩
    rw [SkipList.rangeLoop] at h
    rw [SkipList.rangeLoopE]
    simp only [hp] at h ⊢
    by_cases hb : comp (s.key y) mx = -1
    · simp only [hb, if_true, St.getFwd, if_pos (show 0 < s.height y from S.ht y hyo), Res.bind_ok] at h ⊢
      obtain ⟨s1, i1, i2, i3, i4, i5, i6, i7, i8⟩ := S.deleteNode hl M y hy
      simp only [i1, Res.bind_ok] at h ⊢
      have hnext : ∃ N1, Chain (fun y => s1.fwd y 0) (s.fwd y 0) N1 ∧ N1.length ≤ N.length ∧ ∀ z ∈ N1, s1.header < z ∧ z < s1.alloc := by
        have hmem : ∀ z ∈ N, s1.header < z ∧ z < s1.alloc := fun z hz => by rw [i6.1, i6.2.1]; exact hm z (by simp [hz])
        generalize s.fwd y 0 = o at hc
        cases hc with
        | nil => exact ⟨[], .nil, Nat.le_refl _, fun z hz => by cases hz⟩
        | @cons w N2 hc =>
          rcases i7 w 0 N2 hc with h3 | ⟨A, B, rfl, h3⟩
          · exact ⟨_, .cons h3, Nat.le_refl _, hmem⟩
          · refine ⟨_, .cons h3, by simp, fun z hz => hmem z ?_⟩
            simp at hz ⊢
            grind
      obtain ⟨N1, n1, n2, n3⟩ := hnext
      exact ih N1.length (by simp at hN; omega) N1 rfl i2 (by omega) i5 _ n1 n3 (q + 1) _ r h
    · simp only [hb, if_false] at h ⊢
      cases h; exact ⟨_, rfl⟩

theorem Sound.range_agrees {s : St K V} (S : Sound zk zv s n I) (hp : Answers cmp comp) (mn mx : K) (c : Nat) (e : E) (r : St K V × Nat)
    (h : SkipList.deleteRangeByKey comp s mn mx = .ok r) : ∃ e', SkipList.deleteRangeByKeyE (counted cmp) s mn mx (c, e) = .ok (r, e') := by
  have hl1 := S.l1
  obtain ⟨x, u, c1, e1, f1, f2, f3, f4, U, f5, f6⟩ := S.descend (· = -1) cmp mn s.level S.l32 s.header S.hdr (by rw [S.hh]; exact S.l32) 0 .empty c e
  obtain ⟨x', u', e1', g1, g2⟩ := S.descend_agrees (answers_counted hp) (· = -1) mn s.level S.l32 s.header S.hdr (by rw [S.hh]; exact S.l32) 0 .empty (c, e)
  rw [f1] at g1
  cases g1
  rw [cond_eq] at g2
  have hx := f6 hl1
  subst hx
  obtain ⟨m1, m2, m3⟩ := f5 0 hl1
  obtain ⟨N, hN, hNn⟩ := S.fin _ _ m2 m3
  unfold SkipList.deleteRangeByKey at h
  unfold SkipList.deleteRangeByKeyE
  rw [g2] at h
  rw [f1]
  simp only [Res.bind_ok, St.getFwd, if_pos m3] at h ⊢
  exact SkipList.range_agrees (answers_counted hp) mx u N S (Nat.le_refl _) f5 _ hN (S.own_chain 0 N _ m2 m3 hN) 0 _ r h

theorem Behind.step_agrees {s : St K V} {w : View K V} (h : Behind zk zv s w) (hp : Answers cmp comp) (op : Op K V) (c : Nat) (e : E) (r : St K V × Ans)
    (hr : stepAns comp zk zv s op = .ok r) : ∃ e', stepE (counted cmp) zk zv s (c, e) op = .ok (r, e') := by
  obtain ⟨S, hs, L⟩ := h
  have bind : ∀ {α : Type} {m : Res α} {f : α → Res (St K V × Ans)}, m >>= f = .ok r → ∃ a, m = .ok a ∧ f a = .ok r := by
    intro α m f hm
    cases m with
    | ok a => exact ⟨a, rfl, hm⟩
    | panic q => cases hm
    | hang => cases hm
  cases op with
  | put k v d =>
    obtain ⟨q, h1, h2⟩ := bind hr
    obtain ⟨e', he⟩ := S.insert_agrees (answers_counted hp) k v true d (c, e) q h1
    cases h2
    simp only [stepE, he, Res.bind_ok]; exact ⟨_, rfl⟩
  | insertUnique k v d =>
    obtain ⟨q, h1, h2⟩ := bind hr
    obtain ⟨e', he⟩ := S.insert_agrees (answers_counted hp) k v true d (c, e) q h1
    cases h2
    simp only [stepE, he, Res.bind_ok]; exact ⟨_, rfl⟩
  | insertEquals k v d =>
    obtain ⟨q, h1, h2⟩ := bind hr
    obtain ⟨e', he⟩ := S.insert_agrees (answers_counted hp) k v false d (c, e) q h1
    cases h2
    simp only [stepE, he, Res.bind_ok]; exact ⟨_, rfl⟩
  | delete k =>
    obtain ⟨q, h1, h2⟩ := bind hr
    obtain ⟨e', he⟩ := S.delete_agrees (answers_counted hp) k (c, e) q h1
    cases h2
    simp only [stepE, he, Res.bind_ok]; exact ⟨_, rfl⟩
  | deleteByWholeMapping k v vc =>
    obtain ⟨q, h1, h2⟩ := bind hr
    obtain ⟨e', he⟩ := S.mapping_agrees (answers_counted hp) k v vc (c, e) q h1
    cases h2
    simp only [stepE, he, Res.bind_ok]; exact ⟨_, rfl⟩
  | deleteKeys ks =>
    obtain ⟨q, h1, h2⟩ := bind hr
    obtain ⟨e', he⟩ := keys_agree hp ks S 0 c e L q h1
    cases h2
    simp only [stepE, he, Res.bind_ok]; exact ⟨_, rfl⟩
  | deleteRange mn mx =>
    obtain ⟨q, h1, h2⟩ := bind hr
    obtain ⟨e', he⟩ := S.range_agrees hp mn mx c e q h1
    cases h2
    simp only [stepE, he, Res.bind_ok]; exact ⟨_, rfl⟩
  | clear => cases hr; exact ⟨_, rfl⟩
  | setAt i v =>
    obtain ⟨q, h1, h2⟩ := bind hr
    simp only [stepE, h1, Res.bind_ok]
    cases q with
    | none => cases h2; exact ⟨_, rfl⟩
    | some x => cases h2; exact ⟨_, rfl⟩

/-- The lookups with a comparator that answers from its arguments alone are those of the model without state. -/
theorem Sound.lookups_agree {s : St K V} (S : Sound zk zv s n I) (hp : Answers cmp comp) (e : E) (k mn mx : K) :
    (∃ o e', getE cmp s k e = .ok (o, e') ∧ get comp zv s k = .ok (o.getD zv) ∧ has comp s k = .ok o.isSome) ∧
    (∃ r e', rankE cmp s k e = .ok (r, e') ∧ SkipList.rank comp s k = .ok r) ∧
    (∃ b e', isInAllRangeE cmp s mn mx e = .ok (b, e') ∧ isInAllRange comp s mn mx = .ok b) ∧
    (∃ b e', isInPartOfRangeE cmp s mn mx e = .ok (b, e') ∧ isInPartOfRange comp s mn mx = .ok b) ∧
    ((firstInRangeE cmp s mn mx e = .panic .explicit ∧ firstInRange comp s mn mx = .panic .explicit) ∨
      ∃ o e', firstInRangeE cmp s mn mx e = .ok (o, e') ∧ firstInRange comp s mn mx = .ok o) ∧
    ((lastInRangeE cmp s mn mx e = .panic .explicit ∧ lastInRange comp s mn mx = .panic .explicit) ∨
      ∃ o e', lastInRangeE cmp s mn mx e = .ok (o, e') ∧ lastInRange comp s mn mx = .ok o) := by
  obtain ⟨o, e1, f1, f2⟩ := S.search_agrees hp k s.level s.header S.hdr (by rw [S.hh]; exact S.l32) 0 e
  have all : ∃ b e', isInAllRangeE cmp s mn mx e = .ok (b, e') ∧ isInAllRange comp s mn mx = .ok b := by
    unfold isInAllRangeE isInAllRange
    simp only [hp, S.first]
    by_cases h1 : comp mn mx > -1
    · simp only [h1, if_true]; exact ⟨_, _, rfl, rfl⟩
    simp only [h1, if_false]
    cases ht : s.tail with
    | none => exact ⟨_, _, rfl, rfl⟩
    | some t =>
      simp only
      by_cases h2 : comp (s.key t) mn = -1
      · simp only [h2, if_true, true_or]; exact ⟨_, _, rfl, rfl⟩
      by_cases h3 : comp (s.key t) mx = -1
      · simp only [h2, h3, if_true, if_false, or_true]; exact ⟨_, _, rfl, rfl⟩
      simp only [h2, h3, if_false, or_self, Res.bind_ok]
      cases hf : s.fwd s.header 0 with
      | none => exact ⟨_, _, rfl, rfl⟩
      | some x =>
        simp only
        by_cases h4 : comp (s.key x) mx = 1
        · simp only [h4, if_true, true_or]; exact ⟨_, _, rfl, rfl⟩
        by_cases h5 : comp (s.key x) mn = 1
        · simp only [h4, h5, if_true, if_false, or_true]; exact ⟨_, _, rfl, rfl⟩
        simp only [h4, h5, if_false, or_self]; exact ⟨_, _, rfl, rfl⟩
  obtain ⟨b, e2, b1, b2⟩ := all
  have place : ∀ (k : K) (e : E), ∃ x u e', descendE (· = -1) cmp s k s.level s.header 0 .empty e = .ok ((x, u), e') ∧
      SkipList.descend s (fun y => comp y k == -1) s.level s.header 0 .empty = .ok (x, u) ∧ s.getFwd x 0 = .ok (s.fwd x 0) := by
    intro k e
    obtain ⟨x, u, e1, g1, g2⟩ := S.descend_agrees hp (· = -1) k s.level S.l32 s.header S.hdr (by rw [S.hh]; exact S.l32) 0 .empty e
    rw [cond_eq] at g2
    obtain ⟨x', u', c', e', f1, -, f3, -⟩ := S.place cmp k 0 e
    obtain ⟨x2, u2, e2', g1', g2'⟩ := S.descend_agrees (answers_counted hp) (· = -1) k s.level S.l32 s.header S.hdr (by rw [S.hh]; exact S.l32) 0 .empty (0, e)
    rw [cond_eq] at g2'
    rw [g2] at g2'
    cases g2'
    rw [f1] at g1'
    cases g1'
    exact ⟨_, _, e1, g1, g2, f3⟩
  refine ⟨?_, ?_, ⟨b, e2, b1, b2⟩, ?_, ?_, ?_⟩
  · unfold getE get has SkipList.search
    rw [f1, f2]
    simp only [Res.bind_ok]
    cases ho : o.1 with
    | none => exact ⟨none, e1, rfl, rfl, rfl⟩
    | some y => exact ⟨some (s.val y), e1, rfl, rfl, rfl⟩
  · unfold rankE SkipList.rank SkipList.search
    rw [f1, f2]
    simp only [Res.bind_ok]
    cases ho : o.1 with
    | none => exact ⟨_, e1, rfl, rfl⟩
    | some y => exact ⟨_, e1, rfl, rfl⟩
  · unfold isInPartOfRangeE isInPartOfRange
    simp only [hp, S.first]
    by_cases h1 : comp mn mx > -1
    · simp only [h1, if_true]; exact ⟨_, _, rfl, rfl⟩
    simp only [h1, if_false]
    cases ht : s.tail with
    | none => exact ⟨_, _, rfl, rfl⟩
    | some t =>
      simp only
      by_cases h2 : comp (s.key t) mn = -1
      · simp only [h2, if_true]; exact ⟨_, _, rfl, rfl⟩
      simp only [h2, if_false, Res.bind_ok]
      cases hf : s.fwd s.header 0 with
      | none => exact ⟨_, _, rfl, rfl⟩
      | some x =>
        simp only
        by_cases h4 : comp (s.key x) mx = 1
        · simp only [h4, if_true]; exact ⟨_, _, rfl, rfl⟩
        · simp only [h4, if_false]; exact ⟨_, _, rfl, rfl⟩
  · unfold firstInRangeE firstInRange
    rw [b1, b2]
    simp only [Res.bind_ok]
    cases b with
    | false => exact .inr ⟨_, _, rfl, rfl⟩
    | true =>
      obtain ⟨x, u, e3, p1, p2, p3⟩ := place mn e2
      simp only [if_true, p1, p2, p3, Res.bind_ok]
      cases hf : s.fwd x 0 with
      | none => exact .inl ⟨rfl, rfl⟩
      | some y =>
        simp only [hp]
        by_cases h : comp (s.key y) mx = 1
        · simp only [h, if_true]; exact .inr ⟨_, _, rfl, rfl⟩
        · simp only [h, if_false]; exact .inr ⟨_, _, rfl, rfl⟩
  · unfold lastInRangeE lastInRange
    rw [b1, b2]
    simp only [Res.bind_ok]
    cases b with
    | false => exact .inr ⟨_, _, rfl, rfl⟩
    | true =>
      obtain ⟨x, u, e3, p1, p2, p3⟩ := place mx e2
      simp only [if_true, p1, p2, p3, Res.bind_ok]
      cases hf : s.fwd x 0 with
      | none => exact .inl ⟨rfl, rfl⟩
      | some y =>
        simp only [hp]
        by_cases h : comp (s.key y) mn = -1
        · simp only [h, if_true]; exact .inr ⟨_, _, rfl, rfl⟩
        · simp only [h, if_false]; exact .inr ⟨_, _, rfl, rfl⟩

theorem Behind.run_agrees (hp : Answers cmp comp) (ops : List (Op K V)) : ∀ {s : St K V} {w : View K V} (_ : Behind zk zv s w) (c : Nat) (e : E) (r : St K V × List Ans)
    (_ : runAns comp zk zv s ops = .ok r), ∃ e', runE (counted cmp) zk zv s (c, e) ops = .ok (r, e') := by
  induction ops with
  | nil => intro s w h c e r hr; cases hr; exact ⟨_, rfl⟩
  | cons op ops ih =>
    intro s w h c e r hr
    rw [runAns] at hr
    cases h1 : stepAns comp zk zv s op with
    | panic q => rw [h1] at hr; cases hr
    | hang => rw [h1] at hr; cases hr
    | ok q =>
      rw [h1] at hr
      simp only [Res.bind_ok] at hr
      obtain ⟨⟨c1, e1⟩, he⟩ := h.step_agrees hp op c e q h1
      obtain ⟨s2, a, c2, e2, w2, f1, -, f3, -⟩ := h.step cmp op c e
      rw [he] at f1
      cases f1
      cases h2 : runAns comp zk zv s2 ops with
      | panic q => rw [h2] at hr; cases hr
      | hang => rw [h2] at hr; cases hr
      | ok p =>
        rw [h2] at hr
        cases hr
        obtain ⟨e', hf⟩ := ih f3 c1 e1 p h2
        rw [runE, he]
        simp only [Res.bind_ok, hf]
        exact ⟨_, rfl⟩

end

/-- C131, the link: if the comparator answers from its arguments alone, every history does exactly what it does in the model without state. -/
theorem stateless_comparator (zk : K) (zv : V) (cmp : EComp K E) (comp : Compare K) (hp : ∀ a b e, (cmp a b e).1 = comp a b) (e : E) (ops : List (Op K V)) :
    ∃ s as e', runAns comp zk zv (new zk zv) ops = .ok (s, as) ∧ runE (counted cmp) zk zv (new zk zv) (0, e) ops = .ok ((s, as), e') := by
  obtain ⟨s, h, -⟩ := history_row comp zk zv ops
  obtain ⟨e', h'⟩ := Behind.run_agrees hp ops (new_behind (zk := zk) (zv := zv)) 0 e _ h
  exact ⟨s, _, e', h, h'⟩

/-- C131, the link for lookups: after any history under any comparator, lookups with one that answers from its arguments alone are those of the model without state. -/
theorem stateless_lookups (zk : K) (zv : V) (any : EComp K E) (e0 : E) (ops : List (Op K V)) {s : St K V} {as : List Ans} {q : Nat × E}
    (hs : runE (counted any) zk zv (new zk zv) (0, e0) ops = .ok ((s, as), q)) (cmp : EComp K E) (comp : Compare K) (hp : ∀ a b e, (cmp a b e).1 = comp a b) (e : E) (k mn mx : K) :
    (∃ o e', getE cmp s k e = .ok (o, e') ∧ get comp zv s k = .ok (o.getD zv) ∧ has comp s k = .ok o.isSome) ∧
    (∃ r e', rankE cmp s k e = .ok (r, e') ∧ SkipList.rank comp s k = .ok r) ∧
    (∃ b e', isInAllRangeE cmp s mn mx e = .ok (b, e') ∧ isInAllRange comp s mn mx = .ok b) ∧
    (∃ b e', isInPartOfRangeE cmp s mn mx e = .ok (b, e') ∧ isInPartOfRange comp s mn mx = .ok b) ∧
    ((firstInRangeE cmp s mn mx e = .panic .explicit ∧ firstInRange comp s mn mx = .panic .explicit) ∨
      ∃ o e', firstInRangeE cmp s mn mx e = .ok (o, e') ∧ firstInRange comp s mn mx = .ok o) ∧
    ((lastInRangeE cmp s mn mx e = .panic .explicit ∧ lastInRange comp s mn mx = .panic .explicit) ∨
      ∃ o e', lastInRangeE cmp s mn mx e = .ok (o, e') ∧ lastInRange comp s mn mx = .ok o) := by
  obtain ⟨s', as', c', e', w', B, h1, -, h3, -⟩ := Behind.run any ops (new_behind (zk := zk) (zv := zv)) 0 e0
  rw [hs] at h1
  cases h1
  exact h3.1.lookups_agree hp e k mn mx

/-! ### Concrete cases -/

/-- A comparator that answers from a script, whatever it is asked. -/
def scripted : EComp Nat (List Int) := fun _ _ e => (e.headD 1, e.tail)

/-- Draws for one and for two levels. -/
def draw1 : UInt64 := 2147483647
def draw2 : UInt64 := 2147483646

/-- Two entries with two levels each, a deletion whose search disagrees between the levels, and an insertion. -/
def strange : List (Op Nat Nat) := [.put 1 10 draw2, .put 2 20 draw2, .delete 1, .insertEquals 3 30 draw1]

/-- What can be seen of a list of a few entries. -/
def glance (s : St Nat Nat) : Res (Int × List (Nat × Nat) × List (Nat × Nat)) := do
  let f ← first s
  let a ← iter s f
  let b ← iter s a.2
  let b' ← iter s b.2
  let c := backIter s (last s)
  let c ← c
  let d ← backIter s c.2
  let g ← backIter s d.2
  let h ← backIter s g.2
  pure (s.size, [a.1, b.1, b'.1].filterMap id, [c.1, d.1, g.1, h.1].filterMap id)

/-- The specification does not promise more than it should: after a comparator disagrees with itself, Size is 2, First and Next show one entry, Last and Prev three. -/
example : (do let r ← runE (counted scripted) 0 0 (new 0 0) (0, [1, 1, 1, 1, 0, 1, 0, 0, 0]) strange; let g ← glance r.1.1; pure (g, r.1.2, r.2.1)) =
    .ok ((2, [(2, 20)], [(3, 30), (1, 10), (2, 20)]), [.flag true, .flag true, .flag true, .flag true], 9) := by cbv

/-- The entry whose deletion was reported is found again. -/
example : (do let r ← runE (counted scripted) 0 0 (new 0 0) (0, [1, 1, 1, 1, 0, 1, 0]) (strange.take 3); let g ← getE scripted r.1.1 1 [0, 0, 0]; pure (r.1.1.size, r.1.2, g.1)) =
    .ok (1, [.flag true, .flag true, .flag true], some 10) := by cbv

/-- A comparator that answers from its arguments, with a log (Delete(1) does not find its key: see C48). -/
def logging : EComp Nat (List Nat) := fun a b e => (if a < b then -1 else if a = b then 0 else 1, a :: e)

example : (do let r ← runE (counted logging) 0 0 (new 0 0) (0, []) strange; let g ← glance r.1.1; pure (g, r.1.2, r.2.1)) =
    .ok ((3, [(3, 30), (2, 20), (1, 10)], [(1, 10), (2, 20), (3, 30)]), [.flag true, .flag true, .flag false, .flag true], 8) := by cbv

end Gds.SkipList
