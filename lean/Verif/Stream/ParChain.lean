import Verif.Stream.ParPipe
import Verif.Stream.Containers
import Verif.Stream.ParExact
import Mathlib.Data.Finset.Lattice.Fold
import Mathlib.Data.Fintype.Basic

/-! C93: Chain of parallel streams. -/

namespace Gds.Stream

variable {E T R U : Type}

/-! ### Segmenters that keep answering "end" -/

/-- The segmenter in state `g` hands out segments with the contents `segs`, and afterwards answers "end" as often as it is asked. -/
inductive SegsEnd (s : Stm E T) : s.G → List (List T) → Prop where
  | nil {g} (P : s.G → Prop) (h : P g) (hP : ∀ g, P g → ∃ g', P g' ∧ ∀ l e, s.seg g l e = .ok (none, g', l, e)) : SegsEnd s g []
  | cons {g g' st xs segs} (h : ∀ l e, s.seg g l e = .ok (some st, g', l, e)) (hs : PureSeg s st xs)
      (r : SegsEnd s g' segs) : SegsEnd s g (xs :: segs)

theorem SegsEnd.segsOf {s : Stm E T} {g segs} (h : SegsEnd s g segs) : SegsOf s g segs := by
  induction h with
  | nil P h hP => exact .nil (fun l e => by obtain ⟨g', _, h'⟩ := hP _ h; exact ⟨g', h' l e⟩)
  | cons h hs r ih => exact .cons h hs ih

theorem SegsEnd.next {s : Stm E T} {g} (h : SegsEnd s g []) : ∃ g', SegsEnd s g' [] ∧ ∀ l e, s.seg g l e = .ok (none, g', l, e) := by
  cases h with
  | nil P h hP => obtain ⟨g', h1, h2⟩ := hP _ h; exact ⟨g', .nil P h1 hP, h2⟩

theorem ofSlice_segsEnd (m : Slice.Mem T) (s : Slice.Hdr) (q p : Int) {i : Int} {gs : List Slice.Hdr} {idx : Int}
    (h : Iter.Yields (Slice.splitableIter s p) i gs idx) (hend : Slice.splitableIter s p idx = .ok (none, idx)) :
    SegsEnd (ofSlice (E := E) m s q) (p, i) (gs.map m.view) := by
  induction h with
  | nil i => exact .nil (s := ofSlice (E := E) m s q) (fun g => g = (p, i)) rfl (fun g hg => ⟨(p, i), rfl, fun l e => by subst hg; simp [ofSlice, hend]⟩)
  | @cons i g i1 gs _ hn r ih =>
    refine .cons (st := (g, 0)) (g' := (p, i1)) (fun l e => by simp [ofSlice, hn]) ?_ (ih hend)
    have := ofSlice_pureSeg (E := E) m s g q g.len 0 (by omega)
    simpa using this

/-- A slice of length at least p ≥ 1: the segments of `ofSlice_cuts`, and then "end" for ever. -/
theorem ofSlice_cuts_end (m : Slice.Mem T) (s : Slice.Hdr) (hs : m.Ok s) (p : Nat) (hp : 1 ≤ p) (hl : p ≤ s.len) (q : Int) :
    SegsEnd (ofSlice (E := E) m s q) (p, 0) (Slice.cuts (s.len / p) (m.view s)) := by
  obtain ⟨gs, idx, h1, h2, h3, h4, h5, h7⟩ := Slice.split_parallel m s hs p hp hl
  rw [← h7]
  exact ofSlice_segsEnd m s q p h1 h2

/-- A slice streamed sequentially: one segment, and then "end" for ever. -/
theorem ofSlice_zero_end (m : Slice.Mem T) (s : Slice.Hdr) (q : Int) : SegsEnd (ofSlice (E := E) m s q) (0, 0) [m.view s] := by
  obtain ⟨idx, h1, h2⟩ := Slice.split_sequential s 0 (Int.le_refl _)
  exact ofSlice_segsEnd m s q 0 h1 h2

/-! ### Specification -/

/-- The segments of a Chain of streams with segments `ss`: round k takes the k-th segment of every stream that has one. -/
def rounds (ss : List (List (List T))) : List (List T) :=
  (List.range (ss.foldr (fun x m => Max.max x.length m) 0)).map (fun k => ss.flatMap (fun x => x[k]?.getD []))

theorem rounds_nil {ss : List (List (List T))} (h : ∀ x ∈ ss, x = []) : rounds ss = [] := by
  have : ss.foldr (fun x m => Max.max x.length m) 0 = 0 := by
    induction ss with
    | nil => rfl
    | cons x xs ih => simp [ih (fun y hy => h y (by simp [hy])), h x (by simp)]
  simp [rounds, this]

theorem foldr_tail (ss : List (List (List T))) :
    (ss.map List.tail).foldr (fun x m => Max.max x.length m) 0 = ss.foldr (fun x m => Max.max x.length m) 0 - 1 := by
  induction ss with
  | nil => rfl
  | cons x xs ih =>
    simp only [List.map_cons, List.foldr_cons, ih, List.length_tail]
    omega

theorem rounds_cons {ss : List (List (List T))} (h : ∃ x ∈ ss, x ≠ []) :
    rounds ss = (ss.flatMap (fun x => x.head?.getD [])) :: rounds (ss.map List.tail) := by
  have hM : ∃ k, ss.foldr (fun x m => Max.max x.length m) 0 = k + 1 := by
    obtain ⟨x, hx, hne⟩ := h
    have : x.length ≤ ss.foldr (fun x m => Max.max x.length m) 0 := by
      clear hne
      induction ss with
      | nil => simp at hx
      | cons y ys ih =>
        simp only [List.foldr_cons]
        rcases List.mem_cons.1 hx with rfl | hx
        · omega
        · have := ih hx; omega
    have : 0 < x.length := List.length_pos_iff.2 hne
    exact ⟨ss.foldr (fun x m => Max.max x.length m) 0 - 1, by omega⟩
  obtain ⟨k, hk⟩ := hM
  rw [rounds, rounds, foldr_tail, hk, List.range_succ_eq_map, List.map_cons, List.map_map]
  simp only [Nat.add_sub_cancel, List.flatMap_map, List.getElem?_tail]
  congr 1
  simp [List.head?_eq_getElem?]

/-- Every segment occurs in exactly one round: the rounds together are a permutation of the concatenation. -/
theorem rounds_perm (ss : List (List (List T))) : (rounds ss).flatten.Perm (ss.map List.flatten).flatten := by
  generalize hm : ss.foldr (fun x m => Max.max x.length m) 0 = m
  induction m generalizing ss with
  | zero =>
    have h0 : ∀ x ∈ ss, x = [] := by
      clear * - hm
      induction ss with
      | nil => simp
      | cons x xs ih =>
        simp only [List.foldr_cons] at hm
        have h1 : x.length = 0 := by omega
        have h2 := ih (by omega)
        simpa [List.eq_nil_of_length_eq_zero h1] using h2
    rw [rounds_nil h0, List.map_congr_left (g := fun _ => []) (fun x hx => by simp [h0 x hx])]
    induction ss with
    | nil => simp
    | cons => simp
  | succ m ih =>
    have hne : ∃ x ∈ ss, x ≠ [] := by
      by_contra hn
      simp only [not_exists, not_and, not_not] at hn
      have := congrArg List.length (rounds_nil hn)
      simp [rounds, hm] at this
    rw [rounds_cons hne, List.flatten_cons]
    refine ((ih (ss.map List.tail) (by rw [foldr_tail, hm]; rfl)).append_left _).trans ?_
    clear * -
    induction ss with
    | nil => simp
    | cons x xs ih =>
      simp only [List.flatMap_cons, List.map_cons, List.flatten_cons]
      have : x.flatten = x.head?.getD [] ++ x.tail.flatten := by cases x <;> simp
      rw [this]
      have hp := (List.perm_append_comm_assoc (xs.flatMap (fun x => x.head?.getD [])) x.tail.flatten ((xs.map List.tail).map List.flatten).flatten)
      simp only [List.append_assoc]
      exact (hp.trans (ih.append_left _)).append_left _

/-- Streams of at most one segment are delivered one after the other. -/
theorem rounds_one {ss : List (List (List T))} (h : ∀ x ∈ ss, x.length ≤ 1) : (rounds ss).flatten = (ss.map List.flatten).flatten := by
  by_cases hne : ∃ x ∈ ss, x ≠ []
  · rw [rounds_cons hne, rounds_nil]
    · clear hne
      induction ss with
      | nil => simp
      | cons x xs ih =>
        have := ih (fun y hy => h y (by simp [hy]))
        have hx := h x (by simp)
        simp only [List.flatten_cons, List.flatten_nil, List.append_nil, List.flatMap_cons, List.map_cons] at this ⊢
        rw [this]
        match x, hx with
        | [], _ => simp
        | [a], _ => simp
    · intro y hy
      obtain ⟨x, hx, rfl⟩ := List.mem_map.1 hy
      have := h x hx
      exact List.eq_nil_of_length_eq_zero (by simp; omega)
  · simp only [not_exists, not_and, not_not] at hne
    rw [rounds_nil hne, List.map_congr_left (g := fun _ => []) (fun x hx => by simp [hne x hx])]
    clear * -
    induction ss with
    | nil => simp
    | cons => simpa

/-! ### Chain -/

section
variable {n : Nat} {ss : Fin n → Stm E T}

theorem chain_pureSeg {rest : List (Σ i, (ss i).S)} {yss : List (List T)}
    (hr : List.Forall₂ (fun x ys => PureSeg (ss x.1) x.2 ys) rest yss) :
    ∀ (pre : List (Σ i, (ss i).S)) (i : Fin n) (st : (ss i).S) (xs : List T), PureSeg (ss i) st xs →
    PureSeg (chain ss) (⟨pre ++ ⟨i, st⟩ :: rest, pre.length, pre.length⟩ : ChainSt ss) (xs ++ yss.flatten) := by
  induction hr with
  | nil =>
    intro pre i st xs h
    induction h with
    | @nil st st' h =>
      refine .nil (s := chain ss) (st' := (⟨pre ++ [⟨i, st'⟩], pre.length + 1, pre.length⟩ : ChainSt ss)) (fun (l : ∀ i, (ss i).L) e => ?_)
      simp only [chain]
      rw [chainPull]
      simp [h, Function.update_eq_self]
    | @cons st st' x xs h r ih =>
      refine .cons (s := chain ss) (st' := (⟨pre ++ [⟨i, st'⟩], pre.length, pre.length⟩ : ChainSt ss)) (fun (l : ∀ i, (ss i).L) e => ?_) ih
      simp only [chain]
      rw [chainPull]
      simp [h, Function.update_eq_self]
  | @cons y ys rest yss hy hr ih0 =>
    intro pre i st xs h
    induction h with
    | @nil st st' h =>
      have := ih0 (pre ++ [⟨i, st'⟩]) y.1 y.2 ys hy
      simp only [List.nil_append, List.flatten_cons]
      refine pureSeg_of_eq (fun (l : ∀ i, (ss i).L) e => ?_) this
      simp only [chain]
      conv_lhs => rw [chainPull]
      simp [h, Function.update_eq_self]
    | @cons st st' x xs h r ih =>
      refine .cons (s := chain ss) (st' := (⟨pre ++ ⟨i, st'⟩ :: y :: rest, pre.length, pre.length⟩ : ChainSt ss)) (fun (l : ∀ i, (ss i).L) e => ?_) ih
      simp only [chain]
      rw [chainPull]
      simp [h, Function.update_eq_self]

theorem chainSegs_round (g : ∀ i, (ss i).G) (segs : Fin n → List (List T)) (h : ∀ i, SegsEnd (ss i) (g i) (segs i)) (is : List (Fin n)) :
    ∃ (pulls : List (Σ i, (ss i).S)) (yss : List (List T)) (g' : ∀ i, (ss i).G), List.Forall₂ (fun x ys => PureSeg (ss x.1) x.2 ys) pulls yss ∧
      yss.flatten = is.flatMap (fun i => (segs i).head?.getD []) ∧ (pulls = [] ↔ ∀ i ∈ is, segs i = []) ∧
      (∀ i, SegsEnd (ss i) (g' i) (segs i).tail) ∧
      ∀ (l : ∀ i, (ss i).L) e, chainSegs ss (is.map (fun i => ⟨i, g i⟩)) l e = .ok (pulls, is.map (fun i => ⟨i, g' i⟩), l, e) := by
  have hg : ∀ i, ∃ (o : Option ((ss i).S)) (g' : (ss i).G), SegsEnd (ss i) g' (segs i).tail ∧
      (∀ l e, (ss i).seg (g i) l e = .ok (o, g', l, e)) ∧ (o = none ↔ segs i = []) ∧ ∀ st ∈ o, PureSeg (ss i) st ((segs i).head?.getD []) := by
    intro i
    have hi := h i
    generalize segs i = sg at hi
    generalize g i = gg at hi
    cases hi with
    | nil P h hP =>
      obtain ⟨g', h1, h2⟩ := SegsEnd.next (.nil P h hP)
      exact ⟨none, g', h1, h2, by simp, by simp⟩
    | cons h hs r => exact ⟨some _, _, r, h, by simp, by simpa using hs⟩
  choose o g' h1 h2 h3 h4 using hg
  suffices hs : ∃ (pulls : List (Σ i, (ss i).S)) (yss : List (List T)), List.Forall₂ (fun x ys => PureSeg (ss x.1) x.2 ys) pulls yss ∧
      yss.flatten = is.flatMap (fun i => (segs i).head?.getD []) ∧ (pulls = [] ↔ ∀ i ∈ is, segs i = []) ∧
      ∀ (l : ∀ i, (ss i).L) e, chainSegs ss (is.map (fun i => ⟨i, g i⟩)) l e = .ok (pulls, is.map (fun i => ⟨i, g' i⟩), l, e) by
    obtain ⟨pulls, yss, k1, k2, k3, k4⟩ := hs
    exact ⟨pulls, yss, g', k1, k2, k3, h1, k4⟩
  induction is with
  | nil => exact ⟨[], [], .nil, rfl, by simp, fun l e => by simp [chainSegs]⟩
  | cons i is ih =>
    obtain ⟨pulls, yss, k1, k2, k3, k4⟩ := ih
    rcases ho : o i with _ | st
    · refine ⟨pulls, yss, k1, ?_, ?_, fun l e => ?_⟩
      · simp [k2, (h3 i).1 ho]
      · simp [k3, (h3 i).1 ho]
      · simp [chainSegs, h2, ho, k4, Function.update_eq_self]
    · refine ⟨⟨i, st⟩ :: pulls, (segs i).head?.getD [] :: yss, .cons (h4 i st (by simp [ho])) k1, ?_, ?_, fun l e => ?_⟩
      · simp [k2]
      · have : segs i ≠ [] := fun hn => by simp [(h3 i).2 hn] at ho
        simp [this]
      · simp [chainSegs, h2, ho, k4, Function.update_eq_self]

theorem chain_segsOf (m : Nat) : ∀ (g : ∀ i, (ss i).G) (segs : Fin n → List (List T)), (∀ i, SegsEnd (ss i) (g i) (segs i)) →
    (∀ i, (segs i).length ≤ m) → SegsOf (chain ss) ((List.finRange n).map (fun i => ⟨i, g i⟩)) (rounds (List.ofFn segs)) := by
  induction m with
  | zero =>
    intro g segs h hm
    have h0 : ∀ i, segs i = [] := fun i => List.eq_nil_of_length_eq_zero (by have := hm i; omega)
    rw [rounds_nil (by simp [List.mem_ofFn, h0])]
    obtain ⟨pulls, yss, g', k1, k2, k3, k4, k5⟩ := chainSegs_round g segs h (List.finRange n)
    have := k3.2 (by simp [h0])
    subst this
    exact .nil (s := chain ss) (fun (l : ∀ i, (ss i).L) e => ⟨_, by simp only [chain, k5, Res.bind_ok]; simp; rfl⟩)
  | succ m ih =>
    intro g segs h hm
    by_cases h0 : ∀ i, segs i = []
    · exact ih g segs h (fun i => by simp [h0])
    obtain ⟨pulls, yss, g', k1, k2, k3, k4, k5⟩ := chainSegs_round g segs h (List.finRange n)
    have hp : pulls ≠ [] := fun hn => h0 (by simpa using k3.1 hn)
    have hne : ∃ x ∈ List.ofFn segs, x ≠ [] := by
      simp only [not_forall] at h0
      obtain ⟨i, hi⟩ := h0
      exact ⟨segs i, by simp [List.mem_ofFn], hi⟩
    rw [rounds_cons hne]
    have e1 : (List.ofFn segs).flatMap (fun x => x.head?.getD []) = yss.flatten := by
      rw [k2, List.ofFn_eq_map, List.flatMap_map]
    have e2 : (List.ofFn segs).map List.tail = List.ofFn (fun i => (segs i).tail) := by
      rw [List.map_ofFn]; rfl
    rw [e1, e2]
    refine .cons (s := chain ss) (st := (⟨pulls, 0, 0⟩ : ChainSt ss)) (g' := (List.finRange n).map (fun i => ⟨i, g' i⟩))
      (fun (l : ∀ i, (ss i).L) e => by simp only [chain, k5, Res.bind_ok]; simp [hp]) ?_
      (ih g' _ k4 (fun i => by have := hm i; simp; omega))
    cases k1 with
    | nil => exact absurd rfl hp
    | @cons x ys pulls yss hx k1 => exact chain_pureSeg k1 [] x.1 x.2 ys hx

/-- A Chain of streams splits into rounds, whatever it is activated with. -/
theorem chain_splits {segs : Fin n → List (List T)} (h : ∀ i, SegsEnd (ss i) ((ss i).activate (ss i).par) (segs i)) (p : Int) :
    Splits (chain ss) p (rounds (List.ofFn segs)) := by
  obtain ⟨m, hm⟩ : ∃ m, ∀ i, (segs i).length ≤ m :=
    ⟨Finset.univ.sup (fun i => (segs i).length), fun i => Finset.le_sup (f := fun i => (segs i).length) (Finset.mem_univ i)⟩
  exact chain_segsOf m _ segs h hm

end

/-! ### Operators keep answering "end" -/

theorem map_segsEnd {s : Stm E T} (f : T → R) {g segs} (h : SegsEnd s g segs) : SegsEnd (map s f) g (segs.map (List.map f)) := by
  induction h with
  | nil P h hP => exact .nil (s := map s f) P h hP
  | cons h hs r ih => exact .cons h (map_pureSeg f hs) ih

theorem filter_segsEnd {s : Stm E T} (q : T → Bool) {g segs} (h : SegsEnd s g segs) : SegsEnd (filter s q) g (segs.map (List.filter q)) := by
  induction h with
  | nil P h hP => exact .nil (s := filter s q) P h hP
  | cons h hs r ih => exact .cons h (filter_pureSeg q hs) ih

theorem skipWhile_segsEnd {s : Stm E T} (q : T → Bool) {g segs} (h : SegsEnd s g segs) :
    SegsEnd (skipWhile s q) g (segs.map (List.filter (fun x => !q x))) := by
  induction h with
  | nil P h hP => exact .nil (s := skipWhile s q) P h hP
  | cons h hs r ih => exact .cons h (skipWhile_pureSeg q hs) ih

theorem flatMap_segsEnd {s : Stm E T} (f : T → Stm E U) (k : T → Trace E U) {zi : T → Prop}
    (hf : ∀ t, ∃ li', Runs (f t) 0 (f t).init (k t) li' (zi t)) (hk : ∀ t, (k t).Silent) {g segs} (h : SegsEnd s g segs) :
    SegsEnd (flatMap s f) g (segs.map (fun xs => xs.flatMap (fun t => (k t).vals))) := by
  induction h with
  | nil P h hP =>
    exact .nil (s := flatMap s f) P h (fun g hg => by
      obtain ⟨g', h1, h2⟩ := hP g hg
      exact ⟨g', h1, fun (l : s.L) e => by simp [flatMap, h2]⟩)
  | @cons g g' st xs segs h hs r ih =>
    rw [List.map_cons]
    cases hs with
    | @nil _ st' hn =>
      refine SegsEnd.cons (s := flatMap s f) (st := (st', none)) (g' := g') (fun (l : s.L) e => by simp [flatMap, h, hn]) ?_ ih
      exact .nil (st' := (st', none)) (fun (l : s.L) e => by simp only [flatMap]; rw [flatMapPull])
    | @cons _ st' x xs hn rs =>
      obtain ⟨_, g1, stx, l1x, stx', hx1, hx2, hx3, hx4⟩ := hf x
      obtain ⟨e1, e2, e3⟩ := hk x
      refine SegsEnd.cons (s := flatMap s f) (st := (st', some ⟨x, l1x, stx⟩)) (g' := g') (fun (l : s.L) e => by simp [flatMap, h, hn, flatOpen, hx1, e1]) ?_ ih
      rw [List.flatMap_cons]
      exact flatMap_pureSeg f k hf hk rs hx2 e2 e3

theorem SegsEnd.step {s : Stm E T} {g segs} (h : SegsEnd s g segs) :
    ∃ o g' segs', SegsEnd s g' segs' ∧ ∀ l e, s.seg g l e = .ok (o, g', l, e) := by
  cases h with
  | nil P h hP => obtain ⟨g', h1, h2⟩ := SegsEnd.next (.nil P h hP); exact ⟨_, _, _, h1, h2⟩
  | cons h hs r => exact ⟨_, _, _, r, h⟩

theorem zip_segsEnd (z : T × R) {s : Stm E T} {s2 : Stm E R} {g g2 segs segs2} (h : SegsEnd s g segs) (h2 : SegsEnd s2 g2 segs2)
    (hl : ∀ x ∈ segs.zip segs2, x.1.length ≤ x.2.length) :
    SegsEnd (Gds.Stream.zip z s s2) (g, g2) (List.zipWith List.zip segs segs2) := by
  let P : s.G × s2.G → Prop := fun g => (SegsEnd s g.1 [] ∧ ∃ y, SegsEnd s2 g.2 y) ∨ (∃ x, SegsEnd s g.1 x) ∧ SegsEnd s2 g.2 []
  have hP : ∀ g : s.G × s2.G, P g → ∃ g' : s.G × s2.G, P g' ∧ ∀ (l : s.L × s2.L) e, (Gds.Stream.zip z s s2).seg g l e = .ok (none, g', l, e) := by
    rintro ⟨a, b⟩ (⟨h1, y, h2⟩ | ⟨⟨x, h1⟩, h2⟩)
    · obtain ⟨a', k1, k2⟩ := h1.next
      obtain ⟨o, b', y', k3, k4⟩ := h2.step
      exact ⟨(a', b'), .inl ⟨k1, _, k3⟩, fun l e => by simp [Gds.Stream.zip, k2, k4]⟩
    · obtain ⟨b', k1, k2⟩ := h2.next
      obtain ⟨o, a', y', k3, k4⟩ := h1.step
      exact ⟨(a', b'), .inr ⟨⟨_, k3⟩, k1⟩, fun l e => by cases o <;> simp [Gds.Stream.zip, k2, k4]⟩
  induction h generalizing g2 segs2 with
  | @nil g P1 h hP1 => exact .nil (s := Gds.Stream.zip z s s2) P (.inl ⟨.nil P1 h hP1, _, h2⟩) hP
  | @cons g g' st xs segs h hs r ih =>
    cases h2 with
    | nil P2 h2 hP2 => exact .nil (s := Gds.Stream.zip z s s2) P (.inr ⟨⟨_, .cons h hs r⟩, .nil P2 h2 hP2⟩) hP
    | @cons _ g2' st2 ys segs2 h2 hs2 r2 =>
      exact .cons (st := (st, st2)) (g' := (g', g2')) (fun (l : s.L × s2.L) e => by simp [Gds.Stream.zip, h, h2])
        (zip_pureSeg z hs hs2 (hl (xs, ys) (by simp))) (ih r2 (fun x hx => hl x (by simp [hx])))

/-- Every source keeps answering "end" once it has ended (slices do, see `ofSlice_cuts_end`). -/
def PPipe.Stay {p : Nat} : {T : Type} → PPipe E p T → Prop
  | _, .src s segs _ _ => SegsEnd s (s.activate p) segs
  | _, .map a _ => a.Stay
  | _, .filter a _ => a.Stay
  | _, .skipWhile a _ => a.Stay
  | _, .flatMap a _ => a.Stay
  | _, .zip _ a b => a.Stay ∧ b.Stay

theorem PPipe.segsEnd {p : Nat} {T : Type} (a : PPipe E p T) (h : a.Even) (hs : a.Stay) : SegsEnd a.stm (a.stm.activate p) a.segs := by
  induction a with
  | src _ _ _ _ => exact hs
  | map a f ih => exact map_segsEnd f (ih h hs)
  | filter a q ih => exact filter_segsEnd q (ih h hs)
  | skipWhile a q ih => exact skipWhile_segsEnd q (ih h hs)
  | flatMap a f ih =>
    have := flatMap_segsEnd (fun t => (f t).stm) (fun t => (f t).trace) (fun t => (f t).runs (h.2 t).1) (fun t => (f t).silent (h.2 t).2) (ih h.1 hs)
    simp only [Pipe.vals_trace] at this
    exact this
  | zip z a b ih1 ih2 => exact zip_segsEnd z (ih1 h.1 hs.1) (ih2 h.2.1 hs.2) (PPipe.zip_le h.2.2)

/-! ### C93 -/

section
variable {n : Nat} {ps : Fin n → Nat}

theorem chain_pipes_splits (a : ∀ i, PPipe E (ps i) T) (h : ∀ i, (a i).Even) (hs : ∀ i, (a i).Stay) (q : Int) :
    Splits (chain (fun i => (a i).stm)) q (rounds (List.ofFn (fun i => (a i).segs))) :=
  chain_splits (fun i => by rw [PPipe.par]; exact (a i).segsEnd (h i) (hs i)) q

theorem pipes_flatten (a : ∀ i, PPipe E (ps i) T) (h : ∀ i, (a i).Even) :
    ((List.ofFn (fun i => (a i).segs)).map List.flatten).flatten = (List.ofFn (fun i => (a i).vals)).flatten := by
  rw [List.map_ofFn, show (List.flatten ∘ fun i => (a i).segs) = fun i => (a i).vals from funext fun i => (a i).flatten (h i)]

/-- C93: Collect over a Chain of streams of any parallelism calls the consumer round by round: first with the first segments of
    all streams, then with all second segments, and so on. -/
theorem chain_collect_rounds (a : ∀ i, PPipe E (ps i) T) (h : ∀ i, (a i).Even) (hs : ∀ i, (a i).Stay) (c : T → E → E) (e : E) :
    Collects (chain (fun i => (a i).stm)) c (chain (fun i => (a i).stm)).init e (rounds (List.ofFn (fun i => (a i).segs))).flatten :=
  collects_seq rfl c (chain_pipes_splits a h hs 0) _ _

/-- C93 where it holds: every element of every stream is delivered exactly once; and if no stream has more than one segment
    (parallelism 0 or 1) they are delivered stream after stream. -/
theorem chain_collect_partial (a : ∀ i, PPipe E (ps i) T) (h : ∀ i, (a i).Even) (hs : ∀ i, (a i).Stay) (c : T → E → E) (e : E) :
    ∃ xs, Collects (chain (fun i => (a i).stm)) c (chain (fun i => (a i).stm)).init e xs ∧
      xs.Perm (List.ofFn (fun i => (a i).vals)).flatten ∧
      ((∀ i, (a i).segs.length ≤ 1) → xs = (List.ofFn (fun i => (a i).vals)).flatten) := by
  refine ⟨_, chain_collect_rounds a h hs c e, ?_, fun h1 => ?_⟩
  · rw [← pipes_flatten a h]; exact rounds_perm _
  · rw [← pipes_flatten a h]
    exact rounds_one (by simpa [List.mem_ofFn] using h1)

/-- C93: FoldWith over a Chain is the fold over the concatenation if the order of the elements does not matter to `f`. -/
theorem chain_fold_partial (a : ∀ i, PPipe E (ps i) T) (h : ∀ i, (a i).Even) (hs : ∀ i, (a i).Stay) {ini : R} {f : R → T → R}
    {comb : R → R → R} (hf : ∀ a x y, f (f a x) y = f (f a y) x) (e : E) :
    FoldWithReturns (chain (fun i => (a i).stm)) ini f comb (chain (fun i => (a i).stm)).init e
      ((List.ofFn (fun i => (a i).vals)).flatten.foldl f ini) := by
  have hp : (List.ofFn (fun i => (a i).vals)).flatten.foldl f ini = (rounds (List.ofFn (fun i => (a i).segs))).flatten.foldl f ini := by
    rw [← pipes_flatten a h]
    exact ((rounds_perm _).symm.foldl_eq' (fun x _ y _ z => hf z x y) ini)
  rw [hp]
  exact foldWith_returns_seq rfl (chain_pipes_splits a h hs 0) ini f comb _ _

/-- C93: `Parallel(Chain(…), q)` with q ≥ 1 and Collect: on every schedule every element once, and the call returns. -/
theorem chain_parallel_collect (a : ∀ i, PPipe E (ps i) T) (h : ∀ i, (a i).Even) (hs : ∀ i, (a i).Stay) (q : Nat) (hq : 0 < q) (c : T → E → E) (e : E) :
    Collects (parallel (chain (fun i => (a i).stm)) q) c (chain (fun i => (a i).stm)).init e (List.ofFn (fun i => (a i).vals)).flatten := by
  have := collects_par (s := parallel (chain (fun i => (a i).stm)) q) (p := q) rfl hq c (parallel_splits (chain_pipes_splits a h hs q)) (chain (fun i => (a i).stm)).init e
  unfold Collects at this ⊢
  have h0 : (parallel (chain (fun i => (a i).stm)) (q : Int)).par ≠ 0 := by show (q : Int) ≠ 0; omega
  rw [if_neg h0] at this ⊢
  refine ⟨this.1, fun b hb hd => ?_, this.2.2⟩
  obtain ⟨calls, k1, k2⟩ := this.2.1 b hb hd
  exact ⟨calls, k1.trans (by rw [← pipes_flatten a h]; exact rounds_perm _), k2⟩

/-- C93: FoldWith over `Parallel(Chain(…), q)` never returns if there are fewer than q rounds, for instance for sequential streams
    and q ≥ 2. -/
theorem chain_parallel_fold_hangs (a : ∀ i, PPipe E (ps i) T) (h : ∀ i, (a i).Even) (hs : ∀ i, (a i).Stay) (q : Nat)
    (hq : ∀ i, (a i).segs.length < q) (hq0 : 0 < q) (ini : R) (f : R → T → R) (comb : R → R → R) (e : E) (c : FSt (parallel (chain (fun i => (a i).stm)) q) R)
    (hc : FReach (parallel (chain (fun i => (a i).stm)) q) q ini f comb (chain (fun i => (a i).stm)).init e c) : ∀ v, c.main ≠ .done v := by
  refine (parFold_too_few ini f comb (parallel_splits (chain_pipes_splits a h hs q)) ?_ _ e c hc).2
  rw [rounds, List.length_map, List.length_range]
  have : ∀ (ss : List (List (List T))), (∀ x ∈ ss, x.length < q) → ss.foldr (fun x m => Max.max x.length m) 0 < q := by
    intro ss
    induction ss with
    | nil => intro _; exact hq0
    | cons x xs ih =>
      intro hx
      have h1 := hx x (by simp)
      have h2 := ih (fun y hy => hx y (by simp [hy]))
      simp only [List.foldr_cons]
      omega
  exact this _ (by simpa [List.mem_ofFn] using hq)
end

/-- Two slices, [1, 2, 3, 4] and [1, …, 6], each streamed with parallelism 2. -/
def twoPar : Fin 2 → PPipe E 2 Int := fun i =>
  if i = 0 then .slice memUp hdrUp4 ⟨by decide, by decide, by decide, by decide⟩ (by decide) (by decide)
  else .slice memUp hdrUp6 ⟨by decide, by decide, by decide, by decide⟩ (by decide) (by decide)

theorem twoPar_even (i : Fin 2) : (twoPar (E := E) i).Even := by
  unfold twoPar; split <;> trivial

theorem twoPar_stay (i : Fin 2) : (twoPar (E := E) i).Stay := by
  unfold twoPar
  split
  · exact ofSlice_cuts_end memUp hdrUp4 ⟨by decide, by decide, by decide, by decide⟩ 2 (by decide) (by decide) 2
  · exact ofSlice_cuts_end memUp hdrUp6 ⟨by decide, by decide, by decide, by decide⟩ 2 (by decide) (by decide) 2

/-- C93 is false of the code: Chain of two slices streamed with parallelism 2 delivers 1 2 1 2 3 3 4 4 5 6 instead of
    1 2 3 4 1 2 3 4 5 6. -/
theorem chain_order_refuted :
    ¬ ∀ (m : Slice.Mem Int) (s s' : Slice.Hdr) (p : Nat), m.Ok s → m.Ok s' → 1 ≤ p → p ≤ s.len → p ≤ s'.len →
      Collects (E := List Int) (chain (fun i : Fin 2 => if i = 0 then ofSlice m s p else ofSlice m s' p)) (fun x e => e ++ [x])
        (chain (fun i : Fin 2 => if i = 0 then ofSlice m s p else ofSlice m s' p)).init [] (m.view s ++ m.view s') := by
  intro h
  have h1 := h memUp hdrUp4 hdrUp6 2 ⟨by decide, by decide, by decide, by decide⟩ ⟨by decide, by decide, by decide, by decide⟩
    (by decide) (by decide) (by decide)
  have h2 := chain_collect_rounds (E := List Int) twoPar twoPar_even twoPar_stay (fun x e => e ++ [x]) []
  have e1 : (fun i : Fin 2 => if i = 0 then ofSlice (E := List Int) memUp hdrUp4 (2 : Nat) else ofSlice memUp hdrUp6 (2 : Nat)) = fun i => (twoPar i).stm := by
    funext i
    unfold twoPar
    split <;> rfl
  rw [e1] at h1
  unfold Collects at h1 h2
  have e0 : (chain (fun i => (twoPar (E := List Int) i).stm)).par = 0 := rfl
  rw [if_pos e0] at h1 h2
  obtain ⟨l1, h1⟩ := h1
  obtain ⟨l2, h2⟩ := h2
  rw [h1] at h2
  have e2 : (rounds (List.ofFn (fun i => (twoPar (E := List Int) i).segs))).flatten = [1, 2, 1, 2, 3, 3, 4, 4, 5, 6] := by decide +kernel
  have e3 : memUp.view hdrUp4 ++ memUp.view hdrUp6 = [1, 2, 3, 4, 1, 2, 3, 4, 5, 6] := by decide +kernel
  rw [e2, e3] at h2
  simp at h2

/-- The hypotheses of C93 are met by `twoPar`, and those of the hanging case with q = 3. -/
example : (∀ i, (twoPar (E := Unit) i).Even) ∧ (∀ i, (twoPar (E := Unit) i).Stay) ∧ ∀ i, (twoPar (E := Unit) i).segs.length < 3 :=
  ⟨twoPar_even, twoPar_stay, by decide +kernel⟩

end Gds.Stream
