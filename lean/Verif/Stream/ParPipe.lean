import Verif.Stream.Props
import Verif.Stream.ParCollect
import Verif.Stream.ParFold
import Verif.Stream.Terminal

/-! C91: pipelines of parallel streams. -/

namespace Gds.Stream

variable {E T R U : Type}

/-! ### Zip -/

theorem zip_pureSeg (z : T × R) {s : Stm E T} {s2 : Stm E R} {st st2 xs ys} (h : PureSeg s st xs) (h2 : PureSeg s2 st2 ys)
    (hl : xs.length ≤ ys.length) : PureSeg (Gds.Stream.zip z s s2) (st, st2) (xs.zip ys) := by
  induction h generalizing st2 ys with
  | @nil st st' h =>
    cases h2 with
    | @nil _ st3 h3 => exact .nil (st' := (st', st3)) (fun (l : s.L × s2.L) e => by simp [Gds.Stream.zip, h, h3])
    | @cons _ st3 _ _ h3 => exact .nil (st' := (st', st3)) (fun (l : s.L × s2.L) e => by simp [Gds.Stream.zip, h, h3])
  | @cons st st' x xs h r ih =>
    cases h2 with
    | nil => simp at hl
    | @cons _ st2' y ys h2 r2 =>
      exact .cons (st' := (st', st2')) (fun (l : s.L × s2.L) e => by simp [Gds.Stream.zip, h, h2]) (ih r2 (by simpa using hl))

theorem zip_segsOf (z : T × R) {s : Stm E T} {s2 : Stm E R} {g g2 segs segs2} (h : SegsOf s g segs) (h2 : SegsOf s2 g2 segs2)
    (hl : ∀ x ∈ segs.zip segs2, x.1.length ≤ x.2.length) :
    SegsOf (Gds.Stream.zip z s s2) (g, g2) (List.zipWith List.zip segs segs2) := by
  induction h generalizing g2 segs2 with
  | nil h =>
    refine .nil (fun (l : s.L × s2.L) e => ?_)
    obtain ⟨st', h'⟩ := h l.1 e
    rcases seg_ok ⟨_, h2⟩ l.2 e with ⟨v, st3, h3⟩ | ⟨st3, h3⟩
    · exact ⟨(st', st3), by simp [Gds.Stream.zip, h', h3]⟩
    · exact ⟨(st', st3), by simp [Gds.Stream.zip, h', h3]⟩
  | @cons g g' st xs segs h hs r ih =>
    cases h2 with
    | nil h2 =>
      refine .nil (fun (l : s.L × s2.L) e => ?_)
      obtain ⟨g3, h3⟩ := h2 l.2 e
      exact ⟨(g', g3), by simp [Gds.Stream.zip, h, h3]⟩
    | @cons _ g2' st2 ys segs2 h2 hs2 r2 =>
      exact .cons (st := (st, st2)) (g' := (g', g2')) (fun (l : s.L × s2.L) e => by simp [Gds.Stream.zip, h, h2])
        (zip_pureSeg z hs hs2 (hl (xs, ys) (by simp))) (ih r2 (fun x hx => hl x (by simp [hx])))

theorem zip_splits (z : T × R) {s : Stm E T} {s2 : Stm E R} {p segs segs2} (h : Splits s p segs) (h2 : Splits s2 p segs2)
    (hl : ∀ x ∈ segs.zip segs2, x.1.length ≤ x.2.length) :
    Splits (Gds.Stream.zip z s s2) p (List.zipWith List.zip segs segs2) := zip_segsOf z h h2 hl

/-! ### FlatMap -/

section
variable {s : Stm E T} (f : T → Stm E U) (k : T → Trace E U) {zi : T → Prop}

theorem flatMap_pureSeg (hf : ∀ t, ∃ li', Runs (f t) 0 (f t).init (k t) li' (zi t)) (hk : ∀ t, (k t).Silent) {st xs} (h : PureSeg s st xs)
    {t : T} {sti : (f t).S} {li : (f t).L} {its fin sti' li'} (hi : SegRun (f t) sti li its fin sti' li')
    (h1 : ∀ it ∈ its, it.1 = id) (h2 : fin = id) :
    PureSeg (flatMap s f) (st, some ⟨t, li, sti⟩) (its.map Prod.snd ++ xs.flatMap (fun t => (k t).vals)) := by
  induction h generalizing t sti li its fin sti' li' with
  | @nil st st' h =>
    induction hi with
    | @done _ _ _ sti' li' hd =>
      subst h2
      exact .nil (st' := (st', some ⟨t, li', sti'⟩)) (fun (l : s.L) e => by simp only [flatMap]; rw [flatMapPull]; simp [hd, h])
    | @next _ _ g x sti1 li1 _ _ _ _ hn r ih =>
      have : g = id := h1 (g, x) (by simp)
      subst this
      exact .cons (st' := (st, some ⟨t, li1, sti1⟩)) (fun (l : s.L) e => by simp only [flatMap]; rw [flatMapPull]; simp [hn]) (ih (fun it hit => h1 it (by simp [hit])) h2)
  | @cons st st' x xs h r ih =>
    induction hi with
    | @done _ _ _ sti' li' hd =>
      subst h2
      obtain ⟨_, g1, stx, l1x, stx', hx1, hx2, hx3, hx4⟩ := hf x
      obtain ⟨e1, e2, e3⟩ := hk x
      have := ih hx2 e2 e3
      rw [List.map_nil, List.nil_append, List.flatMap_cons]
      refine pureSeg_of_eq (st1 := (st', some ⟨x, l1x, stx⟩)) (fun (l : s.L) e => ?_) this
      show flatMapPull s f _ _ _ = flatMapPull s f _ _ _
      conv_lhs => rw [flatMapPull]
      simp [hd, h, flatOpen, hx1, e1]
    | @next _ _ g y sti1 li1 _ _ _ _ hn r ih' =>
      have : g = id := h1 (g, y) (by simp)
      subst this
      exact .cons (st' := (st, some ⟨t, li1, sti1⟩)) (fun (l : s.L) e => by simp only [flatMap]; rw [flatMapPull]; simp [hn]) (ih' (fun it hit => h1 it (by simp [hit])) h2)

theorem flatMap_splits (hf : ∀ t, ∃ li', Runs (f t) 0 (f t).init (k t) li' (zi t)) (hk : ∀ t, (k t).Silent) {p segs} (h : Splits s p segs) :
    Splits (flatMap s f) p (segs.map (fun xs => xs.flatMap (fun t => (k t).vals))) := by
  unfold Splits at *
  show SegsOf (flatMap s f) (s.activate p) _
  generalize s.activate p = g at h
  induction h with
  | nil h =>
    exact .nil (fun (l : s.L) e => by
      obtain ⟨g', h'⟩ := h l e
      exact ⟨g', by simp [flatMap, h']⟩)
  | @cons g g' st xs segs h hs r ih =>
    rw [List.map_cons]
    cases hs with
    | @nil _ st' hn =>
      refine SegsOf.cons (s := flatMap s f) (st := (st', none)) (g' := g') (fun (l : s.L) e => by simp [flatMap, h, hn]) ?_ ih
      exact .nil (st' := (st', none)) (fun (l : s.L) e => by simp only [flatMap]; rw [flatMapPull])
    | @cons _ st' x xs hn rs =>
      obtain ⟨_, g1, stx, l1x, stx', hx1, hx2, hx3, hx4⟩ := hf x
      obtain ⟨e1, e2, e3⟩ := hk x
      refine SegsOf.cons (s := flatMap s f) (st := (st', some ⟨x, l1x, stx⟩)) (g' := g') (fun (l : s.L) e => by simp [flatMap, h, hn, flatOpen, hx1, e1]) ?_ ih
      rw [List.flatMap_cons]
      exact flatMap_pureSeg f k hf hk rs hx2 e2 e3

end

/-! ### Specification -/

/-- stream/collect.go:8-31 `Collect` calls the consumer on exactly the elements `xs`: sequentially, in that order; with a positive
    parallelism, on every schedule once per element, it always returns, and when it has returned nothing is running any more. -/
def Collects (s : Stm E T) (c : T → E → E) (l : s.L) (e : E) (xs : List T) : Prop :=
  if s.par = 0 then ∃ l', collect s c l e = .ok (l', xs.foldl (fun e x => c x e) e)
  else 0 < s.par ∧
    (∀ a, CReach s s.par.toNat c l e a → a.main = .done →
      ∃ calls : List T, calls.Perm xs ∧ a.e = calls.foldl (fun e x => c x e) e ∧ ∀ b, ¬ CStep s c a b) ∧
    Inevitably (CStep s c) (fun a => a.main = .done) (CSt.init s s.par.toNat l e)

/-- A pipeline over streams of parallelism `p`: `src` is a stream that splits into `segs` (slices and other containers do, see
    `ofSlice_cuts`); FlatMap opens sequential pipelines. -/
inductive PPipe (E : Type) (p : Nat) : Type → Type 1 where
  | src {T : Type} (s : Stm E T) (segs : List (List T)) (hp : s.par = p) (h : Splits s p segs) : PPipe E p T
  | map {T R : Type} (a : PPipe E p T) (f : T → R) : PPipe E p R
  | filter {T : Type} (a : PPipe E p T) (q : T → Bool) : PPipe E p T
  | skipWhile {T : Type} (a : PPipe E p T) (q : T → Bool) : PPipe E p T
  | flatMap {T U : Type} (a : PPipe E p T) (f : T → Pipe E U) : PPipe E p U
  | zip {T R : Type} (z : T × R) (a : PPipe E p T) (b : PPipe E p R) : PPipe E p (T × R)

namespace PPipe
variable {p : Nat}

/-- The stream value the pipeline builds (calls of the modelled constructors). -/
def stm : {T : Type} → PPipe E p T → Stm E T
  | _, .src s _ _ _ => s
  | _, .map a f => Gds.Stream.map a.stm f
  | _, .filter a q => Gds.Stream.filter a.stm q
  | _, .skipWhile a q => Gds.Stream.skipWhile a.stm q
  | _, .flatMap a f => Gds.Stream.flatMap a.stm (fun t => (f t).stm)
  | _, .zip z a b => Gds.Stream.zip z a.stm b.stm

/-- The elements, as list functions (SkipWhile filters, see C35). -/
def vals : {T : Type} → PPipe E p T → List T
  | _, .src _ segs _ _ => segs.flatten
  | _, .map a f => a.vals.map f
  | _, .filter a q => a.vals.filter q
  | _, .skipWhile a q => a.vals.filter (fun t => !q t)
  | _, .flatMap a f => a.vals.flatMap (fun t => (f t).vals)
  | _, .zip _ a b => a.vals.zip b.vals

/-- The elements of each segment. -/
def segs : {T : Type} → PPipe E p T → List (List T)
  | _, .src _ segs _ _ => segs
  | _, .map a f => a.segs.map (List.map f)
  | _, .filter a q => a.segs.map (List.filter q)
  | _, .skipWhile a q => a.segs.map (List.filter (fun t => !q t))
  | _, .flatMap a f => a.segs.map (fun xs => xs.flatMap (fun t => (f t).vals))
  | _, .zip _ a b => List.zipWith List.zip a.segs b.segs

/-- Both sides of every Zip have segments of the same sizes; inner pipelines of FlatMap have no Inspect and no badly sized Zip. -/
def Even : {T : Type} → PPipe E p T → Prop
  | _, .src _ _ _ _ => True
  | _, .map a _ => a.Even
  | _, .filter a _ => a.Even
  | _, .skipWhile a _ => a.Even
  | _, .flatMap a f => a.Even ∧ ∀ t, (f t).Fits ∧ (f t).NoInspect
  | _, .zip _ a b => a.Even ∧ b.Even ∧ a.segs.map List.length = b.segs.map List.length

/-- Every source has exactly `p` segments. -/
def Full : {T : Type} → PPipe E p T → Prop
  | _, .src _ segs _ _ => segs.length = p
  | _, .map a _ => a.Full
  | _, .filter a _ => a.Full
  | _, .skipWhile a _ => a.Full
  | _, .flatMap a _ => a.Full
  | _, .zip _ a b => a.Full ∧ b.Full

theorem par {T : Type} (a : PPipe E p T) : a.stm.par = p := by
  induction a <;> simp only [stm] <;> assumption

theorem segs_length {T : Type} (a : PPipe E p T) (h : a.Full) : a.segs.length = p := by
  induction a with
  | src => exact h
  | map _ _ ih => simpa [segs] using ih h
  | filter _ _ ih => simpa [segs] using ih h
  | skipWhile _ _ ih => simpa [segs] using ih h
  | flatMap _ _ ih => simpa [segs] using ih h
  | zip z a b ih1 ih2 => simp [segs, ih1 h.1, ih2 h.2]

theorem zip_flatten : ∀ {xs : List (List T)} {ys : List (List R)}, xs.map List.length = ys.map List.length →
    (List.zipWith List.zip xs ys).flatten = xs.flatten.zip ys.flatten
  | [], [], _ => rfl
  | [], _ :: _, h => by simp at h
  | _ :: _, [], h => by simp at h
  | x :: xs, y :: ys, h => by
    simp only [List.map_cons, List.cons.injEq] at h
    simp only [List.zipWith_cons_cons, List.flatten_cons, zip_flatten h.2, List.zip_append h.1]

theorem flatten {T : Type} (a : PPipe E p T) (h : a.Even) : a.segs.flatten = a.vals := by
  induction a with
  | src => rfl
  | map a f ih => rw [segs, ← List.map_flatten, ih h]; rfl
  | filter a q ih => rw [segs, ← List.filter_flatten, ih h]; rfl
  | skipWhile a q ih => rw [segs, ← List.filter_flatten, ih h]; rfl
  | flatMap a f ih =>
    rw [vals, ← ih h.1, segs]
    generalize a.segs = ss
    induction ss with
    | nil => rfl
    | cons x xs ih => simp [ih]
  | zip z a b ih1 ih2 => rw [segs, zip_flatten h.2.2, ih1 h.1, ih2 h.2.1]; rfl

theorem zip_le : ∀ {xs : List (List T)} {ys : List (List R)}, xs.map List.length = ys.map List.length →
    ∀ x ∈ xs.zip ys, x.1.length ≤ x.2.length
  | [], _, _, _, hx => by simp at hx
  | _ :: _, [], h, _, _ => by simp at h
  | x :: xs, y :: ys, h, v, hv => by
    simp only [List.map_cons, List.cons.injEq] at h
    simp only [List.zip_cons_cons, List.mem_cons] at hv
    rcases hv with rfl | hv
    · exact Nat.le_of_eq h.1
    · exact zip_le h.2 v hv

theorem splits {T : Type} (a : PPipe E p T) (h : a.Even) : Splits a.stm p a.segs := by
  induction a with
  | src _ _ _ hs => exact hs
  | map a f ih => exact map_splits f (ih h)
  | filter a q ih => exact filter_splits q (ih h)
  | skipWhile a q ih => exact skipWhile_splits q (ih h)
  | flatMap a f ih =>
    have := flatMap_splits (fun t => (f t).stm) (fun t => (f t).trace) (fun t => (f t).runs (h.2 t).1) (fun t => (f t).silent (h.2 t).2) (ih h.1)
    simp only [Pipe.vals_trace] at this
    exact this
  | zip z a b ih1 ih2 => exact zip_splits z (ih1 h.1) (ih2 h.2.1) (zip_le h.2.2)

end PPipe

/-! ### C91 -/

theorem collects_par {s : Stm E T} {p : Nat} (h0 : s.par = p) (hp : 0 < p) (c : T → E → E) {segs : List (List T)} (hs : Splits s p segs)
    (l : s.L) (e : E) : Collects s c l e segs.flatten := by
  have e1 : s.par.toNat = p := by omega
  rw [Collects, if_neg (by omega), e1]
  refine ⟨by omega, fun a h hd => ?_, ?_⟩
  · obtain ⟨calls, k1, _, k3⟩ := parCollect_result c hs l e a h
    exact ⟨calls, (k3 hd).1, k1, (k3 hd).2⟩
  · exact inevitably_of (CReach s p c l e) CSt.work (fun _ _ h hst => .step h hst)
      (fun c h => parCollect_progress hs l e c h) (fun c c' h hst => parCollect_terminates hs l e c c' h hst) _ .init

/-- C91: Collect over a parallel pipeline calls the consumer exactly once per element of the pipeline, on every schedule, and always
    returns. -/
theorem collect_parallel_pipeline_partial {p : Nat} (hp : 0 < p) (a : PPipe E p T) (h : a.Even) (c : T → E → E) (e : E) :
    Collects a.stm c a.stm.init e a.vals := by
  rw [← a.flatten h]
  exact collects_par a.par hp c (a.splits h) _ _

/-- C91: FoldWith over a parallel pipeline, for a commutative monoid, is on every schedule the sequential fold over its elements,
    provided every source has exactly p segments. -/
theorem foldWith_parallel_pipeline_partial {p : Nat} (hp : 0 < p) (a : PPipe E p T) (h : a.Even) (hF : a.Full) {ini : R} {f : R → T → R}
    {comb : R → R → R} (hc : ∀ a b, comb a b = comb b a) (ha : ∀ a b c, comb (comb a b) c = comb a (comb b c))
    (hi : ∀ a, comb ini a = a) (hf : ∀ a x, f a x = comb a (f ini x)) (e : E) :
    FoldWithReturns a.stm ini f comb a.stm.init e (a.vals.foldl f ini) := by
  rw [← a.flatten h]
  exact foldWith_returns_par a.par hp (a.splits h) (a.segs_length hF) _ _
    (parFold_monoid (a.splits h) (a.segs_length hF) hc ha hi hf _ _)

/-- The parallel pipeline that is just a slice with p ≤ len(s). -/
def PPipe.slice {p : Nat} (m : Slice.Mem T) (s : Slice.Hdr) (hs : m.Ok s) (hp : 1 ≤ p) (hl : p ≤ s.len) : PPipe E p T :=
  .src (ofSlice m s p) (Slice.cuts (s.len / p) (m.view s)) rfl (ofSlice_cuts m s hs p hp hl p)

theorem PPipe.slice_vals {p : Nat} (m : Slice.Mem T) (s : Slice.Hdr) (hs : m.Ok s) (hp : 1 ≤ p) (hl : p ≤ s.len) :
    (PPipe.slice (E := E) m s hs hp hl).vals = m.view s :=
  Slice.cuts_flatten (Nat.div_pos hl (by omega)) _

theorem PPipe.slice_full {p : Nat} (m : Slice.Mem T) (s : Slice.Hdr) (hs : m.Ok s) (hp : 1 ≤ p) (hl : p ≤ s.len) (hd : p ∣ s.len) :
    (PPipe.slice (E := E) m s hs hp hl).Full := by
  have := (cuts_facts (m.view s) p hp (by simpa using hl)).2.2.2
  rw [show (m.view s).length = s.len by simp] at this
  exact this.2 hd

/-- C91 for Zip: a parallel Zip of two slices of the same length pairs elements of equal index. -/
theorem parZip_partial {p : Nat} (z : T × R) (m : Slice.Mem T) (s : Slice.Hdr) (hs : m.Ok s) (m' : Slice.Mem R) (s' : Slice.Hdr) (hs' : m'.Ok s')
    (hp : 1 ≤ p) (hl : p ≤ s.len) (he : s.len = s'.len) (c : T × R → E → E) (e : E) :
    Collects (Gds.Stream.zip z (ofSlice m s p) (ofSlice m' s' p)) c ((), ()) e ((m.view s).zip (m'.view s')) := by
  have hl' : p ≤ s'.len := by omega
  have hE : (PPipe.zip z (.slice (E := E) m s hs hp hl) (.slice m' s' hs' hp hl')).Even := by
    refine ⟨trivial, trivial, ?_⟩
    simp only [PPipe.slice, PPipe.segs, ← he]
    exact Slice.cuts_sizes (Nat.div_pos hl (by omega)) _ _ (by simp [he])
  have := collect_parallel_pipeline_partial hp _ hE c e
  rw [PPipe.vals, PPipe.slice_vals, PPipe.slice_vals] at this
  exact this

theorem inevitably_reach {s : Stm E T} {p : Nat} {c : T → E → E} {l : s.L} {e : E} {a : CSt s} (hr : CReach s p c l e a)
    (h : Inevitably (CStep s c) (fun a => a.main = .done) a) : ∃ b, CReach s p c l e b ∧ b.main = .done := by
  induction h with
  | here h => exact ⟨_, hr, h⟩
  | next h _ ih => obtain ⟨b, hb⟩ := h; exact ih b hb (.step hr hb)

/-- What Collect delivers is determined up to order. -/
theorem Collects.unique {s : Stm (List T) T} {l : s.L} {e : List T} {xs ys : List T}
    (h : Collects s (fun x e => e ++ [x]) l e xs) (h' : Collects s (fun x e => e ++ [x]) l e ys) : xs.Perm ys := by
  have key : ∀ (zs : List T) e, zs.foldl (fun e x => e ++ [x]) e = e ++ zs := by
    intro zs
    induction zs with
    | nil => simp
    | cons z zs ih => intro e; simp [ih]
  unfold Collects at h h'
  by_cases h0 : s.par = 0
  · rw [if_pos h0] at h h'
    obtain ⟨l1, h⟩ := h
    obtain ⟨l2, h'⟩ := h'
    rw [h] at h'
    simp only [key, Res.ok.injEq, Prod.mk.injEq, List.append_cancel_left_eq] at h'
    rw [h'.2]
  · rw [if_neg h0] at h h'
    obtain ⟨b, hb, hd⟩ := inevitably_reach (p := s.par.toNat) .init h.2.2
    obtain ⟨cs, h1, h2, -⟩ := h.2.1 b hb hd
    obtain ⟨cs', h1', h2', -⟩ := h'.2.1 b hb hd
    rw [h2, key, key, List.append_cancel_left_eq] at h2'
    exact h1.symm.trans (h2' ▸ h1')

/-- A memory whose cell k holds k + 1. -/
def memUp : Slice.Mem Int := { cell := fun _ k => k + 1, size := fun _ => 6, next := 1 }
/-- Its first four elements. -/
def hdrUp4 : Slice.Hdr := { arr := 0, off := 0, len := 4, cap := 6 }
/-- All its elements. -/
def hdrUp6 : Slice.Hdr := { arr := 0, off := 0, len := 6, cap := 6 }

/-- C91 is false in general: a parallel Zip pairs segment by segment, so with a right side of another length (here 4 and 6
    elements, p = 2) elements of different index are paired: (3,4) and (4,5) instead of (3,3) and (4,4). -/
theorem parZip_refuted :
    ¬ ∀ (m : Slice.Mem Int) (s s' : Slice.Hdr) (p : Nat), m.Ok s → m.Ok s' → 1 ≤ p → p ≤ s.len → s.len ≤ s'.len →
      Collects (E := List (Int × Int)) (Gds.Stream.zip (0, 0) (ofSlice m s p) (ofSlice m s' p)) (fun x e => e ++ [x]) ((), ()) []
        ((m.view s).zip (m.view s')) := by
  intro h
  have h1 := h memUp hdrUp4 hdrUp6 2 ⟨by decide, by decide, by decide, by decide⟩ ⟨by decide, by decide, by decide, by decide⟩
    (by decide) (by decide) (by decide)
  have s1 := ofSlice_cuts (E := List (Int × Int)) memUp hdrUp4 ⟨by decide, by decide, by decide, by decide⟩ 2 (by decide) (by decide) 2
  have s2 := ofSlice_cuts (E := List (Int × Int)) memUp hdrUp6 ⟨by decide, by decide, by decide, by decide⟩ 2 (by decide) (by decide) 2
  have e1 : Slice.cuts (4 / 2) (memUp.view hdrUp4) = [[1, 2], [3, 4]] := by decide +kernel
  have e2 : Slice.cuts (6 / 2) (memUp.view hdrUp6) = [[1, 2, 3], [4, 5, 6]] := by decide +kernel
  rw [show hdrUp4.len = 4 from rfl, e1] at s1
  rw [show hdrUp6.len = 6 from rfl, e2] at s2
  have h2 := collects_par (s := Gds.Stream.zip (0, 0) (ofSlice memUp hdrUp4 2) (ofSlice memUp hdrUp6 2)) (p := 2) rfl (by decide)
    (fun x e => e ++ [x]) (zip_splits (0, 0) s1 s2 (by decide)) ((), ()) []
  have h3 := Collects.unique h1 h2
  exact absurd h3 (by decide +kernel)

/-- The hypotheses of C91 are met: Zip of a mapped slice with a slice, both of length 4, filtered, p = 2. -/
example : ∃ a : PPipe Unit 2 (Int × Int), a.Even ∧ a.Full ∧ a.vals = [(20, 2), (40, 4)] := by
  have ok : memUp.Ok hdrUp4 := ⟨by decide, by decide, by decide, by decide⟩
  have h1 : 1 ≤ 2 := by decide
  have h2 : 2 ≤ hdrUp4.len := by decide
  let a : PPipe Unit 2 Int := .slice memUp hdrUp4 ok h1 h2
  have hF : a.Full := PPipe.slice_full _ _ ok h1 h2 (by decide)
  refine ⟨.filter (.zip (0, 0) (.map a (· * 10)) a) (fun x => x.2 % 2 = 0), ?_, ?_, ?_⟩
  · simp only [PPipe.Even]
    exact ⟨trivial, trivial, by simp [PPipe.segs]⟩
  · simp only [PPipe.Full]
    exact ⟨hF, hF⟩
  · have : a.vals = [1, 2, 3, 4] := (PPipe.slice_vals _ _ ok h1 h2).trans (by decide +kernel)
    simp only [PPipe.vals, this]
    decide +kernel

end Gds.Stream
