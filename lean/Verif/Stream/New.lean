import Verif.Stream.ParLemmas

/-! `stream.New` over the `SplitableIter` of any container. -/

namespace Gds.Stream

variable {E T G S : Type}

/-- stream/stream.go:17-19 `New(generater, p)` for a generator whose segmenter and segments are iterators (no effect on the
environment): `start q` is the initial state of the segmenter of `generater(q)`, `seg q` one call of that segmenter, `pull` one call
of a segment.  Simplification: a panic of `generater(q)` itself shows up in the first call of its segmenter. -/
def new (start : Int → Res G) (seg : Int → Iter.Next G S) (pull : Iter.Next S T) (p : Int) : Stm E T where
  L := Unit
  G := Int × Res G
  S := S
  init := ()
  par := p
  activate := fun q => (q, start q)
  seg := fun g l e => do
    let g0 ← g.2
    let r ← seg g.1 g0
    pure (r.1, (g.1, .ok r.2), l, e)
  pull := fun st l e => do
    let r ← pull st
    pure (r.1, r.2, l, e)

variable {start : Int → Res G} {seg : Int → Iter.Next G S} {pull : Iter.Next S T}

theorem new_pureSeg {st st' : S} {vs : List T} (p : Int) (h : Iter.Yields pull st vs st') {st''} (hend : pull st' = .ok (none, st'')) :
    PureSeg (new (E := E) start seg pull p) st vs := by
  induction h with
  | nil g => exact .nil (st' := st'') fun l e => by simp [new, hend]
  | cons h1 _ ih => exact .cons (fun l e => by simp [new, h1]) (ih hend)

theorem new_segsOf (q p : Int) {i st : G} {segs : List (S × List T)} (h : Iter.Yields (seg q) i (segs.map (·.1)) st)
    (hend : seg q st = .ok (none, st)) (hs : ∀ g ∈ segs, ∃ g' g'', Iter.Yields pull g.1 g.2 g' ∧ pull g' = .ok (none, g'')) :
    SegsOf (new (E := E) start seg pull p) (q, .ok i) (segs.map (·.2)) := by
  induction segs generalizing i with
  | nil =>
    cases h
    exact .nil fun l e => ⟨(q, .ok st), by simp [new, hend]⟩
  | cons g segs ih =>
    rw [List.map_cons] at h
    cases h with
    | @cons _ _ i1 _ _ h1 r =>
      obtain ⟨g', g'', h2, h3⟩ := hs g (by simp)
      exact .cons (st := g.1) (g' := (q, .ok i1)) (fun l e => by simp [new, h1]) (new_pureSeg p h2 h3)
        (ih r (fun g hg => hs g (by simp [hg])))

/-- Segments of the iterator are segments of the stream. -/
theorem new_splits (q p : Int) {i st : G} {segs : List (S × List T)} (h0 : start q = .ok i)
    (h : Iter.Yields (seg q) i (segs.map (·.1)) st) (hend : seg q st = .ok (none, st))
    (hs : ∀ g ∈ segs, ∃ g' g'', Iter.Yields pull g.1 g.2 g' ∧ pull g' = .ok (none, g'')) :
    Splits (new (E := E) start seg pull p) q (segs.map (·.2)) := by
  show SegsOf (new (E := E) start seg pull p) (q, start q) _
  rw [h0]
  exact new_segsOf q p h hend hs

theorem new_delivers {z : Prop} {st st' st'' : S} {vs : List T} (p : Int) (h : Iter.Yields pull st vs st')
    (hend : pull st' = .ok (none, st'')) (hz : z → pull st'' = .ok (none, st'')) :
    Delivers (new (E := E) start seg pull p) () z st vs := by
  induction h with
  | nil g => exact .done (st' := st'') (fun e => by simp [new, hend]) fun hz' e => by simp [new, hz hz']
  | cons h1 _ ih => exact .next (fun e => by simp [new, h1]) (ih hend)

/-- An iterator with one segment is a source. -/
theorem new_source {z : Prop} {i i1 : G} {st st' st'' : S} {vs : List T} (h0 : start 0 = .ok i) (h : seg 0 i = .ok (some st, i1))
    (hi : seg 0 i1 = .ok (none, i1)) (hs : Iter.Yields pull st vs st')
    (hend : pull st' = .ok (none, st'')) (hz : z → pull st'' = .ok (none, st'')) :
    Source (new (E := E) start seg pull 0) vs z := by
  refine ⟨rfl, fun _ => ⟨st, (0, .ok i1), fun e => ?_, new_delivers 0 hs hend hz, fun l e => ⟨(0, .ok i1), ?_⟩⟩⟩
  · simp [new, h0, h]
  · simp [new, hi]

end Gds.Stream
