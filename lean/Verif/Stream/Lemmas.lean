import Verif.Stream.Spec
import Verif.Slice.Props

namespace Gds.Stream

variable {E T R U : Type}

/-- Pulling from `st` delivers exactly `its` and then reports the end, whatever the environment. -/
inductive SegRun (s : Stm E T) : s.S → s.L → List ((E → E) × T) → (E → E) → s.S → s.L → Prop where
  | done {st l fin st' l'} (h : ∀ e, s.pull st l e = .ok (none, st', l', fin e)) :
      SegRun s st l [] fin st' l'
  | next {st l f x st1 l1 its fin st' l'} (h : ∀ e, s.pull st l e = .ok (some x, st1, l1, f e))
      (r : SegRun s st1 l1 its fin st' l') : SegRun s st l ((f, x) :: its) fin st' l'

/-- Asked again, the segment answers "end" and nothing changes. -/
def Stuck (s : Stm E T) (st : s.S) (l : s.L) : Prop := ∀ e, s.pull st l e = .ok (none, st, l, e)

/-- Activating with `p` when the counters are `l` gives one segment, which delivers `tr`; afterwards
    the counters are `l'`, and if `z` holds the segment can be asked again. -/
def Runs (s : Stm E T) (p : Int) (l : s.L) (tr : Trace E T) (l' : s.L) (z : Prop) : Prop :=
  ∃ g1 st l1 st', (∀ e, s.seg (s.activate p) l e = .ok (some st, g1, l1, tr.start e)) ∧
    SegRun s st l1 tr.body.items tr.body.fin st' l' ∧
    (∀ l e, ∃ g2, s.seg g1 l e = .ok (none, g2, l, e)) ∧ (z → Stuck s st' l')

theorem SegRun.after {s : Stm E T} {st l st1 l1 f its fin st' l'}
    (h : ∀ e, s.pull st l e = s.pull st1 l1 (f e)) (r : SegRun s st1 l1 its fin st' l') :
    SegRun s st l (Body.after f ⟨its, fin⟩).items (Body.after f ⟨its, fin⟩).fin st' l' := by
  cases r with
  | done hd => exact .done (fun e => by rw [h, hd]; rfl)
  | next hn r => exact .next (fun e => by rw [h, hn]; rfl) r

theorem SegRun.after' {s : Stm E T} {st l st1 l1 f st' l'} {b : Body E T}
    (h : ∀ e, s.pull st l e = s.pull st1 l1 (f e)) (r : SegRun s st1 l1 b.items b.fin st' l') :
    SegRun s st l (b.after f).items (b.after f).fin st' l' := SegRun.after h r

/-! ### Source -/

theorem ofSlice_delivers (m : Slice.Mem T) (s h : Slice.Hdr) (p : Int) (k n : Nat) (hk : n + k = h.len) :
    Delivers (ofSlice (E := E) m s p) () True (h, k) ((m.view h).drop k) := by
  induction n generalizing k with
  | zero =>
    rw [List.drop_eq_nil_of_le (by simp; omega)]
    have : ∀ e : E, (ofSlice m s p).pull (h, k) () e = .ok (none, (h, k), (), e) := fun e => by
      simp [ofSlice, Slice.iter, show ¬ k < h.len by omega]
    exact .done this fun _ => this
  | succ n ih =>
    have hk' : k < h.len := by omega
    rw [List.drop_eq_getElem_cons (by simpa using hk')]
    refine .next (st' := (h, k + 1)) (fun e => ?_) (ih (k + 1) (by omega))
    simp [ofSlice, Slice.iter, hk', Slice.get_view m h k hk']

/-- A slice is a source with its elements. -/
theorem ofSlice_source (m : Slice.Mem T) (s : Slice.Hdr) : Source (ofSlice (E := E) m s 0) (m.view s) True := by
  have hd := ofSlice_delivers (E := E) m s s 0 0 s.len (by omega)
  rw [List.drop_zero] at hd
  refine ⟨rfl, fun _ => ⟨(s, 0), (0, 1), fun e => ?_, hd, fun l e => ⟨(0, 1), ?_⟩⟩⟩
  · simp [ofSlice, Slice.splitableIter]
  · simp [ofSlice, Slice.splitableIter]

theorem delivers_segRun {s : Stm E T} {l : s.L} {z st xs} (h : Delivers s l z st xs) :
    ∃ st', SegRun s st l (xs.map (fun x => (id, x))) id st' l ∧ (z → Stuck s st' l) := by
  induction h with
  | done h hz => exact ⟨_, .done h, hz⟩
  | next h r ih =>
    obtain ⟨st', h1, h2⟩ := ih
    exact ⟨st', .next h h1, h2⟩

theorem source_runs {s : Stm E T} {xs : List T} {z : Prop} (h : Source s xs z) (l : s.L) : Runs s 0 l ⟨id, Body.pure xs⟩ l z := by
  obtain ⟨st, g1, h1, h2, h3⟩ := h.2 l
  obtain ⟨st', h4, h5⟩ := delivers_segRun h2
  exact ⟨g1, st, l, st', h1, h4, h3, h5⟩

/-! ### Map, Filter, Inspect, SkipWhile -/

theorem map_segRun {s : Stm E T} (f : T → R) {st l its fin st' l'} (r : SegRun s st l its fin st' l') :
    SegRun (map s f) st l (its.map (fun it => (it.1, f it.2))) fin st' l' := by
  induction r with
  | done h => exact .done (fun e => by simp [map, h])
  | next h r ih => exact .next (fun e => by simp [map, h]) ih

theorem map_stuck {s : Stm E T} (f : T → R) {st l} (h : Stuck s st l) : Stuck (map s f) st l :=
  fun e => by simp [map, h e]

theorem map_runs {s : Stm E T} (f : T → R) {p l tr l' z} (h : Runs s p l tr l' z) :
    Runs (map s f) p l ⟨tr.start, ⟨tr.body.items.map (fun it => (it.1, f it.2)), tr.body.fin⟩⟩ l' z := by
  obtain ⟨g1, st, l1, st', h1, h2, h3, hs⟩ := h
  exact ⟨g1, st, l1, st', h1, map_segRun f h2, h3, fun hz => map_stuck f (hs hz)⟩

theorem inspect_segRun {s : Stm E T} (g : T → E → E) {st l its fin st' l'} (r : SegRun s st l its fin st' l') :
    SegRun (inspect s g) st l (its.map (fun it => (g it.2 ∘ it.1, it.2))) fin st' l' := by
  induction r with
  | done h => exact .done (fun e => by simp [inspect, h])
  | next h r ih => exact .next (fun e => by simp [inspect, h]) ih

theorem inspect_stuck {s : Stm E T} (g : T → E → E) {st l} (h : Stuck s st l) : Stuck (inspect s g) st l :=
  fun e => by simp [inspect, h e]

theorem inspect_runs {s : Stm E T} (g : T → E → E) {p l tr l' z} (h : Runs s p l tr l' z) :
    Runs (inspect s g) p l ⟨tr.start, ⟨tr.body.items.map (fun it => (g it.2 ∘ it.1, it.2)), tr.body.fin⟩⟩ l' z := by
  obtain ⟨g1, st, l1, st', h1, h2, h3, hs⟩ := h
  exact ⟨g1, st, l1, st', h1, inspect_segRun g h2, h3, fun hz => inspect_stuck g (hs hz)⟩

theorem filter_segRun {s : Stm E T} (q : T → Bool) {st l its fin st' l'} (r : SegRun s st l its fin st' l') :
    SegRun (filter s q) st l (Body.filter q its fin).items (Body.filter q its fin).fin st' l' := by
  induction r with
  | done h => exact .done (fun e => by simp [filter]; rw [filterPull]; simp [h, Body.filter])
  | @next st l f x st1 l1 its fin st' l' h r ih =>
    unfold Body.filter
    split
    · next hq => exact .next (fun e => by simp [filter]; rw [filterPull]; simp [h, hq] <;> rfl) ih
    · next hq =>
      refine SegRun.after' (fun e => ?_) ih
      show filterPull s q _ _ _ = filterPull s q _ _ _
      conv_lhs => rw [filterPull]
      simp [h, hq]

theorem filter_stuck {s : Stm E T} (q : T → Bool) {st l} (h : Stuck s st l) : Stuck (filter s q) st l :=
  fun e => by simp [filter]; rw [filterPull]; simp [h e]

theorem filter_runs {s : Stm E T} (q : T → Bool) {p l tr l' z} (h : Runs s p l tr l' z) :
    Runs (filter s q) p l ⟨tr.start, Body.filter q tr.body.items tr.body.fin⟩ l' z := by
  obtain ⟨g1, st, l1, st', h1, h2, h3, hs⟩ := h
  exact ⟨g1, st, l1, st', h1, filter_segRun q h2, h3, fun hz => filter_stuck q (hs hz)⟩

theorem skipWhile_segRun {s : Stm E T} (q : T → Bool) {st l its fin st' l'} (r : SegRun s st l its fin st' l') :
    SegRun (skipWhile s q) st l (Body.filter (fun t => !q t) its fin).items
      (Body.filter (fun t => !q t) its fin).fin st' l' := by
  induction r with
  | done h => exact .done (fun e => by simp [skipWhile]; rw [skipWhilePull]; simp [h, Body.filter])
  | @next st l f x st1 l1 its fin st' l' h r ih =>
    unfold Body.filter
    split
    · next hq =>
      simp at hq
      exact .next (fun e => by simp [skipWhile]; rw [skipWhilePull]; simp [h, hq] <;> rfl) ih
    · next hq =>
      simp at hq
      refine SegRun.after' (fun e => ?_) ih
      show skipWhilePull s q _ _ _ = skipWhilePull s q _ _ _
      conv_lhs => rw [skipWhilePull]
      simp [h, hq]

theorem skipWhile_stuck {s : Stm E T} (q : T → Bool) {st l} (h : Stuck s st l) : Stuck (skipWhile s q) st l :=
  fun e => by simp [skipWhile]; rw [skipWhilePull]; simp [h e]

theorem skipWhile_runs {s : Stm E T} (q : T → Bool) {p l tr l' z} (h : Runs s p l tr l' z) :
    Runs (skipWhile s q) p l ⟨tr.start, Body.filter (fun t => !q t) tr.body.items tr.body.fin⟩ l' z := by
  obtain ⟨g1, st, l1, st', h1, h2, h3, hs⟩ := h
  exact ⟨g1, st, l1, st', h1, skipWhile_segRun q h2, h3, fun hz => skipWhile_stuck q (hs hz)⟩

/-! ### Zip -/

theorem zip_stuck (z : T × R) {s : Stm E T} {s2 : Stm E R} {st l st2 l2} (h : Stuck s st l) (h2 : Stuck s2 st2 l2) :
    Stuck (zip z s s2) (st, st2) (l, l2) := fun e => by simp [zip, h e, h2 e]

/-- The right side has ended: the rest of the left side, as zero pairs. -/
theorem zip_padRun (z : T × R) {s : Stm E T} {s2 : Stm E R} {st l its fin st' l'} (r : SegRun s st l its fin st' l')
    {st2 l2} (h2 : Stuck s2 st2 l2) :
    SegRun (zip z s s2) (st, st2) (l, l2) (its.map (fun it => (it.1, z))) fin (st', st2) (l', l2) := by
  induction r with
  | done h => exact .done (fun e => by simp [zip, h, h2 _])
  | next h r ih => exact .next (fun e => by simp [zip, h, h2 _] <;> first | rfl | exact ⟨rfl, rfl⟩) ih

theorem zip_segRun (z : T × R) {s : Stm E T} {s2 : Stm E R} {st l its fin st' l'} (r : SegRun s st l its fin st' l')
    {st2 l2 its2 fin2 st2' l2'} (r2 : SegRun s2 st2 l2 its2 fin2 st2' l2')
    (hf : its.length ≤ its2.length ∨ Stuck s2 st2' l2') :
    ∃ st3 l3, SegRun (zip z s s2) (st, st2) (l, l2) (Body.zip z its fin its2 fin2).items
      (Body.zip z its fin its2 fin2).fin st3 l3 ∧
      (Stuck s st' l' → Stuck s2 st2' l2' → its2.length ≤ its.length → Stuck (zip z s s2) st3 l3) := by
  induction r generalizing st2 l2 its2 with
  | @done st l fin st' l' h =>
    cases r2 with
    | done h2 =>
      exact ⟨(st', st2'), (l', l2'), .done (fun e => by simp [zip, h, h2, Body.zip]),
        fun a b _ => zip_stuck z a b⟩
    | @next _ _ f2 x2 st21 l21 _ _ _ _ h2 r2 =>
      exact ⟨(st', st21), (l', l21), .done (fun e => by simp [zip, h, h2, Body.zip]),
        fun _ _ c => by simp at c⟩
  | @next st l f x st1 l1 its fin st' l' h r ih =>
    cases r2 with
    | done h2 =>
      have hk : Stuck s2 st2' l2' := by
        rcases hf with hf | hf
        · simp at hf
        · exact hf
      exact ⟨_, _, .next (st1 := (st1, st2')) (l1 := (l1, l2')) (fun e => by simp [zip, h, h2]) (zip_padRun z r hk),
        fun a b _ => zip_stuck z a b⟩
    | @next _ _ f2 x2 st21 l21 _ _ _ _ h2 r2 =>
      obtain ⟨st3, l3, r3, hk⟩ := ih r2 (by simpa using hf)
      exact ⟨st3, l3, .next (fun e => by simp [zip, h, h2] <;> first | rfl | exact ⟨rfl, rfl⟩) r3,
        fun a b c => hk a b (by simpa using c)⟩

theorem zip_runs (z : T × R) {s : Stm E T} {s2 : Stm E R} {p l tr l' z1 l2 tr2 l2' z2} (h : Runs s p l tr l' z1)
    (h' : Runs s2 p l2 tr2 l2' z2) (hf : tr.body.items.length ≤ tr2.body.items.length ∨ z2) :
    ∃ l3, Runs (zip z s s2) p (l, l2) ⟨tr2.start ∘ tr.start,
      Body.zip z tr.body.items tr.body.fin tr2.body.items tr2.body.fin⟩ l3
      (z1 ∧ z2 ∧ tr2.body.items.length ≤ tr.body.items.length) := by
  obtain ⟨g1, st, l1, st', h1, h2, h3, hs⟩ := h
  obtain ⟨g1', stb, l1b, stb', h1', h2', h3', hs'⟩ := h'
  obtain ⟨st3, l3, r, hk⟩ := zip_segRun z h2 h2' (hf.imp id hs')
  refine ⟨l3, (g1, g1'), (st, stb), (l1, l1b), st3, fun e => by simp [zip, h1, h1'], r, fun l e => ?_,
    fun hz => hk (hs hz.1) (hs' hz.2.1) hz.2.2⟩
  obtain ⟨g2, e2⟩ := h3 l.1 e
  obtain ⟨g2', e2'⟩ := h3' l.2 e
  exact ⟨(g2, g2'), by simp [zip, e2, e2'] <;> rfl⟩

/-! ### Take, Skip, Enumerate -/

theorem take_segRun {s : Stm E T} (n : Int) {st l its fin st' l'} (r : SegRun s st l its fin st' l')
    (c : Int) : ∃ st3 l3, SegRun (take s n) st (c, l) (Body.take (n - c).toNat its fin).items
      (Body.take (n - c).toNat its fin).fin st3 (c + Min.min (n - c).toNat its.length, l3) ∧
      (Stuck s st' l' → Stuck (take s n) st3 (c + Min.min (n - c).toNat its.length, l3)) := by
  induction r generalizing c with
  | @done st l fin st' l' h =>
    by_cases hc : c < n
    · obtain ⟨k, hk⟩ : ∃ k, (n - c).toNat = k + 1 := ⟨(n - c).toNat - 1, by omega⟩
      rw [hk]
      exact ⟨st', l', .done (fun e => by simp [take, hc, h, Body.take]), fun hk e => by simp [take, hc, hk e]⟩
    · rw [show (n - c).toNat = 0 by omega]
      exact ⟨st, l, .done (fun e => by simp [take, hc, Body.take]), fun _ e => by simp [take, hc]⟩
  | @next st l f x st1 l1 its fin st' l' h r ih =>
    by_cases hc : c < n
    · obtain ⟨k, hk⟩ : ∃ k, (n - c).toNat = k + 1 := ⟨(n - c).toNat - 1, by omega⟩
      obtain ⟨st3, l3, r3, hk3⟩ := ih (c + 1)
      have e1 : (n - (c + 1)).toNat = k := by omega
      rw [e1] at r3 hk3
      rw [hk]
      have e2 : c + 1 + ((Min.min k its.length : Nat) : Int) = c + ((Min.min (k + 1) (its.length + 1) : Nat) : Int) := by omega
      rw [e2] at r3 hk3
      exact ⟨st3, l3, .next (fun e => by simp [take, hc, h] <;> rfl) r3, hk3⟩
    · rw [show (n - c).toNat = 0 by omega]
      exact ⟨st, l, .done (fun e => by simp [take, hc, Body.take]), fun _ e => by simp [take, hc]⟩

theorem take_runs {s : Stm E T} (n : Int) {p l tr l' z} (h : Runs s p l tr l' z) (c : Int) :
    ∃ l3, Runs (take s n) p (c, l) ⟨tr.start, Body.take (n - c).toNat tr.body.items tr.body.fin⟩
      (c + Min.min (n - c).toNat tr.body.items.length, l3) z := by
  obtain ⟨g1, st, l1, st', h1, h2, h3, hs⟩ := h
  obtain ⟨st3, l3, r, hk⟩ := take_segRun n h2 c
  refine ⟨l3, g1, st, (c, l1), st3, fun e => by simp [take, h1], r, fun l e => ?_, fun hz => hk (hs hz)⟩
  obtain ⟨g2, e2⟩ := h3 l.2 e
  exact ⟨g2, by simp [take, e2] <;> rfl⟩

theorem skip_segRun {s : Stm E T} (n : Int) {st l its fin st' l'} (r : SegRun s st l its fin st' l')
    (c : Int) : SegRun (skip s n) st (c, l) (Body.drop (n - 1 - c).toNat its fin).items
      (Body.drop (n - 1 - c).toNat its fin).fin st' (c + its.length, l') := by
  induction r generalizing c with
  | @done st l fin st' l' h =>
    have hd : Body.drop (n - 1 - c).toNat ([] : List ((E → E) × T)) fin = ⟨[], fin⟩ := by
      cases (n - 1 - c).toNat <;> rfl
    rw [hd]
    exact .done (fun e => by simp [skip]; rw [skipPull]; simp [h])
  | @next st l f x st1 l1 its fin st' l' h r ih =>
    have e2 : c + 1 + (its.length : Int) = c + ((((f, x) :: its).length : Nat) : Int) := by
      simp; omega
    have ih' := ih (c + 1)
    rw [e2] at ih'
    by_cases hc : c + 1 < n
    · obtain ⟨k, hk⟩ : ∃ k, (n - 1 - c).toNat = k + 1 := ⟨(n - 1 - c).toNat - 1, by omega⟩
      rw [hk]
      have e1 : (n - 1 - (c + 1)).toNat = k := by omega
      rw [e1] at ih'
      refine SegRun.after' (fun e => ?_) ih'
      show skipPull s n _ _ _ = skipPull s n _ _ _
      conv_lhs => rw [skipPull]
      simp [h, hc]
    · have e1 : (n - 1 - (c + 1)).toNat = 0 := by omega
      rw [e1] at ih'
      rw [show (n - 1 - c).toNat = 0 by omega]
      exact .next (fun e => by simp [skip]; rw [skipPull]; simp [h, hc] <;> rfl) ih'

theorem skip_stuck {s : Stm E T} (n c : Int) {st l} (h : Stuck s st l) : Stuck (skip s n) st (c, l) :=
  fun e => by simp [skip]; rw [skipPull]; simp [h e]

theorem skip_runs {s : Stm E T} (n : Int) {p l tr l' z} (h : Runs s p l tr l' z) (c : Int) :
    Runs (skip s n) p (c, l) ⟨tr.start, Body.drop (n - 1 - c).toNat tr.body.items tr.body.fin⟩
      (c + tr.body.items.length, l') z := by
  obtain ⟨g1, st, l1, st', h1, h2, h3, hs⟩ := h
  refine ⟨g1, st, (c, l1), st', fun e => by simp [skip, h1], skip_segRun n h2 c, fun l e => ?_,
    fun hz => skip_stuck n _ (hs hz)⟩
  obtain ⟨g2, e2⟩ := h3 l.2 e
  exact ⟨g2, by simp [skip, e2] <;> rfl⟩

theorem enumerate_segRun {s : Stm E T} {st l its fin st' l'} (r : SegRun s st l its fin st' l')
    (c : Int) : SegRun (enumerate s) st (c, l) (Body.number c its) fin st' (c + its.length, l') := by
  induction r generalizing c with
  | done h => exact .done (fun e => by simp [enumerate, h])
  | @next st l f x st1 l1 its fin st' l' h r ih =>
    have e2 : c + 1 + (its.length : Int) = c + ((((f, x) :: its).length : Nat) : Int) := by
      simp; omega
    have ih' := ih (c + 1)
    rw [e2] at ih'
    exact .next (fun e => by simp [enumerate, h] <;> rfl) ih'

theorem enumerate_stuck {s : Stm E T} (c : Int) {st l} (h : Stuck s st l) : Stuck (enumerate s) st (c, l) :=
  fun e => by simp [enumerate, h e]

theorem enumerate_runs {s : Stm E T} {p l tr l' z} (h : Runs s p l tr l' z) (c : Int) :
    Runs (enumerate s) p (c, l) ⟨tr.start, ⟨Body.number c tr.body.items, tr.body.fin⟩⟩
      (c + tr.body.items.length, l') z := by
  obtain ⟨g1, st, l1, st', h1, h2, h3, hs⟩ := h
  refine ⟨g1, st, (c, l1), st', fun e => by simp [enumerate, h1], enumerate_segRun h2 c, fun l e => ?_,
    fun hz => enumerate_stuck _ (hs hz)⟩
  obtain ⟨g2, e2⟩ := h3 l.2 e
  exact ⟨g2, by simp [enumerate, e2] <;> rfl⟩

/-! ### Body algebra -/

theorem Body.append_nil (b : Body E T) (fin : E → E) : b.append ⟨[], fin⟩ = ⟨b.items, fin ∘ b.fin⟩ := by
  simp [Body.append, Body.after]

theorem Body.nil_append (fin : E → E) (b : Body E T) : Body.append ⟨[], fin⟩ b = b.after fin := by
  simp [Body.append]

theorem Body.after_after (f g : E → E) (b : Body E T) : (b.after f).after g = b.after (f ∘ g) := by
  obtain ⟨_ | ⟨⟨h, x⟩, r⟩, fin⟩ := b <;> rfl

/-! ### FlatMap -/

theorem flatMap_stuck {s : Stm E T} {f : T → Stm E U} {st l t sti li} (h : Stuck s st l) (hi : Stuck (f t) sti li) :
    Stuck (flatMap s f) (st, some ⟨t, li, sti⟩) l :=
  fun e => by simp [flatMap]; rw [flatMapPull]; simp [hi e, h e]

theorem flatMap_segRun {s : Stm E T} (f : T → Stm E U) (k : T → Trace E U)
    {zi : Prop} (hf : ∀ t, ∃ li', Runs (f t) 0 (f t).init (k t) li' zi) {st l its fin st' l'}
    (r : SegRun s st l its fin st' l') {t : T} {sti : (f t).S} {li : (f t).L} {b : Body E U} {sti' li'}
    (ri : SegRun (f t) sti li b.items b.fin sti' li') (hi : zi → Stuck (f t) sti' li') :
    ∃ st3, SegRun (flatMap s f) (st, some ⟨t, li, sti⟩) l (Trace.bindRest k its fin b).items
      (Trace.bindRest k its fin b).fin st3 l' ∧ (Stuck s st' l' → zi → Stuck (flatMap s f) st3 l') := by
  induction r generalizing t b with
  | @done st l fin st' l' h =>
    obtain ⟨bi, bf⟩ := b
    rw [Trace.bindRest, Body.append_nil]
    simp only at ri ⊢
    induction ri with
    | @done stq lq fq stq' lq' hd =>
      exact ⟨(st', some ⟨t, lq', stq'⟩), .done (fun e => by simp [flatMap]; rw [flatMapPull]; simp [hd, h]),
        fun a b => flatMap_stuck a (hi b)⟩
    | next hd ri ih =>
      obtain ⟨st3, r3, hk⟩ := ih hi
      exact ⟨st3, .next (fun e => by simp [flatMap]; rw [flatMapPull]; simp [hd] <;> first | rfl | exact ⟨rfl, rfl⟩) r3, hk⟩
  | @next st l g x st1 l1 its fin st' l' h r ih =>
    obtain ⟨bi, bf⟩ := b
    simp only at ri
    induction ri with
    | @done stq lq fq _ _ hd =>
      obtain ⟨_, g1, stx, l1x, stx', hx1, hx2, hx3, hx4⟩ := hf x
      obtain ⟨st3, r3, hk⟩ := ih hx2 hx4
      refine ⟨st3, ?_, hk⟩
      rw [Trace.bindRest, Body.nil_append]
      rw [Body.after_after]
      refine SegRun.after' (fun e => ?_) r3
      show flatMapPull s f _ _ _ = flatMapPull s f _ _ _
      conv_lhs => rw [flatMapPull]
      simp [hd, h, flatOpen, hx1]
    | next hd ri ih' =>
      obtain ⟨st3, r3, hk⟩ := ih' hi
      rw [Trace.bindRest] at r3 ⊢
      exact ⟨st3, .next (fun e => by simp [flatMap]; rw [flatMapPull]; simp [hd] <;> first | rfl | exact ⟨rfl, rfl⟩) r3, hk⟩

theorem flatMap_runs {s : Stm E T} (f : T → Stm E U) (k : T → Trace E U)
    {zi : Prop} (hf : ∀ t, ∃ li', Runs (f t) 0 (f t).init (k t) li' zi) {p l tr l' z} (h : Runs s p l tr l' z) :
    Runs (flatMap s f) p l (tr.bind k) l' (z ∧ zi) := by
  obtain ⟨g1, st, l1, st', h1, h2, h3, hs⟩ := h
  have h3' : ∀ l e, ∃ g2, (flatMap s f).seg g1 l e = .ok (none, g2, l, e) := fun l e => by
    obtain ⟨g2, e2⟩ := h3 l e
    exact ⟨g2, by simp [flatMap, e2]⟩
  unfold Trace.bind
  generalize hits : tr.body.items = its at *
  generalize hfin : tr.body.fin = fin at *
  cases h2 with
  | done hd =>
    exact ⟨g1, (st', none), l', (st', none), fun e => by simp [flatMap, h1, hd],
      .done (fun e => by simp [flatMap]; rw [flatMapPull]), h3', fun _ e => by simp [flatMap]; rw [flatMapPull]⟩
  | @next _ _ g x st1 l1 its fin st' l' hn r =>
    obtain ⟨_, gx, stx, l1x, stx', hx1, hx2, hx3, hx4⟩ := hf x
    obtain ⟨st3, r3, hk⟩ := flatMap_segRun f k hf r hx2 hx4
    exact ⟨g1, _, _, st3, fun e => by simp [flatMap, h1, hn, flatOpen, hx1], r3, h3',
      fun hz => hk (hs hz.1) hz.2⟩

/-! ### Chain -/

/-- Asked again, the segment panics with an index out of range. -/
def Broken (s : Stm E T) (st : s.S) (l : s.L) : Prop := ∀ e, s.pull st l e = .panic .indexOutOfRange


section Chain
variable {n : Nat} {ss : Fin n → Stm E T}

/-- One body after the other. -/
def catB : List (Body E T) → Body E T
  | [] => ⟨[], id⟩
  | b :: bs => b.append (catB bs)

theorem chain_segRun (z : Prop) (b : ∀ _ : Fin n, Body E T) (l' : ∀ i, (ss i).L) (rest : List (Σ i, (ss i).S)) :
    ∀ (pre : List (Σ i, (ss i).S)) (i : Fin n) (st : (ss i).S) (l : ∀ i, (ss i).L) its fin st',
    SegRun (ss i) st (l i) its fin st' (l' i) → (z → Stuck (ss i) st' (l' i)) → (i :: rest.map Sigma.fst).Nodup →
    (∀ x ∈ rest, ∃ st', SegRun (ss x.1) x.2 (l x.1) (b x.1).items (b x.1).fin st' (l' x.1) ∧
      (z → Stuck (ss x.1) st' (l' x.1))) →
    (∀ j, j ≠ i → j ∉ rest.map Sigma.fst → l j = l' j) →
    ∃ C', SegRun (chain ss) (⟨pre ++ ⟨i, st⟩ :: rest, pre.length, pre.length⟩ : ChainSt ss) l
      (Body.append ⟨its, fin⟩ (catB (rest.map (fun x => b x.1)))).items
      (Body.append ⟨its, fin⟩ (catB (rest.map (fun x => b x.1)))).fin C' l' ∧ (z → Broken (chain ss) C' l') := by
  induction rest with
  | nil =>
    intro pre i st l its fin st' r hk hn hr hl
    simp only [List.map_nil, catB, Body.append_nil]
    generalize hli : l i = li at r
    generalize hli' : l' i = li' at r
    induction r generalizing l with
    | @done st li fin st' _ h =>
      subst hli hli'
      refine ⟨⟨pre ++ [⟨i, st'⟩], pre.length + 1, pre.length⟩, .done (fun e => ?_), fun hz e => ?_⟩
      rotate_left
      · simp only [chain]
        rw [chainPull]
        simp [hk hz e]
      have : Function.update l i (l' i) = l' := by
        funext j
        by_cases hj : j = i
        · subst hj; simp
        · rw [Function.update_of_ne hj]; exact hl j hj (by simp)
      simp only [chain]
      rw [chainPull]
      simp [h, this]
    | @next st li f x st1 l1 its fin st' _ h r ih =>
      subst hli
      obtain ⟨C', r', hb⟩ := ih (Function.update l i l1) hk (by simp)
        (fun j hj hj' => by rw [Function.update_of_ne hj]; exact hl j hj hj') (by simp) hli'
      refine ⟨C', .next (fun e => ?_) r', hb⟩
      simp only [chain]
      rw [chainPull]
      simp [h]
  | cons y rest ihr =>
    obtain ⟨j, stj⟩ := y
    intro pre i st l its fin st' r hk hn hr hl
    generalize hli : l i = li at r
    generalize hli' : l' i = li' at r
    induction r generalizing l with
    | @done st li fin st' _ h =>
      subst hli hli'
      obtain ⟨stj', rj, hkj⟩ := hr ⟨j, stj⟩ (by simp)
      simp only at rj hkj
      have hne : ∀ x ∈ ((⟨j, stj⟩ : Σ i, (ss i).S) :: rest), x.1 ≠ i := by
        intro x hx hxi
        simp only [List.nodup_cons, List.mem_map, List.map_cons] at hn
        apply hn.1
        rw [← hxi]
        exact (List.mem_map_of_mem (f := Sigma.fst) hx)
      have hji : j ≠ i := hne _ List.mem_cons_self
      rw [Body.nil_append]
      obtain ⟨C', r', hb⟩ := ihr (pre ++ [⟨i, st'⟩]) j stj (Function.update l i (l' i)) (b j).items (b j).fin stj'
        (by rw [Function.update_of_ne hji]; exact rj) hkj (by simp at hn ⊢; exact hn.2)
        (fun x hx => by
          rw [Function.update_of_ne (hne x (by simp [hx]))]
          exact hr x (by simp [hx]))
        (fun j' h1 h2 => by
          by_cases hj' : j' = i
          · subst hj'; simp
          · rw [Function.update_of_ne hj']
            exact hl j' hj' (by simp only [List.map_cons, List.mem_cons, not_or]; exact ⟨h1, h2⟩))
      refine ⟨C', SegRun.after' (fun e => ?_) r', hb⟩
      simp only [chain]
      conv_lhs => rw [chainPull]
      simp [h]
    | @next st li f x st1 l1 its fin st' _ h r ih =>
      subst hli
      have hne : ∀ x ∈ ((⟨j, stj⟩ : Σ i, (ss i).S) :: rest), x.1 ≠ i := by
        intro x hx hxi
        simp only [List.nodup_cons, List.mem_map, List.map_cons] at hn
        apply hn.1
        rw [← hxi]
        exact (List.mem_map_of_mem (f := Sigma.fst) hx)
      obtain ⟨C', r', hb⟩ := ih (Function.update l i l1) hk
        (fun x hx => by rw [Function.update_of_ne (hne x hx)]; exact hr x hx)
        (fun j hj hj' => by rw [Function.update_of_ne hj]; exact hl j hj hj') (by simp) hli'
      refine ⟨C', .next (fun e => ?_) r', hb⟩
      simp only [chain]
      rw [chainPull]
      simp [h]

/-- Effects of requesting all segments. -/
def startAll : List (Trace E T) → E → E
  | [] => id
  | t :: ts => startAll ts ∘ t.start

theorem Trace.chain_eq (ts : List (Trace E T)) :
    Trace.chain ts = ⟨startAll ts, catB (ts.map Trace.body)⟩ := by
  induction ts with
  | nil => rfl
  | cons t ts ih => simp [Trace.chain, ih, startAll, catB]

theorem chainSegs_run (tr : Fin n → Trace E T) (l l1 : ∀ i, (ss i).L)
    (g1 : ∀ i, (ss i).G) (st : ∀ i, (ss i).S)
    (h : ∀ i e, (ss i).seg ((ss i).activate (ss i).par) (l i) e = .ok (some (st i), g1 i, l1 i, (tr i).start e))
    (is : List (Fin n)) (hn : is.Nodup) (lc : ∀ i, (ss i).L) (hc : ∀ i ∈ is, lc i = l i) (e : E) :
    chainSegs ss (is.map (fun i => ⟨i, (ss i).activate (ss i).par⟩)) lc e =
      .ok (is.map (fun i => ⟨i, st i⟩), is.map (fun i => ⟨i, g1 i⟩),
        (fun i => if i ∈ is then l1 i else lc i), startAll (is.map tr) e) := by
  induction is generalizing lc e with
  | nil => simp [chainSegs, startAll]
  | cons i is ih =>
    simp only [List.nodup_cons] at hn
    simp only [List.map_cons, chainSegs, hc i (by simp), h, Res.bind_ok]
    rw [ih hn.2 (Function.update lc i (l1 i)) (fun j hj => by
      have hji : j ≠ i := fun hji => hn.1 (hji ▸ hj)
      rw [Function.update_of_ne hji]; exact hc j (by simp [hj]))]
    simp only [Res.bind_ok, startAll, Function.comp_apply, Res.pure_eq, Res.ok.injEq, Prod.mk.injEq, true_and, and_true]
    funext j
    by_cases hji : j = i
    · subst hji; simp [hn.1]
    · simp [hji, Function.update_of_ne hji]

theorem chainSegs_none (g1 : ∀ i, (ss i).G)
    (h : ∀ i l e, ∃ g2, (ss i).seg (g1 i) l e = .ok (none, g2, l, e))
    (is : List (Fin n)) (l : ∀ i, (ss i).L) (e : E) :
    ∃ gs, chainSegs ss (is.map (fun i => ⟨i, g1 i⟩)) l e = .ok ([], gs, l, e) := by
  induction is with
  | nil => exact ⟨[], rfl⟩
  | cons i is ih =>
    obtain ⟨gs, ih⟩ := ih
    obtain ⟨g2, h2⟩ := h i (l i) e
    exact ⟨⟨i, g2⟩ :: gs, by simp [chainSegs, h2, ih]⟩

end Chain

theorem chain_breaks {n : Nat} {ss : Fin (n + 1) → Stm E T} {p : Int} (tr : Fin (n + 1) → Trace E T)
    (l l' : ∀ i, (ss i).L) {z : Fin (n + 1) → Prop} (h : ∀ i, Runs (ss i) (ss i).par (l i) (tr i) (l' i) (z i)) :
    ∃ g1 st l1 st', (∀ e, (chain ss).seg ((chain ss).activate p) l e =
        .ok (some st, g1, l1, (Trace.chain (List.ofFn tr)).start e)) ∧
      SegRun (chain ss) st l1 (Trace.chain (List.ofFn tr)).body.items (Trace.chain (List.ofFn tr)).body.fin st' l' ∧
      (∀ l e, ∃ g2, (chain ss).seg g1 l e = .ok (none, g2, l, e)) ∧ ((∀ i, z i) → Broken (chain ss) st' l') := by
  choose g1 st l1 st' h1 h2 h3 h4 using h
  have e0 : List.ofFn tr = (List.finRange (n + 1)).map tr := by
    exact List.ofFn_eq_map
  rw [Trace.chain_eq, e0, List.map_map]
  have hseg := chainSegs_run tr l l1 g1 st h1 (List.finRange (n + 1)) (List.nodup_finRange _) l (fun _ _ => rfl)
  obtain ⟨i0, is, his⟩ : ∃ i is, List.finRange (n + 1) = i :: is := ⟨_, _, List.finRange_succ⟩
  have hnd := List.nodup_finRange (n + 1)
  have hmem := List.mem_finRange (n := n + 1)
  rw [his] at hnd
  obtain ⟨C', hr, hb⟩ := chain_segRun (ss := ss) (∀ i, z i) (fun i => (tr i).body) l' (is.map (fun i => ⟨i, st i⟩)) [] i0 (st i0) l1
    (tr i0).body.items (tr i0).body.fin (st' i0) (h2 i0) (fun hz => h4 i0 (hz i0))
    (by simpa [List.map_map, Function.comp_def] using hnd)
    (fun x hx => by
      simp only [List.mem_map] at hx
      obtain ⟨i, _, rfl⟩ := hx
      exact ⟨st' i, h2 i, fun hz => h4 i (hz i)⟩)
    (fun j hj hj' => by
      exfalso
      have := hmem j
      rw [his] at this
      simp only [List.mem_cons, hj, false_or] at this
      apply hj'
      simp [List.map_map, Function.comp_def, this])
  refine ⟨(List.finRange (n + 1)).map (fun i => ⟨i, g1 i⟩), ⟨(List.finRange (n+1)).map (fun i => ⟨i, st i⟩), 0, 0⟩, l1, C', fun e => ?_, ?_, fun l e => ?_, hb⟩
  · simp only [chain, hseg, Res.bind_ok]
    simp
  · rw [his]
    simp only [List.map_cons, List.map_map, Function.comp_def, catB]
    simpa [Function.comp_def] using hr
  · obtain ⟨gs, hg⟩ := chainSegs_none g1 h3 (List.finRange (n + 1)) l e
    exact ⟨gs, by simp only [chain, hg, Res.bind_ok]; simp⟩

theorem chain_runs {n : Nat} {ss : Fin (n + 1) → Stm E T} {p : Int} (tr : Fin (n + 1) → Trace E T)
    (l l' : ∀ i, (ss i).L) {z : Fin (n + 1) → Prop} (h : ∀ i, Runs (ss i) (ss i).par (l i) (tr i) (l' i) (z i)) :
    Runs (chain ss) p l (Trace.chain (List.ofFn tr)) l' False := by
  obtain ⟨g1, st, l1, st', h1, h2, h3, _⟩ := chain_breaks (p := p) tr l l' h
  exact ⟨g1, st, l1, st', h1, h2, h3, False.elim⟩

end Gds.Stream
