import Verif.Stream.New
import Verif.Stream.Props
import Verif.Stream.ParCollect
import Verif.Stream.ParFold
import Verif.Stream.ParTry
import Verif.Stream.ParPipe
import Verif.RBTree.Split
import Verif.SkipList.RangeProps
import Verif.LinkedList.Props

/-! C90: streams over red-black trees, skip lists and linked lists. -/

namespace Gds.Stream

variable {E T R K V : Type}

/-! ### The streams -/

/-- redblacktree.go:213-218 `Tree.Stream(p)`: `stream.New(rbTree.SplitableIter(), p)`; captured `idx` and `node` start as 0 and
`header.left` (lines 176-183).  Simplification: Go's elements are pointers to the nodes' entries, here the entries themselves.  The
tree is not modified while it is being streamed. -/
def ofTree (t : RBTree.Tree K V) : Int → Stm E (K × V) :=
  new (fun _ => .ok (0, t.heap.left 0)) (RBTree.splitNext t) (RBTree.segNext t.heap)

/-- `stream.New(sl.SplitableIter(), p)` for a skip list (skiplist.go:227-264): captured `idx` and `node` start as 0 and `sl.First()`.
The list is not modified while it is being streamed. -/
def ofSkipList (s : SkipList.St K V) : Int → Stm E (K × V) :=
  new (fun _ => do let f ← SkipList.first s; pure (0, f)) (SkipList.splitNext s) (SkipList.segNext s)

/-- `stream.New(l.SplitableIter(), p)` for a linked list (linkedlist.go:105-142): captured `idx` and `node` start as 0 and
`l.Front()`.  The list is not modified while it is being streamed. -/
def ofList (s : LinkedList.St T) (l : Nat) : Int → Stm E T :=
  new (fun _ => .ok (0, LinkedList.front s l)) (LinkedList.splitNext s l) (LinkedList.segNext s l)

/-! ### Contents -/

theorem tree_whole {m : RBTree.Heap K V} {t : RBTree.T} (h : RBTree.Holds m t) : ∀ (bs as : List Nat), t.ids = as ++ bs →
    Iter.Yields (RBTree.segNext m) (.whole bs.head?) (bs.map m.kv) (.whole none)
  | [], _, _ => .nil _
  | i :: bs, as, e =>
    .cons (by simp [RBTree.segNext, RBTree.iterCall, RBTree.next_spec h e]) (tree_whole h bs (as ++ [i]) (by simp [e]))

/-- After an ascending history that keeps its first key and leaves the map non-empty, `tree.Stream()` delivers the entries of the
map in key order. -/
theorem ofTree_source_partial {cmp : Compare K} (hc : cmp.ThreeWay) (z : K × V) (ops : List (RBTree.Op K V))
    (ha : RBTree.Ascending cmp [] ops) (hk : RBTree.KeepsFirst cmp z.1 [] ops) (hne : RBTree.specRun cmp [] ops ≠ []) :
    ∃ s, RBTree.run cmp (RBTree.new z, []) ops = .ok s ∧ Source (ofTree (E := E) s.1 0) (RBTree.specRun cmp [] ops) True := by
  obtain ⟨s, e, tr, U, h⟩ := RBTree.Sim.run hc ops (g := True) (s := (RBTree.new z, [])) (RBTree.Sim.new z cmp _) ha (fun _ => hk)
  have hids : tr.ids ≠ [] := by rintro hh; apply hne; rw [← h.ents, RBTree.entries, hh]; rfl
  refine ⟨s, e, ?_⟩
  have hw := tree_whole h.ok.holds tr.ids [] rfl
  rw [← h.first trivial hids] at hw
  rw [← h.ents]
  exact new_source (i1 := (1, s.1.heap.left 0)) rfl (by simp [RBTree.splitNext]) (by simp [RBTree.splitNext]) hw rfl fun _ => rfl

theorem ofTree_splits_partial {cmp : Compare K} (hc : cmp.ThreeWay) (z : K × V) (ops : List (RBTree.Op K V))
    (ha : RBTree.Ascending cmp [] ops) (hk : RBTree.KeepsFirst cmp z.1 [] ops) (p : Nat) (hp : 1 ≤ p)
    (hlen : p ≤ (RBTree.specRun cmp [] ops).length) {s} (hs : RBTree.run cmp (RBTree.new z, []) ops = .ok s) (q : Int) :
    Splits (ofTree (E := E) s.1 q) p (Slice.cuts ((RBTree.specRun cmp [] ops).length / p) (RBTree.specRun cmp [] ops)) := by
  obtain ⟨s', e, segs, st, h1, h2, _, h4, _, h6⟩ := RBTree.split_parallel_partial hc z ops ha hk p hp hlen
  cases e.symm.trans hs
  rw [← h6]
  exact new_splits (start := fun _ => .ok (0, s.1.heap.left 0)) (seg := RBTree.splitNext s.1) (pull := RBTree.segNext s.1.heap) p q rfl h1 h2
    fun g hg => (h4 g hg).1

theorem skip_whole {s : SkipList.St K V} {f : Option Nat} {L : List (K × V)} (h : Iter.Yields (SkipList.iter s) f L none) :
    Iter.Yields (SkipList.segNext s) (.whole f) L (.whole none) := by
  generalize hz : (none : Option Nat) = z at h
  induction h with
  | nil => subst hz; exact .nil _
  | cons e _ ih => exact .cons (by simp [SkipList.segNext, e]) (ih hz)

/-- A sequential stream over a reachable skip list delivers what the list shows, in order. -/
theorem ofSkipList_source {comp : Compare K} {zk : K} {zv : V} {s : SkipList.St K V} {L : List (K × V)}
    (h : SkipList.Reaches comp zk zv s L) : Source (ofSkipList (E := E) s 0) L True := by
  obtain ⟨f, e, y⟩ := h.2.iter
  refine new_source (i := (0, f)) (i1 := (1, f)) (by simp [e]) (by simp [SkipList.splitNext, e]) (by simp [SkipList.splitNext])
    (skip_whole y) rfl fun _ => rfl

theorem ofSkipList_splits {comp : Compare K} {zk : K} {zv : V} {s : SkipList.St K V} {L : List (K × V)}
    (h : SkipList.Reaches comp zk zv s L) (p : Nat) (hp : 1 ≤ p) (hlen : p ≤ L.length) (q : Int) :
    Splits (ofSkipList (E := E) s q) p (Slice.cuts (L.length / p) L) := by
  obtain ⟨f, segs, st, h0, h1, h2, _, h4, _, h6⟩ := SkipList.split_parallel h p hp hlen
  rw [← h6]
  exact new_splits (start := fun _ => do let f ← SkipList.first s; pure (0, f)) (seg := SkipList.splitNext s) (pull := SkipList.segNext s) p q
    (by simp [h0]) h1 h2 fun g hg => (h4 g hg).1

/-- A sequential stream over a linked list delivers its values in order.  Asked again after its end it starts over (unlike the other
sources), hence the `False`. -/
theorem ofList_source {z : T} {ops : List (LinkedList.Op T)} {s : LinkedList.St T} {a : LinkedList.Abs T}
    (h : LinkedList.After z ops s a) {l : Nat} (hl : a.isList l = true) (hin : a.inited l = true) :
    Source (ofList (E := E) s l 0) ((a.seq l).map a.value) False := by
  obtain ⟨n, h1, h2⟩ := LinkedList.iter_values h hl hin
  have lift : ∀ x vs y, Iter.Yields (LinkedList.iter s l) x vs y → Iter.Yields (LinkedList.segNext s l) (.whole x) vs (.whole y) := by
    intro x vs y hy
    induction hy with
    | nil s => exact .nil _
    | cons hx _ ih => exact .cons (by simp only [LinkedList.segNext, hx, Res.bind_ok]; rfl) ih
  exact new_source (i1 := (1, LinkedList.front s l)) (st'' := .whole (some l)) rfl (by simp [LinkedList.splitNext])
    (by simp [LinkedList.splitNext]) (lift _ _ _ h1) (by simp [LinkedList.segNext, h2]) False.elim

theorem ofList_splits {z : T} {ops : List (LinkedList.Op T)} {s : LinkedList.St T} {a : LinkedList.Abs T}
    (h : LinkedList.After z ops s a) {l : Nat} (hl : a.isList l = true) (p : Nat) (hp : 1 ≤ p) (hlen : p ≤ (a.seq l).length) (q : Int) :
    Splits (ofList (E := E) s l q) p (Slice.cuts ((a.seq l).length / p) ((a.seq l).map a.value)) := by
  obtain ⟨segs, st, h1, h2, _, h4, _, h6⟩ := LinkedList.split_parallel h hl p hp hlen
  rw [← h6]
  exact new_splits (start := fun _ => .ok (0, LinkedList.front s l)) (seg := LinkedList.splitNext s l) (pull := LinkedList.segNext s l) p q
    rfl h1 h2 fun g hg => (h4 g hg).1

/-! ### Specification -/

/-- `mk` makes streams that behave like a stream over the elements `xs`, behind Filter and Map: for every parallelism p from 0
(sequential) to the number of elements, Collect calls the consumer exactly on the elements that pass, in order when sequential and
once each on every schedule otherwise, and returns; FoldWith of a commutative monoid returns the sequential fold on every schedule
when p is 0 or divides the number of elements. -/
def Behaves (mk : (E : Type) → Int → Stm E T) (xs : List T) : Prop :=
  ∀ (E U R : Type) (q : T → Bool) (g : T → U) (e : E) (p : Nat), p ≤ xs.length →
    (∀ c, Collects (map (filter (mk E p) q) g) c (mk E p).init e ((xs.filter q).map g)) ∧
    (p = 0 ∨ p ∣ xs.length → ∀ (ini : R) (f : R → U → R) (comb : R → R → R), (∀ a b, comb a b = comb b a) →
      (∀ a b c, comb (comb a b) c = comb a (comb b c)) → (∀ a, comb ini a = a) → (∀ a x, f a x = comb a (f ini x)) →
      FoldWithReturns (map (filter (mk E p) q) g) ini f comb (mk E p).init e (((xs.filter q).map g).foldl f ini))

theorem collectSeg_pure {s : Stm E T} (c : T → E → E) {st xs} (h : PureSeg s st xs) : ∀ l e,
    foldSeg s (fun (_ : Unit) v e => ((), c v e)) st () l e = .ok ((), l, xs.foldl (fun e x => c x e) e) := by
  induction h with
  | nil h => intro l e; have h1 := h l e; rw [foldSeg]; simp [h1]
  | cons h r ih => intro l e; rw [foldSeg]; simp [h l e, ih]

theorem collectSegs_pure {s : Stm E T} (c : T → E → E) {g segs} (h : SegsOf s g segs) : ∀ l e,
    foldSegs s (fun (_ : Unit) v e => ((), c v e)) g () l e = .ok ((), l, segs.flatten.foldl (fun e x => c x e) e) := by
  induction h with
  | nil h => intro l e; obtain ⟨g', h'⟩ := h l e; rw [foldSegs]; simp [h']
  | cons h hs r ih => intro l e; rw [foldSegs]; simp [h l e, collectSeg_pure c hs, ih, List.foldl_append]

theorem collects_seq {s : Stm E T} (h0 : s.par = 0) (c : T → E → E) {segs : List (List T)} (hs : Splits s 0 segs) (l : s.L) (e : E) :
    Collects s c l e segs.flatten := by
  rw [Collects, if_pos h0]
  refine ⟨l, ?_⟩
  rw [collect, h0, show foldSegs s _ (s.activate 0) () l e = _ from collectSegs_pure c hs l e]
  rfl

theorem filterMap_flatten (q : T → Bool) (g : T → R) (segs : List (List T)) :
    ((segs.map (List.filter q)).map (List.map g)).flatten = (segs.flatten.filter q).map g := by
  rw [← List.map_flatten, ← List.filter_flatten]

theorem behaves_of {mk : (E : Type) → Int → Stm E T} {xs : List T} (hpar : ∀ E p, (mk E p).par = p) (h0 : ∀ E, Splits (mk E 0) 0 [xs])
    (hs : ∀ E (p : Nat), 1 ≤ p → p ≤ xs.length → Splits (mk E p) p (Slice.cuts (xs.length / p) xs)) : Behaves mk xs := by
  intro E U R q g e p hp
  rcases Nat.eq_zero_or_pos p with rfl | h1
  · have k := map_splits g (filter_splits q (h0 E))
    have kf := filterMap_flatten q g [xs]
    rw [List.flatten_singleton] at kf
    rw [← kf]
    exact ⟨fun c => collects_seq (s := map (filter (mk E (0 : Nat)) q) g) (hpar E 0) c k _ _, fun _ ini f comb _ _ _ _ => foldWith_returns_seq (s := map (filter (mk E (0 : Nat)) q) g) (hpar E 0) k ini f comb _ _⟩
  · obtain ⟨c1, -, -, c4⟩ := cuts_facts xs p h1 hp
    have k := map_splits g (filter_splits q (hs E p h1 hp))
    have kf := filterMap_flatten q g (Slice.cuts (xs.length / p) xs)
    rw [c1] at kf
    rw [← kf]
    refine ⟨fun c => collects_par (s := map (filter (mk E p) q) g) (hpar E p) h1 c k _ _, fun hd ini f comb hc ha hi hf => ?_⟩
    have hl : (((Slice.cuts (xs.length / p) xs).map (List.filter q)).map (List.map g)).length = p := by
      rw [List.length_map, List.length_map]
      exact c4.2 (hd.resolve_left (by omega))
    exact foldWith_returns_par (s := map (filter (mk E p) q) g) (hpar E p) h1 k hl _ _ (parFold_monoid k hl hc ha hi hf _ _)

theorem splits_of_source_new {G S : Type} {start : Int → Res G} {seg : Int → Iter.Next G S} {pull : Iter.Next S T} {i i1 : G} {st st' st'' : S}
    {vs : List T} (h0 : start 0 = .ok i) (h : seg 0 i = .ok (some st, i1)) (hi : seg 0 i1 = .ok (none, i1)) (hs : Iter.Yields pull st vs st')
    (hend : pull st' = .ok (none, st'')) : Splits (new (E := E) start seg pull 0) 0 [vs] :=
  new_splits (segs := [(st, vs)]) 0 0 h0 (.cons h (.nil _)) hi fun g hg => by
    rw [List.mem_singleton] at hg; subst hg; exact ⟨_, _, hs, hend⟩

/-! ### C90 -/

/-- C90, red-black tree: after a history that adds keys in ascending order and keeps its first key, `tree.Stream(p)` behaves like a
stream over the entries of the map in key order. -/
theorem tree_stream_partial {cmp : Compare K} (hc : cmp.ThreeWay) (z : K × V) (ops : List (RBTree.Op K V))
    (ha : RBTree.Ascending cmp [] ops) (hk : RBTree.KeepsFirst cmp z.1 [] ops) (hne : RBTree.specRun cmp [] ops ≠ []) :
    ∃ s, RBTree.run cmp (RBTree.new z, []) ops = .ok s ∧ Behaves (fun E => ofTree (E := E) s.1) (RBTree.specRun cmp [] ops) := by
  obtain ⟨s, e, tr, U, h⟩ := RBTree.Sim.run hc ops (g := True) (s := (RBTree.new z, [])) (RBTree.Sim.new z cmp _) ha (fun _ => hk)
  have hids : tr.ids ≠ [] := by rintro hh; apply hne; rw [← h.ents, RBTree.entries, hh]; rfl
  have hw := tree_whole h.ok.holds tr.ids [] rfl
  rw [← h.first trivial hids, show tr.ids.map s.1.heap.kv = _ from h.ents] at hw
  exact ⟨s, e, behaves_of (fun _ _ => rfl)
    (fun E => splits_of_source_new (i1 := (1, s.1.heap.left 0)) rfl (by simp [RBTree.splitNext]) (by simp [RBTree.splitNext]) hw rfl)
    fun E p hp hl => ofTree_splits_partial hc z ops ha hk p hp hl e p⟩

/-- C90, skip list: a stream over a reachable skip list behaves like a stream over what the list shows. -/
theorem skipList_stream {comp : Compare K} {zk : K} {zv : V} {s : SkipList.St K V} {L : List (K × V)}
    (h : SkipList.Reaches comp zk zv s L) : Behaves (fun E => ofSkipList (E := E) s) L := by
  obtain ⟨f, e, y⟩ := h.2.iter
  exact behaves_of (fun _ _ => rfl)
    (fun E => splits_of_source_new (i := (0, f)) (i1 := (1, f)) (by simp [e]) (by simp [SkipList.splitNext, e]) (by simp [SkipList.splitNext])
      (skip_whole y) rfl)
    fun E p hp hl => ofSkipList_splits h p hp hl p

/-- C90, linked list: a stream over a linked list behaves like a stream over its values. -/
theorem list_stream {z : T} {ops : List (LinkedList.Op T)} {s : LinkedList.St T} {a : LinkedList.Abs T}
    (h : LinkedList.After z ops s a) {l : Nat} (hl : a.isList l = true) (hin : a.inited l = true) :
    Behaves (fun E => ofList (E := E) s l) ((a.seq l).map a.value) := by
  obtain ⟨n, h1, h2⟩ := LinkedList.iter_values h hl hin
  have lift : ∀ x vs y, Iter.Yields (LinkedList.iter s l) x vs y → Iter.Yields (LinkedList.segNext s l) (.whole x) vs (.whole y) := by
    intro x vs y hy
    induction hy with
    | nil s => exact .nil _
    | cons hx _ ih => exact .cons (by simp only [LinkedList.segNext, hx, Res.bind_ok]; rfl) ih
  refine behaves_of (fun _ _ => rfl)
    (fun E => splits_of_source_new (i1 := (1, LinkedList.front s l)) (st'' := .whole (some l)) rfl (by simp [LinkedList.splitNext])
      (by simp [LinkedList.splitNext]) (lift _ _ _ h1) (by simp [LinkedList.segNext, h2]))
    fun E p hp hle => ?_
  rw [List.length_map] at hle ⊢
  exact ofList_splits h hl p hp hle p

/-! ### C90: parallelism above the number of elements -/

/-- The consumer never gets its result: in every reachable state Collect has not returned and can start one more goroutine. -/
def NeverReturns (s : Stm E T) (c : T → E → E) (l : s.L) (e : E) : Prop :=
  0 < s.par ∧ ∀ a, CReach s s.par.toNat c l e a → a.main ≠ .done ∧ ∃ b, CStep s c a b ∧ b.ws.length = a.ws.length + 1

theorem collect_endless {s : Stm E T} {p : Nat} (hp : 0 < p) (h0 : s.par = p) {st : s.S}
    (hseg : ∀ l e, s.seg (s.activate p) l e = .ok (some st, s.activate p, l, e)) (c : T → E → E) (l : s.L) (e : E) : NeverReturns s c l e := by
  have e1 : s.par.toNat = p := by omega
  refine ⟨by omega, fun a h => ?_⟩
  rw [e1] at h
  have key : a.main = .seg (s.activate p) := by
    induction h with
    | init => rfl
    | step _ hst ih =>
      cases hst with
      | spawn g st g' l' e' hm hq => rw [ih] at hm; cases hm; have := (hseg _ _).symm.trans hq; cases this; rfl
      | segEnd g g' l' e' hm hq => rw [ih] at hm; cases hm; have := (hseg _ _).symm.trans hq; cases this
      | pull => exact ih
      | pullEnd => exact ih
      | call => exact ih
      | waited hm => rw [ih] at hm; cases hm
  exact ⟨fun hv => (by rw [key] at hv; cases hv), _, .spawn a _ _ _ _ _ key (hseg _ _), by simp⟩

theorem new_endless {G S : Type} {start : Int → Res G} {seg : Int → Iter.Next G S} {pull : Iter.Next S T} {p : Nat} (hp : 0 < p) {i : G} {st : S}
    (h0 : start p = .ok i) (h : seg p i = .ok (some st, i)) (q : T → Bool) (g : T → R) (c : R → E → E) (e : E) :
    NeverReturns (map (filter (new start seg pull p) q) g) c () e :=
  collect_endless (s := map (filter (new start seg pull p) q) g) (p := p) hp rfl (st := st)
    (fun l e => by simp [map, filter, new, h0, h]) c () e

/-- C90 is false for a parallelism above the number of elements: over a non-empty tree Collect then never returns. -/
theorem tree_stream_refuted {cmp : Compare K} (hc : cmp.ThreeWay) (z : K × V) (ops : List (RBTree.Op K V))
    (ha : RBTree.Ascending cmp [] ops) (hne : RBTree.specRun cmp [] ops ≠ []) (p : Nat) (hp : (RBTree.specRun cmp [] ops).length < p)
    (q : K × V → Bool) (g : K × V → R) (c : R → E → E) (e : E) :
    ∃ s, RBTree.run cmp (RBTree.new z, []) ops = .ok s ∧ NeverReturns (map (filter (ofTree s.1 p) q) g) c () e := by
  obtain ⟨s, e, tr, U, h⟩ := RBTree.Sim.run hc ops (g := False) (s := (RBTree.new z, [])) (RBTree.Sim.new z cmp _) ha False.elim
  have hl := List.length_pos_iff.2 hne
  exact ⟨s, e, new_endless (start := fun _ => .ok (0, s.1.heap.left 0)) (pull := RBTree.segNext s.1.heap) (by omega) rfl (RBTree.split_too_many_refuted s.1 p (by rw [h.size]; omega) (by rw [h.size]; omega) _).1 q g c _⟩

/-- C90 is false for a parallelism above the number of elements: over a non-empty skip list Collect then never returns. -/
theorem skipList_stream_refuted {comp : Compare K} {zk : K} {zv : V} {s : SkipList.St K V} {L : List (K × V)}
    (h : SkipList.Reaches comp zk zv s L) (hne : L ≠ []) (p : Nat) (hp : L.length < p)
    (q : K × V → Bool) (g : K × V → R) (c : R → E → E) (e : E) : NeverReturns (map (filter (ofSkipList s p) q) g) c () e := by
  obtain ⟨f, hf, -⟩ := h.2.iter
  exact new_endless (by omega) (i := (0, f)) (by simp [hf]) (SkipList.split_too_many_refuted h hne p hp f).1 q g c _

/-- C90 is false for a parallelism above the number of elements: over a non-empty linked list Collect then never returns. -/
theorem list_stream_refuted {z : T} {ops : List (LinkedList.Op T)} {s : LinkedList.St T} {a : LinkedList.Abs T}
    (h : LinkedList.After z ops s a) {l : Nat} (hl : a.isList l = true) (hne : a.seq l ≠ []) (p : Nat) (hp : (a.seq l).length < p)
    (q : T → Bool) (g : T → R) (c : R → E → E) (e : E) : NeverReturns (map (filter (ofList s l p) q) g) c () e := by
  have e1 := (h.inv.lst l hl).2.2
  have hl' := List.length_pos_iff.2 hne
  have hq : Int.tdiv (s.len l) (p : Int) = 0 := by
    rw [e1, Int.tdiv_eq_ediv_of_nonneg (by omega)]
    exact Int.ediv_eq_zero_of_lt (by omega) (by omega)
  refine new_endless (by omega) (i := (0, LinkedList.front s l)) (st := .step 0 (LinkedList.front s l)) rfl ?_ q g c e
  have h0 : ¬ (p : Int) ≤ 0 := by omega
  have h1 : ¬ (0 : Int) ≥ s.len l := by omega
  simp only [LinkedList.splitNext, h0, if_false, h1, hq, Int.add_zero, Int.toNat_zero, LinkedList.advance]

/-! ### C90: Zip with a shorter linked list -/

/-- Pairing `xs` with `ys` where the right side, when it has ended, contributes one zero pair and then starts over; `rest` is what
is left of the current round. -/
def zipCycle (z : T × R) (ys : List R) : List T → List R → List (T × R)
  | [], _ => []
  | _ :: xs, [] => z :: zipCycle z ys xs ys
  | x :: xs, y :: rest => (x, y) :: zipCycle z ys xs rest

theorem foldSeg_zip_cycle (z : T × R) {s : Stm E T} {l : s.L} {z0 : Prop} {G S : Type} {start : Int → Res G} {seg : Int → Iter.Next G S}
    {pull : Iter.Next S R} {ys : List R} {st0 fin : S} (h1 : Iter.Yields pull st0 ys fin) (h2 : pull fin = .ok (none, st0)) {st : s.S} {xs : List T}
    (hd : Delivers s l z0 st xs) : ∀ (cur : S) (rest : List R) (acc : List (T × R)) (e : E), Iter.Yields pull cur rest fin →
    foldSeg (zip z s (new start seg pull 0)) (fun a v e => (a ++ [v], e)) (st, cur) acc (l, ()) e =
      .ok (acc ++ zipCycle z ys xs rest, (l, ()), e) := by
  induction hd with
  | done h hz =>
    intro cur rest acc e hy
    refine (foldSeg.eq_def ..).trans ?_
    cases hy with
    | nil => simp [zip, new, h, h2, zipCycle]
    | cons hn _ => simp [zip, new, h, hn, zipCycle]
  | @next st st' x xs h r ih =>
    intro cur rest acc e hy
    refine (foldSeg.eq_def ..).trans ?_
    cases hy with
    | nil =>
      have hq : (zip z s (new start seg pull 0)).pull (st, fin) (l, ()) e = .ok (some z, (st', st0), (l, ()), e) := by simp [zip, new, h, h2]
      rw [hq]
      simp only [Res.bind_ok, zipCycle]
      exact (ih st0 ys (acc ++ [z]) e h1).trans (by simp)
    | @cons _ y cur' rest' _ hn hr =>
      have hq : (zip z s (new start seg pull 0)).pull (st, cur) (l, ()) e = .ok (some (x, y), (st', cur'), (l, ()), e) := by simp [zip, new, h, hn]
      rw [hq]
      simp only [Res.bind_ok, zipCycle]
      exact (ih cur' rest' (acc ++ [(x, y)]) e hr).trans (by simp)

/-- C90, what Zip with a linked list on the right delivers: each time the list has ended there is one zero pair, and then its
elements come again from the front. -/
theorem zip_list_cycles (zp : R × T) {s : Stm E R} {xs : List R} {z0 : Prop} (hs : Source s xs z0) {z : T} {ops : List (LinkedList.Op T)}
    {st : LinkedList.St T} {a : LinkedList.Abs T} (h : LinkedList.After z ops st a) {l : Nat} (hl : a.isList l = true)
    (hin : a.inited l = true) (e : E) :
    ∃ l', foldWith (zip zp s (ofList st l 0)) [] (fun acc x => acc ++ [x]) (zip zp s (ofList (E := E) st l 0)).init e =
      .ok (zipCycle zp ((a.seq l).map a.value) xs ((a.seq l).map a.value), l', e) := by
  obtain ⟨n, h1, h2⟩ := LinkedList.iter_values h hl hin
  have lift : ∀ x vs y, Iter.Yields (LinkedList.iter st l) x vs y → Iter.Yields (LinkedList.segNext st l) (.whole x) vs (.whole y) := by
    intro x vs y hy
    induction hy with
    | nil s => exact .nil _
    | cons hx _ ih => exact .cons (by simp only [LinkedList.segNext, hx, Res.bind_ok]; rfl) ih
  obtain ⟨hp, hs⟩ := hs
  obtain ⟨s0, g1, k1, k2, k3⟩ := hs s.init
  obtain ⟨g2, k3⟩ := k3 s.init e
  have key := foldSeg_zip_cycle (E := E) zp (start := fun _ => .ok (0, LinkedList.front st l)) (seg := LinkedList.splitNext st l)
    (lift _ _ _ h1) (by simp [LinkedList.segNext, h2]) k2 _ _ [] e (lift _ _ _ h1)
  refine ⟨(s.init, ()), ?_⟩
  unfold foldWith
  refine (foldSegs.eq_def ..).trans ?_
  have e1 : (zip zp s (ofList (E := E) st l 0)).seg ((zip zp s (ofList (E := E) st l 0)).activate (zip zp s (ofList (E := E) st l 0)).par)
      (zip zp s (ofList (E := E) st l 0)).init e =
      .ok (some (s0, .whole (some l)), (g1, (0, .ok (1, LinkedList.front st l))), (s.init, ()), e) := by
    simp [zip, ofList, new, hp, k1, LinkedList.splitNext]
  rw [e1]
  simp only [Res.bind_ok]
  refine (congrArg (Res.bind · _) key).trans ?_
  refine (foldSegs.eq_def ..).trans ?_
  have e2 : (zip zp s (ofList (E := E) st l 0)).seg (g1, (0, .ok (1, LinkedList.front st l))) (s.init, ()) e =
      .ok (none, (g2, (0, .ok (1, LinkedList.front st l))), (s.init, ()), e) := by
    simp [zip, ofList, new, k3, LinkedList.splitNext]
  refine (congrArg (Res.bind · _) e2).trans ?_
  simp [Res.bind]

/-! ### Concrete cases -/

/-- A tree reached by an ascending history with deletions: `Stream(p)` behaves like the four entries. -/
example : ∃ s, RBTree.run Fn.comp (RBTree.new (0, 0), []) RBTree.ascOps = .ok s ∧
    Behaves (fun E => ofTree (E := E) s.1) [(1, 10), (3, 30), (9, 90), (12, 120)] := by
  have := tree_stream_partial Fn.comp_strict.toThreeWay (0, 0) RBTree.ascOps RBTree.ascOps_asc RBTree.ascOps_keeps (by rw [RBTree.ascOps_spec]; decide)
  rwa [RBTree.ascOps_spec] at this

/-- A skip list with three entries. -/
example : ∃ s, SkipList.Reaches SkipList.cmpInt 0 0 s [(1, 10), (3, 30), (6, 60)] ∧
    Behaves (fun E => ofSkipList (E := E) s) [(1, 10), (3, 30), (6, 60)] := by
  obtain ⟨s, e, S, -⟩ := SkipList.sorted_map_partial SkipList.cmpInt SkipList.cmpInt_threeWay 0 0 [(6, 60), (3, 30), (1, 10)] (fun _ => 7)
    (by simp [SkipList.cmpInt])
  have hR : SkipList.Reaches SkipList.cmpInt 0 0 s [(1, 10), (3, 30), (6, 60)] := ⟨⟨_, e⟩, S⟩
  exact ⟨s, hR, skipList_stream hR⟩

/-- A linked list with three elements, and Zip of a slice of five elements with it. -/
example : ∃ s a, LinkedList.After (0 : Int) [.newList, .pushBack 0 10, .pushBack 0 20] s a ∧ Behaves (fun E => ofList (E := E) s 0) [10, 20] ∧
    ∃ l', foldWith (zip (0, 0) (demo Unit [1, 2, 3, 4, 5]).stm (ofList s 0 0)) [] (fun acc x => acc ++ [x])
      (zip (0, 0) (demo Unit [1, 2, 3, 4, 5]).stm (ofList s 0 0)).init () = .ok ([(1, 10), (2, 20), (0, 0), (4, 10), (5, 20)], l', ()) := by
  have hleg : LinkedList.LegalHist (0 : Int) (LinkedList.Abs.empty 0) [.newList, .pushBack 0 10, .pushBack 0 20] := by
    simp [LinkedList.LegalHist, LinkedList.Legal, LinkedList.specStep, LinkedList.Abs.empty, LinkedList.Abs.addList, LinkedList.Abs.alloc,
      LinkedList.Abs.setSeq, LinkedList.Abs.touch]
  obtain ⟨s', e, -⟩ := LinkedList.run_refines 0 _ _ _ (LinkedList.inv_empty 0) hleg
  have hA : LinkedList.After (0 : Int) [.newList, .pushBack 0 10, .pushBack 0 20] s' _ := ⟨hleg, ⟨_, e⟩, rfl⟩
  have hS : Source (demo Unit [1, 2, 3, 4, 5]).stm [1, 2, 3, 4, 5] True := by
    have := ofSlice_source (E := Unit) (demoMem [1, 2, 3, 4, 5]) { arr := 0, off := 0, len := ([1, 2, 3, 4, 5] : List Int).length, cap := ([1, 2, 3, 4, 5] : List Int).length }
    rwa [show (demoMem [1, 2, 3, 4, 5]).view _ = _ from demo_vals (E := Unit) [1, 2, 3, 4, 5]] at this
  exact ⟨s', _, hA, list_stream hA rfl rfl, zip_list_cycles (0, 0) (s := (demo Unit [1, 2, 3, 4, 5]).stm) (xs := [1, 2, 3, 4, 5]) (z0 := True) hS hA rfl rfl ()⟩

end Gds.Stream
