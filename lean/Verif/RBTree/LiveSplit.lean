import Verif.RBTree.Split
import Verif.Go.Segments

/-! C136: the segments of a red-black tree's `SplitableIter` pulled while keys are put. -/

namespace Gds.RBTree
open Segments (Part Cursor Item Out names forall₂_get forall₂_set forall₂_snoc)
variable {K V : Type}

/-! ### Model -/

/-- redblacktree.go:190-209 for parallelism > 0: `step` was computed when the segmenter was made, `rbTree.size` is read at every call. -/
def splitAt (t : Tree K V) (step : Int) : Iter.Next (Int × Option Nat) SegIter := fun (idx, node) =>
  if idx ≥ t.size then pure (none, (idx, node))
  else do
    let node' ← advance t.heap step.toNat node
    if idx + step ≥ t.size then pure (some (.whole node), (idx + step, node'))
    else pure (some (.step step node), (idx + step, node'))

/-- `splitAt` is `splitNext` with the step fixed. -/
theorem splitNext_eq (t : Tree K V) {p : Int} (hp : 0 < p) : splitNext t p = splitAt t (Int.tdiv t.size p) := by
  have h1 : ¬ p ≤ 0 := by omega
  have h2 : ¬ p = 0 := by omega
  funext ⟨idx, node⟩
  simp only [splitNext, splitAt, if_neg h1, if_neg h2]

/-- What the goroutine does: an operation on the tree, a call of the segmenter, a pull of the segment it got as number `j`. -/
inductive SItem (K V : Type) where
  | op (o : Op K V)
  | ask
  | pull (j : Nat)

/-- The operations of a history. -/
def opsOf : List (SItem K V) → List (Op K V)
  | [] => []
  | .op o :: is => o :: opsOf is
  | _ :: is => opsOf is

/-- The results of a segmenter of redblacktree.go:174-211 (captured `idx` and `node` in `c`) and of its segments `gs` (153-172) while operations run
    between the calls, and the tree (with the nodes the user holds) in the end. -/
def liveSplit (cmp : Compare K) (step : Int) : Tree K V × List Nat → Int × Option Nat → List SegIter → List (SItem K V) →
    Res (List (Out (K × V)) × (Tree K V × List Nat))
  | s, _, _, [] => pure ([], s)
  | s, c, gs, .op o :: is => do
    let s ← RBTree.step cmp s o
    liveSplit cmp step s c gs is
  | s, c, gs, .ask :: is => do
    let r ← splitAt s.1 step c
    match r.1 with
    | some g => do
      let os ← liveSplit cmp step s r.2 (gs ++ [g]) is
      pure (.part true :: os.1, os.2)
    | none => do
      let os ← liveSplit cmp step s r.2 gs is
      pure (.part false :: os.1, os.2)
  | s, c, gs, .pull j :: is =>
    match gs[j]? with
    | none => liveSplit cmp step s c gs is
    | some g => do
      let r ← segNext s.1.heap g
      let os ← liveSplit cmp step s c (gs.set j r.2) is
      pure (.elem j r.1 :: os.1, os.2)

/-! ### Specification -/

/-- Nodes with their keys. -/
def keyed (M : List (Nat × (K × V))) : List (Nat × K) := M.map fun x => (x.1, x.2.1)

/-- The history as seen by the segmenter and the segments: a `Put` changes the entries as it changes the map, leaves the nodes where they are
    and with their keys, and a new node is the last one. -/
def Follows (cmp : Compare K) : List (Nat × (K × V)) → List (SItem K V) → List (Item (K × V)) → Prop
  | _, [], [] => True
  | M, .op (.put k v) :: is, .edit M' :: js => M'.map Prod.snd = specPut cmp k v (M.map Prod.snd) ∧ Segments.Appends M M' ∧ keyed M ⊆ keyed M' ∧ Follows cmp M' is js
  | M, .ask :: is, .ask :: js => Follows cmp M is js
  | M, .pull i :: is, .pull j :: js => i = j ∧ Follows cmp M is js
  | _, _, _ => False

/-! ### Refinement -/

/-- The nodes with their entries. -/
def named (m : Heap K V) (ids : List Nat) : List (Nat × (K × V)) := ids.map fun i => (i, m.kv i)

theorem named_names (m : Heap K V) (ids : List Nat) : names (named m ids) = ids := by
  simp [names, named, Function.comp_def]

theorem named_snd (m : Heap K V) (ids : List Nat) : (named m ids).map Prod.snd = ids.map m.kv := by
  simp [named]

theorem named_after {m : Heap K V} {t : T} (h : Holds m t) {i : Nat} (hi : i ∈ t.ids) :
    next m (some i) = .ok (Segments.after (named m t.ids) i) ∧ ∀ e, Segments.after (named m t.ids) i = some e → e ∈ t.ids := by
  obtain ⟨as, bs, e⟩ := List.mem_iff_append.1 hi
  have hn := h.nodup
  have hx : (t.ids).idxOf i = as.length := by
    rw [e] at hn ⊢
    rw [List.idxOf_append, if_neg]
    · simp
    · intro hm
      simp only [List.nodup_append, List.mem_cons] at hn
      exact hn.2.2 i hm i (.inl rfl) rfl
  have ha : Segments.after (named m t.ids) i = bs.head? := by
    rw [Segments.after, named_names, hx, e, List.getElem?_append_right (by omega), List.head?_eq_getElem?]
    simp
  refine ⟨by rw [ha]; exact next_spec h e, fun f hf => ?_⟩
  rw [ha] at hf
  rw [e]
  simp [List.mem_of_head? hf]

theorem advance_refines {m : Heap K V} {t : T} (h : Holds m t) : ∀ (k : Nat) (n : Option Nat), (∀ e, n = some e → e ∈ t.ids) →
    advance m k n = .ok (Segments.ahead (named m t.ids) k n) := by
  intro k
  induction k with
  | zero => intro n _; rfl
  | succ k ih =>
    intro n hn
    cases n with
    | none => rfl
    | some e =>
      obtain ⟨h1, h2⟩ := named_after h (hn e rfl)
      rw [advance, h1, Res.bind_ok, Segments.ahead]
      exact ih _ h2

/-- The captured variables of a segment against its specification. -/
def SegRel : SegIter → Part → Prop
  | .whole n, ⟨none, m⟩ => n = m
  | .step k n, ⟨some j, m⟩ => n = m ∧ (m ≠ none → k.toNat = j)
  | _, _ => False

theorem pull_refines {m : Heap K V} {t : T} (h : Holds m t) {g : SegIter} {p : Part} (hr : SegRel g p) (hp : ∀ e, p.node = some e → e ∈ t.ids) :
    ∃ g', segNext m g = .ok ((p.pull (named m t.ids)).1.map Prod.snd, g') ∧ SegRel g' (p.pull (named m t.ids)).2 := by
  have look : ∀ e, e ∈ t.ids → (named m t.ids).lookup e = some (m.kv e) := fun e he =>
    Segments.lookup_of_mem (by rw [named_names]; exact h.nodup) (List.mem_map.2 ⟨e, he, rfl⟩)
  obtain ⟨left, node⟩ := p
  cases g with
  | whole n =>
    cases left with
    | some j => simp [SegRel] at hr
    | none =>
      simp only [SegRel] at hr
      subst hr
      cases n with
      | none => exact ⟨_, rfl, rfl⟩
      | some e =>
        have he := hp e rfl
        exact ⟨.whole (Segments.after (named m t.ids) e), by simp [segNext, iterCall, Part.pull, (named_after h he).1, look e he], by simp [SegRel, Part.pull]⟩
  | step k n =>
    cases left with
    | none => simp [SegRel] at hr
    | some j =>
      simp only [SegRel] at hr
      obtain ⟨rfl, hk⟩ := hr
      cases n with
      | none => exact ⟨.step (k - 1) none, by cases j <;> simp [segNext, Part.pull], by cases j <;> simp [Part.pull, SegRel]⟩
      | some e =>
        have he := hp e rfl
        have hk := hk (by simp)
        cases j with
        | zero =>
          have : ¬ 0 < k := by omega
          exact ⟨.step (k - 1) (some e), by simp [segNext, Part.pull, this], by simp [Part.pull, SegRel]; omega⟩
        | succ j =>
          have : 0 < k := by omega
          exact ⟨.step (k - 1) (Segments.after (named m t.ids) e), by simp [segNext, Part.pull, this, (named_after h he).1, look e he],
            by simp [Part.pull, SegRel]; omega⟩

theorem named_nodup {m : Heap K V} {t : T} (h : Holds m t) : (names (named m t.ids)).Nodup := by
  rw [named_names]; exact h.nodup

/-- A `Put` in an ascending history leaves the keys where they are. -/
theorem put_keys {cmp : Compare K} (hc : cmp.ThreeWay) {z : K × V} {g : Prop} {t : Tree K V} {L : List (K × V)} {tr : T} {U : List Nat}
    (h : SimT z cmp g t L tr U) (k : K) (v : V) (ha : (∃ e ∈ L, cmp k e.1 = 0) ∨ ∀ e ∈ L, 0 < cmp k e.1) :
    L.map Prod.fst <+: (specPut cmp k v L).map Prod.fst := by
  rcases Sim.search hc h k with ⟨as, i, bs, hab, -, he, rfl, h1, -⟩ | ⟨-, hno⟩
  · rw [specPut_found (fun a ha => by obtain ⟨j, hj, rfl⟩ := List.mem_map.1 ha; exact h1 j hj) he]
    simp
  · rcases ha with ⟨e, he, h0⟩ | ha
    · exact absurd h0 (hno e he)
    · rw [specPut_max ha, List.map_append]
      exact List.prefix_append _ _

theorem live_run {cmp : Compare K} (hc : cmp.ThreeWay) {z : K × V} {g : Prop} (k : Nat) : ∀ (is : List (SItem K V)) (t : Tree K V) (L : List (K × V))
    (us : List Nat) (tr : T) (U : List Nat) (c : Cursor) (gs : List SegIter), (∀ o, .op o ∈ is → ∃ k v, o = .put k v) → SimT z cmp g t L tr U → Ascending cmp L (opsOf is) →
    List.Forall₂ SegRel gs c.parts → Segments.Ordered (names (named t.heap tr.ids)) c →
    ∃ its t' tr' U', liveSplit cmp k (t, us) ((c.idx : Int), c.node) gs is = .ok ((Segments.spec k (named t.heap tr.ids) c its).map Out.forget, (t', us)) ∧
      Follows cmp (named t.heap tr.ids) is its ∧ Segments.final (named t.heap tr.ids) its = named t'.heap tr'.ids ∧
      SimT z cmp g t' (specRun cmp L (opsOf is)) tr' U' ∧ run cmp (t, us) (opsOf is) = .ok (t', us) := by
  intro is
  induction is with
  | nil => intro t L us tr U c gs _ h _ _ _; exact ⟨[], t, tr, U, rfl, trivial, rfl, h, rfl⟩
  | cons i is ih =>
    intro t L us tr U c gs hop h ha hR ho
    have hop' : ∀ o, .op o ∈ is → ∃ k v, o = .put k v := fun o ho => hop o (by simp [ho])
    have H := h.ok.holds
    have hn := named_nodup H
    have hsz : t.size = (named t.heap tr.ids).length := by rw [h.size, ← h.ents, entries, named, List.length_map, List.length_map]
    generalize hl : (named t.heap tr.ids).length = n at hsz
    cases i with
    | op o =>
      obtain ⟨key, v, rfl⟩ := hop o (by simp)
      obtain ⟨t1, e, tr1, U1, h1, -, ns, hns⟩ := Sim.putR hc h key v ha.1
      have hap : Segments.Appends (named t.heap tr.ids) (named t1.heap tr1.ids) :=
        ⟨by rw [named_names, named_names, hns]; exact List.prefix_append _ _, named_nodup h1.ok.holds⟩
      obtain ⟨its, t', tr', U', a1, a2, a3, a4, a5⟩ := ih t1 _ us tr1 U1 c gs hop' h1 ha.2 hR
        (Segments.ordered_sub hap.1.sublist hap.2 ho).1
      refine ⟨.edit (named t1.heap tr1.ids) :: its, t', tr', U', by simp only [liveSplit, RBTree.step, e, Res.bind_ok, Res.pure_eq, a1, Segments.spec], ⟨?_, hap, ?_, a2⟩, a3, a4, ?_⟩
      · rw [named_snd, named_snd]
        exact h1.ents.trans (by rw [← h.ents]; rfl)
      · have hk := put_keys hc h key v ha.1
        rw [← h1.ents, ← h.ents, entries, entries, hns, List.map_map, List.map_map, List.map_append] at hk
        have hk := List.prefix_iff_eq_take.1 hk
        rw [List.length_map, List.take_left' (by simp)] at hk
        have hk := List.map_inj_left.1 hk
        intro x hx
        obtain ⟨y, hy, rfl⟩ := List.mem_map.1 hx
        obtain ⟨i, hi, rfl⟩ := List.mem_map.1 hy
        refine List.mem_map.2 ⟨(i, t1.heap.kv i), List.mem_map.2 ⟨i, by rw [hns]; simp [hi], rfl⟩, ?_⟩
        have := hk i hi
        simp only [Function.comp] at this
        simp [this]
      · simp only [opsOf, run, RBTree.step, e, Res.bind_ok, Res.pure_eq]
        exact a5
    | ask =>
      have hnode : ∀ e, c.node = some e → e ∈ tr.ids := fun e he => by
        have := ho.mem ⟨none, c.node⟩ (by simp [Cursor.all]) e he
        rwa [named_names] at this
      have hadv := advance_refines H k c.node hnode
      simp only [liveSplit, splitAt, hsz, opsOf]
      by_cases hend : n ≤ c.idx
      · have e1 : ((c.idx : Int) ≥ (n : Int)) := by omega
        obtain ⟨its, t', tr', U', a1, a2, a3, a4, a5⟩ := ih t L us tr U c gs hop' h ha hR ho
        have e2 : c.ask (named t.heap tr.ids) k = (false, c) := by simp [Cursor.ask, hl, hend]
        refine ⟨.ask :: its, t', tr', U', ?_, a2, a3, a4, a5⟩
        simp only [e1, if_true, Res.pure_eq, Res.bind_ok, a1, Segments.spec, e2, List.map_cons]
        rfl
      · have e1 : ¬ ((c.idx : Int) ≥ (n : Int)) := by omega
        have oa := (Segments.ordered_ask hn (step := k) ho).1
        simp only [e1, if_false, Int.toNat_natCast, hadv, Res.bind_ok]
        have e0 : (c.ask (named t.heap tr.ids) k) = (true, ⟨c.idx + k, Segments.ahead (named t.heap tr.ids) k c.node,
            c.parts ++ [⟨if n ≤ c.idx + k then none else some k, c.node⟩]⟩) := by simp [Cursor.ask, hl, hend]
        rw [e0] at oa
        by_cases hlast : n ≤ c.idx + k
        · have e3 : ((c.idx : Int) + (k : Int) ≥ (n : Int)) := by omega
          obtain ⟨its, t', tr', U', a1, a2, a3, a4, a5⟩ := ih t L us tr U _ (gs ++ [.whole c.node]) hop' h ha
            (forall₂_snoc hR (by simp [SegRel, hlast])) oa
          simp only [Int.natCast_add] at a1
          refine ⟨.ask :: its, t', tr', U', ?_, a2, a3, a4, a5⟩
          simp only [e3, if_true, Res.pure_eq, Res.bind_ok, a1, Segments.spec, e0, List.map_cons]
          rfl
        · have e3 : ¬ ((c.idx : Int) + (k : Int) ≥ (n : Int)) := by omega
          obtain ⟨its, t', tr', U', a1, a2, a3, a4, a5⟩ := ih t L us tr U _ (gs ++ [.step (k : Int) c.node]) hop' h ha
            (forall₂_snoc hR (by simp [SegRel, hlast])) oa
          simp only [Int.natCast_add] at a1
          refine ⟨.ask :: its, t', tr', U', ?_, a2, a3, a4, a5⟩
          simp only [e3, if_false, Res.pure_eq, Res.bind_ok, a1, Segments.spec, e0, List.map_cons]
          rfl
    | pull j =>
      simp only [liveSplit, opsOf]
      rcases forall₂_get hR j with ⟨e1, e2⟩ | ⟨g, p, e1, e2, hr⟩
      · obtain ⟨its, t', tr', U', a1, a2, a3, a4, a5⟩ := ih t L us tr U c gs hop' h ha hR ho
        refine ⟨.pull j :: its, t', tr', U', ?_, ⟨rfl, a2⟩, a3, a4, a5⟩
        simp only [e1, Segments.spec, e2]
        exact a1
      · have hpm : p ∈ c.all := by simp [Cursor.all, List.mem_of_getElem? e2]
        have hpn : ∀ e, p.node = some e → e ∈ tr.ids := fun e he => by
          have := ho.mem p hpm e he
          rwa [named_names] at this
        obtain ⟨g', e3, hr'⟩ := pull_refines H hr hpn
        obtain ⟨its, t', tr', U', a1, a2, a3, a4, a5⟩ := ih t L us tr U { c with parts := c.parts.set j (p.pull (named t.heap tr.ids)).2 } (gs.set j g') hop' h ha
          (forall₂_set hR j hr') (Segments.ordered_pull hn ho e2)
        refine ⟨.pull j :: its, t', tr', U', ?_, ⟨rfl, a2⟩, a3, a4, a5⟩
        simp only at a1
        simp only [e1, e3, Res.bind_ok, a1, Segments.spec, e2, List.map_cons]
        rfl

theorem follows_edits {cmp : Compare K} : ∀ (is : List (SItem K V)) (its : List (Item (K × V))) (M : List (Nat × (K × V))),
    Follows cmp M is its → Segments.Edits Segments.Appends M its ∧ Segments.Edits (fun L L' => keyed L ⊆ keyed L') M its ∧
      (Segments.final M its).map Prod.snd = specRun cmp (M.map Prod.snd) (opsOf is) := by
  intro is
  induction is with
  | nil =>
    intro its M h
    cases its with
    | nil => exact ⟨trivial, trivial, rfl⟩
    | cons _ _ => exact h.elim
  | cons i is ih =>
    intro its M h
    cases its with
    | nil =>
      cases i with
      | op o => cases o <;> exact h.elim
      | _ => exact h.elim
    | cons j js =>
      cases i with
      | op o =>
        cases j with
        | edit M' =>
          cases o with
          | put k v => ?_
          | _ => exact h.elim
          obtain ⟨h1, h2, h4, h3⟩ := h
          obtain ⟨k1, k3, k2⟩ := ih js M' h3
          refine ⟨⟨h2, k1⟩, ⟨h4, k3⟩, k2.trans ?_⟩
          simp [opsOf, specRun, specStep, h1]
        | ask => cases o <;> exact h.elim
        | pull => cases o <;> exact h.elim
      | ask =>
        cases j with
        | ask => exact ih js M h
        | edit M' => exact h.elim
        | pull => exact h.elim
      | pull i =>
        cases j with
        | pull => exact ih js M h.2
        | edit M' => exact h.elim
        | ask => exact h.elim

/-! ### C136 -/

/-- C136, call by call: after a history that puts keys in ascending order and keeps its first key, a segmenter is made, and its calls, pulls of its
    segments and further `Put`s (of stored keys, or of keys above all stored ones) come in any order: nothing panics or hangs, the map changes as
    it would without the segments, and the segmenter and the segments do what the specification says of the map as it is at each call. -/
theorem live_split_refines {cmp : Compare K} (hc : cmp.ThreeWay) (z : K × V) (ops : List (Op K V)) (ha : Ascending cmp [] ops)
    (hk : KeepsFirst cmp z.1 [] ops) (hne : specRun cmp [] ops ≠ []) (p : Nat) (hp : 0 < p) (is : List (SItem K V))
    (hop : ∀ o, .op o ∈ is → ∃ k v, o = .put k v) (hp' : Ascending cmp (specRun cmp [] ops) (opsOf is)) :
    ∃ s M its s', run cmp (new z, []) ops = .ok s ∧ M.map Prod.snd = specRun cmp [] ops ∧ (names M).Nodup ∧ Follows cmp M is its ∧
      liveSplit cmp (Int.tdiv s.1.size p) s (0, leftMost s.1) [] is =
        .ok ((Segments.spec ((specRun cmp [] ops).length / p) M (Cursor.start M) its).map Out.forget, s') ∧
      run cmp s (opsOf is) = .ok s' ∧
      (specRun cmp [] (ops ++ opsOf is)).Pairwise (fun a b => cmp a.1 b.1 < 0) := by
  obtain ⟨s, e, tr, U, h⟩ := Sim.run hc ops (g := True) (s := (new z, [])) (Sim.new z cmp _) ha (fun _ => hk)
  have hids : tr.ids ≠ [] := by rintro hh; apply hne; rw [← h.ents, entries, hh]; rfl
  have hst := h.first trivial hids
  have _ := hp
  obtain ⟨its, t', tr', U', a1, a2, a3, a4, a5⟩ := live_run hc ((specRun cmp [] ops).length / p) is s.1 _ s.2 tr U (Cursor.start (named s.1.heap tr.ids)) []
    hop h hp' .nil (Segments.start_ordered _)
  refine ⟨s, named s.1.heap tr.ids, its, (t', s.2), e, ?_, named_nodup h.ok.holds, a2, ?_, a5, ?_⟩
  · rw [named_snd]; exact h.ents
  · have hq : Int.tdiv s.1.size (p : Int) = (((specRun cmp [] ops).length / p : Nat) : Int) := by
      rw [h.size, Int.tdiv_eq_ediv_of_nonneg (by omega)]; simp
    rw [hq, leftMost, hst, ← a1, Cursor.start, named_names]
    rfl
  · have := a4.ents
    rw [show specRun cmp [] (ops ++ opsOf is) = specRun cmp (specRun cmp [] ops) (opsOf is) by simp [specRun], ← this, entries, List.pairwise_map]
    exact a4.asc

/-- C136: no key is delivered twice, what is delivered is in the map in the end (with that key), and once the segmenter and all its segments have
    reported their ends, every key that was in the map when the segmenter was made has been delivered. -/
theorem live_split_once {cmp : Compare K} (hc : cmp.ThreeWay) (z : K × V) (ops : List (Op K V)) (ha : Ascending cmp [] ops)
    (hk : KeepsFirst cmp z.1 [] ops) (hne : specRun cmp [] ops ≠ []) (p : Nat) (hp : 0 < p) (is : List (SItem K V))
    (hop : ∀ o, .op o ∈ is → ∃ k v, o = .put k v) (hp' : Ascending cmp (specRun cmp [] ops) (opsOf is)) :
    ∃ s outs s', run cmp (new z, []) ops = .ok s ∧ liveSplit cmp (Int.tdiv s.1.size p) s (0, leftMost s.1) [] is = .ok (outs, s') ∧
      (Segments.delivered outs).Pairwise (fun x y => cmp x.1 y.1 ≠ 0) ∧
      (∀ x ∈ Segments.delivered outs, ∃ e ∈ specRun cmp [] (ops ++ opsOf is), e.1 = x.1) ∧
      (.part false ∈ outs → (∀ j < Segments.handed outs, .elem j none ∈ outs) →
        ∀ e ∈ specRun cmp [] ops, ∃ x ∈ Segments.delivered outs, x.1 = e.1) := by
  obtain ⟨s, M, its, s', e, h1, h2, h3, h4, h5, h6⟩ := live_split_refines hc z ops ha hk hne p hp is hop hp'
  obtain ⟨k1, k2, k3⟩ := follows_edits is its M h3
  have k4 := Segments.edits_mono (fun _ _ h => Segments.appends_inserts h) its M k1
  obtain ⟨d1, d2⟩ := Segments.delivered_image (fun x : Nat × (K × V) => (x.1, x.2.1)) ((specRun cmp [] ops).length / p) its M (Cursor.start M) k2
  have once := Segments.at_most_once ((specRun cmp [] ops).length / p) M h2 its k4
  have hfin : specRun cmp [] (ops ++ opsOf is) = (Segments.final M its).map Prod.snd := by
    rw [k3, h1]; simp [specRun]
  rw [hfin, List.pairwise_map] at h6
  have hsym : ((Segments.final M its).map fun x => (x.1, x.2.1)).Pairwise (fun a b => cmp a.2 b.2 ≠ 0 ∧ cmp b.2 a.2 ≠ 0) := by
    rw [List.pairwise_map]
    refine h6.imp fun {a b} hab => ?_
    have := (hc.flip a.2.1 b.2.1).1 hab
    constructor <;> simp only <;> omega
  refine ⟨s, _, s', e, h4, ?_, ?_, ?_⟩
  · rw [Segments.delivered_forget, List.pairwise_map]
    rw [List.Nodup, List.pairwise_map] at once
    refine once.imp_of_mem fun {a b} ha hb hab => ?_
    exact Segments.pairwise_both (R := fun a b : Nat × K => cmp a.2 b.2 ≠ 0) hsym (d1 a ha) (d1 b hb) (fun h => hab (Prod.mk.inj h).1)
  · intro x hx
    rw [Segments.delivered_forget] at hx
    obtain ⟨y, hy, rfl⟩ := List.mem_map.1 hx
    obtain ⟨w, hw, hwe⟩ := List.mem_map.1 (d1 y hy)
    exact ⟨w.2, hfin ▸ List.mem_map_of_mem hw, (Prod.mk.inj hwe).2⟩
  · intro g1 g2 en hen
    rw [Segments.handed_forget] at g2
    rw [Segments.delivered_forget]
    rw [← h1] at hen
    obtain ⟨y, hy, rfl⟩ := List.mem_map.1 hen
    obtain ⟨x, hx, hxy⟩ := List.mem_map.1 (Segments.all_once _ M h2 its k1 (Segments.part_forget g1) (fun j hj => Segments.end_forget (g2 j hj))
      y.1 (List.mem_map_of_mem (f := Prod.fst) hy))
    refine ⟨x.2, List.mem_map_of_mem hx, ?_⟩
    have m1 := d1 x hx
    have m2 := d2 (List.mem_map_of_mem (f := fun x : Nat × (K × V) => (x.1, x.2.1)) hy)
    have hnf := Segments.final_nodup its M h2 k4
    obtain ⟨a, ha', ea⟩ := List.mem_map.1 m1
    obtain ⟨b, hb', eb⟩ := List.mem_map.1 m2
    have hab := List.inj_on_of_nodup_map hnf ha' hb' ((Prod.mk.inj ea).1.trans (hxy.trans (Prod.mk.inj eb).1.symm))
    rw [← (Prod.mk.inj ea).2, ← (Prod.mk.inj eb).2, hab]
/-! ### What `Delete` does, and the hypotheses are met -/

/-- Four keys. -/
def fourOps : List (Op Int Nat) := [.put 1 10, .put 2 20, .put 3 30, .put 4 40]

theorem fourOps_spec : specRun Fn.comp [] fourOps = [(1, 10), (2, 20), (3, 30), (4, 40)] := by decide

theorem fourOps_asc : Ascending Fn.comp [] fourOps := by
  simp [fourOps, Ascending, specStep, specPut, Fn.comp]

theorem fourOps_keeps : KeepsFirst Fn.comp (0 : Int) [] fourOps := by
  simp [fourOps, KeepsFirst]

/-- The results alone, of a segmenter made after `fourOps` with parallelism `p`. -/
def fourSplit (p : Int) (is : List (SItem Int Nat)) : Res (List (Out (Int × Nat))) := do
  let s ← run Fn.comp (new ((0 : Int), 0), []) fourOps
  let r ← liveSplit Fn.comp (Int.tdiv s.1.size p) s (0, leftMost s.1) [] is
  pure r.1

/-- With `Delete` C136 is false: of 1, 2, 3, 4 in two segments, 2 is deleted after the first segment has been handed out; the segments deliver
    1, 3 and 3, 4: the entry 3 twice. -/
theorem live_split_delete_refuted : fourSplit 2 [.ask, .op (.delete 2), .pull 0, .pull 0, .pull 0, .ask, .pull 1, .pull 1, .pull 1, .ask] =
    .ok [.part true, .elem 0 (some (1, 10)), .elem 0 (some (3, 30)), .elem 0 none, .part true, .elem 1 (some (3, 30)), .elem 1 (some (4, 40)),
      .elem 1 none, .part false] := by
  cbv

/-- With `Delete` C136 is false: of 1, 2, 3, 4 in two segments, 1 and 2 are deleted after the first segment has delivered them; the segmenter then
    says that there is no other segment, and 3 and 4 are never delivered. -/
theorem live_split_lost_refuted : fourSplit 2 [.ask, .pull 0, .pull 0, .pull 0, .op (.delete 1), .op (.delete 2), .ask] =
    .ok [.part true, .elem 0 (some (1, 10)), .elem 0 (some (2, 20)), .elem 0 none, .part false] := by
  cbv

/-- With a `Put` of a key below stored ones C136 is false: of 2, 3 in one segment that has delivered nothing, after `Put(1)` the segment delivers
    2 and then 1, and not 3, although 3 was not deleted (it is lost from the map, C101). -/
theorem live_split_put_refuted : (do
      let s ← run Fn.comp (new ((0 : Int), 0), []) [.put 2 20, .put 3 30]
      let r ← liveSplit Fn.comp (Int.tdiv s.1.size 1) s (0, leftMost s.1) [] [.ask, .op (.put 1 10), .pull 0, .pull 0, .pull 0, .ask]
      pure r.1 : Res (List (Out (Int × Nat)))) =
    .ok [.part true, .elem 0 (some (2, 20)), .elem 0 (some (1, 10)), .elem 0 none, .part true] := by
  cbv

/-- The hypotheses of `live_split_once` are met and all ends are reported: 15 is put while two segments are pulled alternately. -/
example : ∃ s outs s', run Fn.comp (new (0, 0), []) fourOps = .ok s ∧
    liveSplit Fn.comp (Int.tdiv s.1.size (2 : Nat)) s (0, leftMost s.1) []
      [.ask, .pull 0, .op (.put 15 150), .op (.put 3 31), .ask, .pull 1, .pull 0, .pull 1, .pull 0, .pull 1, .ask, .pull 2, .pull 2, .ask] = .ok (outs, s') ∧
    outs = [.part true, .elem 0 (some (1, 10)), .part true, .elem 1 (some (3, 31)), .elem 0 (some (2, 20)), .elem 1 (some (4, 40)), .elem 0 none,
      .elem 1 none, .part true, .elem 2 (some (15, 150)), .elem 2 none, .part false] ∧
    ∀ e ∈ [(1, 10), (2, 20), (3, 30), (4, 40)], ∃ x ∈ Segments.delivered outs, x.1 = e.1 := by
  obtain ⟨s, outs, s', e1, e2, -, -, h⟩ := live_split_once Fn.comp_strict.toThreeWay ((0 : Int), 0) fourOps fourOps_asc fourOps_keeps
    (by rw [fourOps_spec]; simp) 2 (by omega)
    [.ask, .pull 0, .op (.put 15 150), .op (.put 3 31), .ask, .pull 1, .pull 0, .pull 1, .pull 0, .pull 1, .ask, .pull 2, .pull 2, .ask] (by simp)
    (by rw [fourOps_spec]; simp [Ascending, opsOf, specStep, specPut, Fn.comp])
  have ho : outs = [.part true, .elem 0 (some (1, 10)), .part true, .elem 1 (some (3, 31)), .elem 0 (some (2, 20)), .elem 1 (some (4, 40)),
      .elem 0 none, .elem 1 none, .part true, .elem 2 (some (15, 150)), .elem 2 none, .part false] := by
    have hr : fourSplit (2 : Nat)
        [.ask, .pull 0, .op (.put 15 150), .op (.put 3 31), .ask, .pull 1, .pull 0, .pull 1, .pull 0, .pull 1, .ask, .pull 2, .pull 2, .ask] = .ok outs := by
      simp only [fourSplit, e1, Res.bind_ok, e2, Res.pure_eq]
    have hc : fourSplit (2 : Nat)
        [.ask, .pull 0, .op (.put 15 150), .op (.put 3 31), .ask, .pull 1, .pull 0, .pull 1, .pull 0, .pull 1, .ask, .pull 2, .pull 2, .ask] =
        .ok [.part true, .elem 0 (some (1, 10)), .part true, .elem 1 (some (3, 31)), .elem 0 (some (2, 20)), .elem 1 (some (4, 40)),
          .elem 0 none, .elem 1 none, .part true, .elem 2 (some (15, 150)), .elem 2 none, .part false] := by
      cbv
    rw [hc] at hr
    exact (Res.ok.inj hr).symm
  refine ⟨s, outs, s', e1, e2, ho, ?_⟩
  rw [fourOps_spec] at h
  refine h (by simp [ho]) ?_
  intro j hj
  rw [ho] at hj ⊢
  simp only [Segments.handed] at hj
  have : j = 0 ∨ j = 1 ∨ j = 2 := by omega
  rcases this with rfl | rfl | rfl <;> simp

end Gds.RBTree
