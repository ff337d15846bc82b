import Verif.RBTree.Nav

/-! C97: changing the map while iterating over it. -/

namespace Gds.RBTree

variable {K V : Type}

/-- A node with two children whose right child has none. -/
def RightLeaf (m : Heap K V) (i : Nat) : Prop := m.left i ≠ none ∧ ∃ r, m.right i = some r ∧ m.left r = none ∧ m.right r = none

theorem kv_map_congr {m m' : Heap K V} {L : List Nat} {i : Nat} {e : K × V} (hkv : ∀ j, m'.kv j = if j = i then e else m.kv j) (hi : i ∉ L) :
    L.map m'.kv = L.map m.kv := by
  refine List.map_congr_left (fun j hj => ?_)
  rw [hkv, if_neg]; rintro rfl; exact hi hj

/-- No node has the same left and right child. -/
theorem Holds.children_ne {m : Heap K V} {t : T} (h : Holds m t) {y q : Nat} (hy : y ∈ t.ids) (hl : m.left y = some q) (hr : m.right y = some q) : False := by
  obtain ⟨c, l, r, ht⟩ := exists_ctx t y hy .top
  simp only [Ctx.plug] at ht; subst ht
  obtain ⟨-, -, h2, h3, -⟩ := h.split
  obtain ⟨-, nt, -⟩ := Ctx.nodup_plug h.nodup
  rw [h2] at hl; rw [h3] at hr
  simp only [T.ids, List.nodup_append] at nt
  exact nt.2.2 q (T.root_mem hl) q (by simp [T.root_mem hr]) rfl

/-- Stepping from the node that was taken out in place of `i`. -/
theorem Removed.next_gone {z : K × V} {cmp : Compare K} {t t' : Tree K V} {tr tr' : T} {U as bs' : List Nat} {i rm : Nat} (ok : OK z t tr U)
    (e : tr.ids = as ++ i :: rm :: bs') (R : Removed z cmp t t' tr tr' U as i (rm :: bs') rm) (hne : rm ≠ i) :
    tr'.ids = as ++ i :: bs' ∧
    (RightLeaf t.heap i → next t'.heap (some rm) = .ok (some i)) ∧ (¬ RightLeaf t.heap i → next t'.heap (some rm) = .ok bs'.head?) := by
  have hids : tr'.ids = as ++ i :: bs' := by
    rcases R.ids with ⟨h, -⟩ | ⟨-, b, hb, h⟩
    · exact absurd h hne
    · rw [List.cons.injEq] at hb; rw [h, hb.2]
  refine ⟨hids, ?_⟩
  obtain ⟨s1, s2, s3⟩ := R.same
  obtain ⟨hl, y, hp, hy⟩ := R.near hne
  have hnx := next_spec ok.holds (as := as ++ [i]) (i := rm) (bs := bs') (by simp [e])
  have hn := ok.holds.nodup
  have hrm : rm ∉ tr'.ids := by
    rw [hids]; rw [e] at hn
    simp only [List.nodup_append, List.nodup_cons, List.mem_append, List.mem_cons] at hn ⊢
    grind
  have hi : i ∈ tr.ids := by rw [e]; simp
  have nav := ok.holds.navigable
  have hyt := nav.parent rm (by rw [e]; simp) y (by rw [parentOf_some, hp])
  cases hr : t.heap.right rm with
  | some q =>
    have hnl : ¬ RightLeaf t.heap i := by
      rintro ⟨-, r, h1, h2, h3⟩
      rcases hy with ⟨rfl, hy⟩ | hy
      · rw [h1, Option.some.injEq] at hy; rw [hy, hr] at h3; cases h3
      · have h4 := (nav.child i hi r (.inr (by rw [rightOf_some, h1]))).2
        have hb := nav.next as i (rm :: bs') e
        rw [next, rightOf_some, h1] at hb
        simp only [Res.bind_ok, ne_eq, reduceCtorEq, not_false_eq_true, if_true] at hb
        rw [minChild] at hb
        simp only [leftOf_some, h2, Res.bind_ok, ne_eq, not_true_eq_false, if_false, Res.pure_eq, Res.ok.injEq, List.head?_cons, Option.some.injEq] at hb
        rw [hb, hr] at h3; cases h3
    refine ⟨fun h => absurd h hnl, fun _ => ?_⟩
    obtain ⟨q1, q2⟩ := R.leaf q hl hr
    rw [next, rightOf_some, hr] at hnx
    simp only [Res.bind_ok, ne_eq, reduceCtorEq, not_false_eq_true, if_true] at hnx
    rw [minChild] at hnx
    rw [next, rightOf_some, s3, hr]
    simp only [Res.bind_ok, ne_eq, reduceCtorEq, not_false_eq_true, if_true]
    rw [minChild]
    simpa [q1, q2] using hnx
  | none =>
    have hy' : y ∈ tr'.ids := by
      have h1 := hyt.1
      have h2 : y ≠ rm := by
        rintro rfl
        rcases hy with ⟨h, -⟩ | h
        · exact hne h
        · rw [hl] at h; cases h
      rw [e] at h1; rw [hids]
      simp only [List.mem_append, List.mem_cons] at h1 ⊢
      tauto
    have hry : ¬ some rm = t'.heap.right y := by
      intro h
      exact hrm (R.ok.holds.navigable.child y hy' rm (.inr (by rw [rightOf_some, ← h]))).1
    have hgo : next t'.heap (some rm) = .ok (some y) := by
      rw [next, rightOf_some, s3, hr]
      simp only [Res.bind_ok, ne_eq, not_true_eq_false, if_false, parentOf_some, s1, hp]
      rw [climbNext]
      simp [hry]
    rw [hgo]
    rcases hy with ⟨rfl, hy⟩ | hy
    · refine ⟨fun _ => rfl, fun h => absurd ⟨?_, rm, hy, hl, hr⟩ h⟩
      intro hln
      exact hne (R.which.2 (.inl hln))
    · have hnl : ¬ RightLeaf t.heap i := by
        rintro ⟨-, r, h1, h2, h3⟩
        have hb := nav.next as i (rm :: bs') e
        rw [next, rightOf_some, h1] at hb
        simp only [Res.bind_ok, ne_eq, reduceCtorEq, not_false_eq_true, if_true] at hb
        rw [minChild] at hb
        simp only [leftOf_some, h2, Res.bind_ok, ne_eq, not_true_eq_false, if_false, Res.pure_eq, Res.ok.injEq, List.head?_cons, Option.some.injEq] at hb
        subst hb
        have hpi := (nav.child i hi r (.inr (by rw [rightOf_some, h1]))).2
        rw [parentOf_some, hp, Res.ok.injEq, Option.some.injEq] at hpi
        subst hpi
        exact ok.holds.children_ne hi hy h1
      refine ⟨fun h => absurd h hnl, fun _ => ?_⟩
      rw [next, rightOf_some, hr] at hnx
      simp only [Res.bind_ok, ne_eq, not_true_eq_false, if_false, parentOf_some, hp] at hnx
      rw [climbNext] at hnx
      have : ¬ some rm = t.heap.right y := fun h => ok.holds.children_ne hyt.1 hy h.symm
      simpa [this] using hnx

/-- C97, exactly, for every history: an iterator has delivered the node `i` (its own position is the next node) and the client
now calls `Delete` with a key that leads to `i`.  If `i` had two children and its right child none, the next entry is delivered twice;
in all other cases the iterator goes on with exactly the entries it had still to deliver. -/
theorem iter_delete_partial (cmp : Compare K) (z : K × V) (ops : List (Op K V)) {s : Tree K V × List Nat} (e : run cmp (new z, []) ops = .ok s)
    {L as bs : List Nat} {i : Nat} (hL : Navigable s.1.heap (s.1.heap.parent 0) L) (hsp : L = as ++ i :: bs)
    {k : K} (hs : search cmp s.1.heap k = .ok (some i)) {r : Option Nat} {t' : Tree K V} (hd : delete cmp s.1 k = .ok (r, t')) :
    (RightLeaf s.1.heap i → drain t'.heap bs.head? = .ok ((bs.map s.1.heap.kv).take 1 ++ bs.map s.1.heap.kv)) ∧
    (¬ RightLeaf s.1.heap i → drain t'.heap bs.head? = .ok (bs.map s.1.heap.kv)) := by
  obtain ⟨tr, U, ok, -, -⟩ := run_inv cmp ops (inv_new z) e
  obtain rfl := hL.unique ok.holds.navigable
  rw [delete, hs] at hd
  simp only [Res.bind_ok] at hd
  have hn := ok.holds.nodup
  rcases removeNode_spec ok hsp cmp with ⟨-, -, h3⟩ | ⟨-, rm, t2, tr', e', R⟩
  · rw [h3] at hd; cases hd
  rw [e'] at hd; cases hd
  by_cases hrm : rm = i
  · have hids : tr'.ids = as ++ bs := by
      rcases R.ids with ⟨-, h⟩ | ⟨-, b, hb, -⟩
      · exact h
      · rw [hsp, hb] at hn; subst hrm
        simp only [List.nodup_append, List.nodup_cons, List.mem_cons] at hn; grind
    have hib : i ∉ bs := by
      rw [hsp] at hn
      simp only [List.nodup_append, List.nodup_cons] at hn; exact hn.2.1.1
    refine ⟨fun h => ?_, fun _ => ?_⟩
    · rcases R.which.1 hrm with h1 | h1
      · exact absurd h1 h.1
      · obtain ⟨-, q, h2, -⟩ := h; rw [h1] at h2; cases h2
    · rw [drain_spec R.ok.holds bs as hids, kv_map_congr R.kv hib]
  · obtain ⟨bs', rfl⟩ : ∃ bs', bs = rm :: bs' := by
      rcases R.ids with ⟨h, -⟩ | ⟨-, b, hb, -⟩
      · exact absurd h hrm
      · exact ⟨b, hb⟩
    obtain ⟨hids, h1, h2⟩ := R.next_gone ok hsp hrm
    have hib : i ∉ bs' := by
      rw [hsp] at hn
      simp only [List.nodup_append, List.nodup_cons, List.mem_cons] at hn; grind
    have krm : t'.heap.kv rm = s.1.heap.kv rm := by rw [R.kv, if_neg hrm]
    have ki : t'.heap.kv i = s.1.heap.kv rm := by rw [R.kv, if_pos rfl]
    have d2 := drain_spec R.ok.holds bs' (as ++ [i]) (by simp [hids])
    have d1 := drain_spec R.ok.holds (i :: bs') as hids
    rw [List.map_cons, ki] at d1
    rw [kv_map_congr R.kv hib] at d1 d2
    simp only [List.head?_cons] at d1
    refine ⟨fun h => ?_, fun h => ?_⟩
    · rw [List.head?_cons, drain]
      simp only [iterCall, h1 h, Res.bind_ok, Res.pure_eq, d1, krm]; rfl
    · rw [List.head?_cons, drain]
      simp only [iterCall, h2 h, Res.bind_ok, Res.pure_eq, d2, krm]; rfl

/-- C97, for every history: the iterator stands on `n` (the next node to deliver), the nodes of the tree are `as ++ n :: bs`, and `Delete` takes the
entry of a node that is still to be delivered, other than `n`: then exactly that entry is left out.  If it takes the entry of a node delivered
before the last one, nothing changes for the iterator. -/
theorem iter_delete_other (cmp : Compare K) (z : K × V) (ops : List (Op K V)) {s : Tree K V × List Nat} (e : run cmp (new z, []) ops = .ok s)
    {L as bs : List Nat} {n j : Nat} (hL : Navigable s.1.heap (s.1.heap.parent 0) L) (hsp : L = as ++ n :: bs)
    {k : K} (hs : search cmp s.1.heap k = .ok (some j)) {r : Option Nat} {t' : Tree K V} (hd : delete cmp s.1 k = .ok (r, t')) :
    (∀ b1 b2, bs = b1 ++ j :: b2 → drain t'.heap (some n) = .ok ((n :: b1 ++ b2).map s.1.heap.kv)) ∧
    (∀ a1 q a2, as = a1 ++ j :: q :: a2 → drain t'.heap (some n) = .ok ((n :: bs).map s.1.heap.kv)) := by
  obtain ⟨tr, U, ok, -, -⟩ := run_inv cmp ops (inv_new z) e
  obtain rfl := hL.unique ok.holds.navigable
  rw [delete, hs] at hd
  simp only [Res.bind_ok] at hd
  have hn := ok.holds.nodup
  constructor
  · rintro b1 b2 rfl
    have hsp' : tr.ids = (as ++ n :: b1) ++ j :: b2 := by simp [hsp]
    rcases removeNode_spec ok hsp' cmp with ⟨-, -, h3⟩ | ⟨-, rm, t2, tr', e', R⟩
    · rw [h3] at hd; cases hd
    rw [e'] at hd; cases hd
    rw [hsp'] at hn
    have hj : j ∉ n :: b1 ++ b2 := by
      simp only [List.nodup_append, List.nodup_cons, List.mem_cons, List.mem_append] at hn ⊢; grind
    rcases R.ids with ⟨rfl, h⟩ | ⟨-, b, rfl, h⟩
    · have := drain_spec R.ok.holds (n :: b1 ++ b2) as (by simp [h])
      rw [kv_map_congr R.kv hj] at this; exact this
    · have hj' : j ∉ n :: b1 ∧ j ∉ b := by simp only [List.mem_append, List.mem_cons] at hj ⊢; tauto
      have := drain_spec R.ok.holds (n :: b1 ++ j :: b) as (by simp [h])
      rw [List.map_append, kv_map_congr R.kv hj'.1, List.map_cons (l := b), kv_map_congr R.kv hj'.2, R.kv, if_pos rfl] at this
      rw [List.map_append, List.map_cons (l := b)]; exact this
  · rintro a1 q a2 rfl
    have hsp' : tr.ids = a1 ++ j :: (q :: a2 ++ n :: bs) := by simp [hsp]
    rcases removeNode_spec ok hsp' cmp with ⟨-, -, h3⟩ | ⟨-, rm, t2, tr', e', R⟩
    · rw [h3] at hd; cases hd
    rw [e'] at hd; cases hd
    rw [hsp'] at hn
    have hj : j ∉ n :: bs := by
      simp only [List.nodup_append, List.nodup_cons, List.mem_cons, List.mem_append] at hn ⊢; grind
    rcases R.ids with ⟨rfl, h⟩ | ⟨-, b, hb, h⟩
    · have := drain_spec R.ok.holds (n :: bs) (a1 ++ q :: a2) (by simp [h])
      rw [kv_map_congr R.kv hj] at this; exact this
    · rw [List.cons_append, List.cons.injEq] at hb
      have := drain_spec R.ok.holds (n :: bs) (a1 ++ j :: a2) (by rw [h, ← hb.2]; simp)
      rw [kv_map_congr R.kv hj] at this; exact this

/-- C97 for ascending histories: while an iterator that has delivered the entries `A` of the map stands on a node, `Put` (of a stored key, or of
one above all others) is seen by it: it goes on with the entries behind `A` of the new map. -/
theorem iter_put_partial {cmp : Compare K} (hc : cmp.ThreeWay) (z : K × V) (ops : List (Op K V)) (k : K) (v : V) (ha : Ascending cmp [] (ops ++ [.put k v]))
    (A : List (K × V)) (e : K × V) (B : List (K × V)) (hL : specRun cmp [] ops = A ++ e :: B) :
    ∃ s n b t', run cmp (new z, []) ops = .ok s ∧ search cmp s.1.heap e.1 = .ok (some n) ∧ put cmp s.1 k v = .ok (b, t') ∧
      drain s.1.heap (some n) = .ok (e :: B) ∧ drain t'.heap (some n) = .ok ((specRun cmp [] (ops ++ [.put k v])).drop A.length) := by
  have happ : ∀ (a b : List (Op K V)) (L : List (K × V)), Ascending cmp L (a ++ b) → Ascending cmp L a ∧ Ascending cmp (specRun cmp L a) b := by
    intro a b
    induction a with
    | nil => intro L h; exact ⟨trivial, h⟩
    | cons op a ih => intro L h; exact ⟨⟨h.1, (ih _ h.2).1⟩, (ih _ h.2).2⟩
  obtain ⟨h1, h2⟩ := happ ops [.put k v] [] ha
  obtain ⟨s, n, er, hs, -, hd, -⟩ := neighbours_partial hc z ops h1 hL
  obtain ⟨s', er', tr, U, h⟩ := Sim.run hc ops (g := False) (s := (new z, [])) (Sim.new z cmp _) h1 (by simp)
  rw [er] at er'; cases er'
  obtain ⟨t', ep, tr', U', h', -, ns, hns⟩ := Sim.putR hc h k v h2.1
  refine ⟨s, n, _, t', er, hs, ep, hd, ?_⟩
  have hspec : specRun cmp [] (ops ++ [.put k v]) = specPut cmp k v (specRun cmp [] ops) := by simp [specRun, specStep]
  rw [hspec, ← h'.ents, entries]
  have hent := h.ents
  rw [hL, entries] at hent
  obtain ⟨as, bs, hab, hA, hB⟩ := List.map_eq_append_iff.1 hent
  have hlen : A.length = as.length := by rw [← hA, List.length_map]
  cases bs with
  | nil => cases hB
  | cons i bs =>
    have hni : n = i := by
      have hit : i ∈ tr.ids := by rw [hab]; simp
      have hke : s.1.heap.kv i = e := (List.cons.inj hB).1
      rcases searchFrom_spec hc e.1 tr none h.ok.holds.rep h.asc with ⟨j, hj, ej, e0⟩ | ⟨-, hno⟩
      · rw [search, h.ok.holds.root, ej, Res.ok.injEq, Option.some.injEq] at hs
        subst hs
        rcases eq_or_ne j i with rfl | hji
        · rfl
        exfalso
        have hasc := h.asc
        rw [Asc, hab] at hasc
        rw [hab] at hj
        rw [← hke] at e0
        simp only [List.pairwise_append, List.pairwise_cons, List.mem_cons] at hasc
        simp only [List.mem_append, List.mem_cons] at hj
        rcases hj with hj | hj | hj
        · have := hasc.2.2 j hj i (.inl rfl); have := hc.flip (s.1.heap.kv j).1 (s.1.heap.kv i).1; omega
        · exact hji hj
        · have := hasc.2.1.1 j hj; omega
      · exact absurd (by rw [hke]; exact hc.self _) (hno i hit)
    subst hni
    have hids : tr'.ids = as ++ (n :: bs ++ ns) := by rw [hns, hab]; simp
    have := drain_spec h'.ok.holds (n :: bs ++ ns) as hids
    rw [hlen, hids, List.map_append, List.drop_append_of_le_length (by simp), List.drop_of_length_le (by simp), List.nil_append]
    exact this

/-- C97 is false: after three ascending puts, an iterator delivers the first and the second entry; the client deletes the second, and the
iterator delivers the third one twice. -/
theorem iter_delete_refuted {cmp : Compare K} (hc : cmp.ThreeWay) (z : K × V) {k1 k2 k3 : K} (h12 : cmp k1 k2 < 0) (h23 : cmp k2 k3 < 0) (v1 v2 v3 : V) :
    ∃ s n1 n2 r t', run cmp (new z, []) [.put k1 v1, .put k2 v2, .put k3 v3] = .ok s ∧
      iterCall s.1.heap (s.1.heap.left 0) = .ok (some (k1, v1), n1) ∧ iterCall s.1.heap n1 = .ok (some (k2, v2), n2) ∧
      delete cmp s.1 k2 = .ok (r, t') ∧ drain t'.heap n2 = .ok [(k3, v3), (k3, v3)] := by
  have h13 := hc.lt_trans h12 h23
  have r21 := (hc.flip k1 k2).1 h12
  have r31 := (hc.flip k1 k3).1 h13
  have r32 := (hc.flip k2 k3).1 h23
  have a1 : ¬ cmp k2 k1 < 0 := by omega
  have a2 : ¬ cmp k2 k1 = 0 := by omega
  have a3 : ¬ cmp k3 k1 < 0 := by omega
  have a4 : ¬ cmp k3 k1 = 0 := by omega
  have a5 : ¬ cmp k3 k2 < 0 := by omega
  have a6 : ¬ cmp k3 k2 = 0 := by omega
  have hL : specRun cmp [] [.put k1 v1, .put k2 v2, .put k3 v3] = [(k1, v1), (k2, v2), (k3, v3)] := by
    simp only [specRun, List.foldl_cons, List.foldl_nil, specStep, specPut, a1, a2, a3, a4, a5, a6, if_false]
  have ha : Ascending cmp [] [.put k1 v1, .put k2 v2, .put k3 v3] := by
    refine ⟨.inr (by simp), .inr ?_, .inr ?_, trivial⟩
    · simp [specStep, specPut, r21]
    · simp [specStep, specPut, a1, a2, r31, r32]
  have hk : KeepsFirst cmp z.1 [] [.put k1 v1, .put k2 v2, .put k3 v3] := ⟨trivial, trivial, trivial, trivial⟩
  obtain ⟨s, e, tr, U, h⟩ := Sim.run hc _ (g := True) (s := (new z, [])) (Sim.new z cmp _) ha (fun _ => hk)
  rw [hL] at h
  obtain ⟨a, b, c, habc⟩ : ∃ a b c, tr.ids = [a, b, c] := by
    have := congrArg List.length h.ents
    simp only [entries, List.length_map, List.length_cons, List.length_nil] at this
    match hh : tr.ids, this with
    | [a, b, c], _ => exact ⟨a, b, c, rfl⟩
  have hsh := three_shape h.ok.rb habc
  have hkv := h.ents
  rw [entries, habc] at hkv
  simp only [List.map_cons, List.map_nil, List.cons.injEq, and_true] at hkv
  obtain ⟨kva, kvb, kvc⟩ := hkv
  have hrep := h.ok.holds.rep
  rw [hsh] at hrep
  obtain ⟨-, hlb, hrb, -, -, hlc, hrc, -⟩ := hrep
  have hs : search cmp s.1.heap k2 = .ok (some b) := by
    rw [search, h.ok.holds.root, hsh, T.root_node, searchFrom]
    simp only [kvb, hc.self]; rfl
  rcases removeNode_spec h.ok (as := [a]) (bs := [c]) (i := b) (by rw [habc]; rfl) cmp with ⟨h0, -, -⟩ | ⟨-, rm, t', tr', e', R⟩
  · exact absurd h0 (h.nonnil (by rw [habc]; simp))
  have hd : delete cmp s.1 k2 = .ok (some rm, t') := by rw [delete, hs]; exact e'
  have hfirst := h.first trivial (by rw [habc]; simp)
  rw [habc] at hfirst
  have nav := h.ok.holds.navigable
  refine ⟨s, some b, some c, some rm, t', e, ?_, ?_, hd, ?_⟩
  · rw [hfirst, List.head?_cons, iterCall]; simp only [nav.next [] a [b, c] habc, Res.bind_ok, Res.pure_eq, kva]; rfl
  · rw [iterCall]; simp only [nav.next [a] b [c] habc, Res.bind_ok, Res.pure_eq, kvb]; rfl
  · have := (iter_delete_partial cmp z _ e nav (as := [a]) (i := b) (bs := [c]) habc hs hd).1 ⟨by rw [hlb]; simp, c, by rw [hrb]; rfl, hlc, hrc⟩
    simpa [kvc] using this

/-! ### Examples -/

/-- The keys 1, 2 and 3. -/
example : ∃ s n1 n2 r t', run Fn.comp (new ((0 : Int), (0 : Nat)), []) [.put 1 10, .put 2 20, .put 3 30] = .ok s ∧
    iterCall s.1.heap (s.1.heap.left 0) = .ok (some (1, 10), n1) ∧ iterCall s.1.heap n1 = .ok (some (2, 20), n2) ∧
    delete Fn.comp s.1 2 = .ok (r, t') ∧ drain t'.heap n2 = .ok [(3, 30), (3, 30)] :=
  iter_delete_refuted Fn.comp_strict.toThreeWay (0, 0) (by decide) (by decide) 10 20 30

/-- `iter_put_partial` with the history `ascOps` and a new greatest key. -/
example : ∃ s n b t', run Fn.comp (new (0, 0), []) ascOps = .ok s ∧ search Fn.comp s.1.heap 9 = .ok (some n) ∧ put Fn.comp s.1 20 7 = .ok (b, t') ∧
    drain t'.heap (some n) = .ok [(9, 90), (12, 120), (20, 7)] := by
  obtain ⟨s, n, b, t', h1, h2, h3, -, h5⟩ := iter_put_partial Fn.comp_strict.toThreeWay (0, 0) ascOps 20 7
    (ascending_append _ _ ascOps_asc (by rw [ascOps_spec]; exact ⟨.inr (by decide), trivial⟩)) [(1, 10), (3, 30)] (9, 90) [(12, 120)] ascOps_spec
  refine ⟨s, n, b, t', h1, h2, h3, ?_⟩
  rw [h5, show specRun Fn.comp [] (ascOps ++ [.put 20 7]) = [(1, 10), (3, 30), (9, 90), (12, 120), (20, 7)] from by decide]; rfl

end Gds.RBTree
