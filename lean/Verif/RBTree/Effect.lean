import Verif.RBTree.Loss
import Mathlib.Data.List.Perm.Basic
import Mathlib.Data.List.Induction

/-! C104: what every call does to the entries and to `Size`, in every history. -/

namespace Gds.RBTree

variable {K V : Type}

/-! ### The specification -/

/-- The search takes the entry `e` for the key `k` (with a three-way comparator: the keys are equal). -/
def Hits (cmp : Compare K) (k : K) (e : K × V) : Prop := cmp k e.1 ≠ -1 ∧ cmp k e.1 ≠ 1

/-- The entries, in the order of `Next`, before and after `Put k v`; the flag tells whether an entry was added.  A new entry never comes
first, and costs at most one other entry, the one behind which it should have been. -/
inductive PutEffect (cmp : Compare K) (k : K) (v : V) : List (K × V) → List (K × V) → Bool → Prop
  | overwrite (P : List (K × V)) (e : K × V) (S : List (K × V)) (h : Hits cmp k e) : PutEffect cmp k v (P ++ e :: S) (P ++ (e.1, v) :: S) false
  | first : PutEffect cmp k v [] [(k, v)] true
  | behind (P : List (K × V)) (e : K × V) (D S : List (K × V)) (hD : D.length ≤ 1) (h : cmp k e.1 = -1 ∨ cmp k e.1 = 1 ∧ D = []) :
      PutEffect cmp k v (P ++ e :: (D ++ S)) (P ++ e :: (k, v) :: S) true

/-- The entries before and after a deletion of `k`; the flag tells whether an entry was deleted. -/
inductive DelEffect (cmp : Compare K) (k : K) : List (K × V) → List (K × V) → Bool → Prop
  | absent (es : List (K × V)) : DelEffect cmp k es es false
  | removed (P : List (K × V)) (e : K × V) (S : List (K × V)) (h : Hits cmp k e) : DelEffect cmp k (P ++ e :: S) (P ++ S) true

/-- The entries before and after deletions of several keys, and how many entries were deleted. -/
inductive DelsEffect (cmp : Compare K) : List K → List (K × V) → List (K × V) → Nat → Prop
  | nil (es : List (K × V)) : DelsEffect cmp [] es es 0
  | cons {k : K} {ks : List K} {es es' es'' : List (K × V)} {b : Bool} {n : Nat} (h : DelEffect cmp k es es' b) (hs : DelsEffect cmp ks es' es'' n) :
      DelsEffect cmp (k :: ks) es es'' (n + b.toNat)

/-- Entries and `Size` before and after a call; `held` are the entries of the nodes the user holds. -/
inductive Effect (cmp : Compare K) (held : List (K × V)) : Op K V → List (K × V) × Int → List (K × V) × Int → Prop
  | put {k v es es' b n} (h : PutEffect cmp k v es es' b) : Effect cmp held (.put k v) (es, n) (es', n + b.toNat)
  | delete {k es es' b n} (h : DelEffect cmp k es es' b) : Effect cmp held (.delete k) (es, n) (es', n - b.toNat)
  | deleteKeys {ks es es' m n} (h : DelsEffect cmp ks es es' m) : Effect cmp held (.deleteKeys ks) (es, n) (es', n - m)
  | deleteMapping {k v vc P e S n} (h : Hits cmp k e) (hv : vc v e.2 = 0) :
      Effect cmp held (.deleteMapping k v vc) (P ++ e :: S, n) (P ++ S, n - 1)
  | deleteMappingNot {k v vc es n} : Effect cmp held (.deleteMapping k v vc) (es, n) (es, n)
  | clear {es n} : Effect cmp held .clear (es, n) ([], 0)
  | putNode {j e es es' b n} (hj : held[j]? = some e) (h : PutEffect cmp e.1 e.2 es es' b) : Effect cmp held (.putNode j) (es, n) (es', n)
  | putNodeNot {j es n} (hj : held[j]? = none) : Effect cmp held (.putNode j) (es, n) (es, n)

/-! ### One call -/

theorem search_hits {cmp : Compare K} {m : Heap K V} {key : K} {i : Nat} {t : T} (h : Holds m t)
    (e : search cmp m key = .ok (some i)) : Hits cmp key (m.kv i) := by
  rw [search, h.root] at e
  exact descend_hit (cmp := cmp) t none none h.rep (descend_of_search t none none h.rep e)

theorem map_other {f g : Nat → K × V} {L : List Nat} {n : Nat} {x : K × V} (hL : n ∉ L) (hg : ∀ j, g j = if j = n then x else f j) : L.map g = L.map f := by
  refine List.map_congr_left (fun j hj => ?_)
  rw [hg, if_neg]; rintro rfl; exact hL hj

/-- Both kinds of `Put`: the common part. -/
theorem missing_effect {cmp : Compare K} {k : K} {v : V} {m : Heap K V} {kv' : Nat → K × V} {c : Ctx} {l r : T} {i n : Nat} (hrb : RB m.color (c.plug (.node l i r)))
    (hn : n ∉ (c.plug (.node l i r)).ids) (hlr : l = .nil ∧ cmp k (m.kv i).1 = -1 ∨ r = .nil ∧ cmp k (m.kv i).1 = 1)
    (hkv : ∀ j, kv' j = if j = n then (k, v) else m.kv j) :
    PutEffect cmp k v ((c.plug (.node l i r)).ids.map m.kv) ((c.before ++ l.ids ++ i :: n :: c.after).map kv') true := by
  rw [ids_plug] at hn ⊢
  simp only [T.ids, List.mem_append, List.mem_cons, not_or] at hn
  have hr : r.ids.length ≤ 1 := by
    rcases hlr with ⟨rfl, -⟩ | ⟨rfl, -⟩
    · rw [right_small hrb]; cases r.root <;> simp
    · simp [T.ids]
  have e2 : ((c.before ++ l.ids ++ i :: n :: c.after).map kv') =
      (c.before ++ l.ids).map m.kv ++ m.kv i :: (k, v) :: c.after.map m.kv := by
    rw [List.map_append, List.map_cons, List.map_cons, hkv i, hkv n, if_pos rfl, if_neg (fun h => hn.1.2.2.1 h.symm),
      map_other (L := c.before ++ l.ids) (by simp [hn]) hkv, map_other (L := c.after) (by simp [hn]) hkv]
  have e1 : (c.before ++ (T.node l i r).ids ++ c.after).map m.kv = (c.before ++ l.ids).map m.kv ++ m.kv i :: (r.ids.map m.kv ++ c.after.map m.kv) := by
    simp [T.ids]
  rw [e1, e2]
  refine .behind _ _ _ _ (by simpa using hr) ?_
  rcases hlr with ⟨-, h⟩ | ⟨rfl, h⟩
  · exact .inl h
  · exact .inr ⟨h, rfl⟩

theorem found_effect {cmp : Compare K} {k : K} {v : V} {m : Heap K V} {t : T} {i : Nat} (h : Holds m t) (hi : i ∈ t.ids) (hit : Hits cmp k (m.kv i)) :
    PutEffect cmp k v (t.ids.map m.kv) (t.ids.map (rekv m i ((m.kv i).1, v)).kv) false := by
  obtain ⟨as, bs, e⟩ := List.append_of_mem hi
  have hn := h.nodup
  rw [e] at hn ⊢
  have h1 : i ∉ as := by simp only [List.nodup_append, List.nodup_cons, List.mem_cons] at hn; grind
  have h2 : i ∉ bs := by simp only [List.nodup_append, List.nodup_cons, List.mem_cons] at hn; grind
  have hkv : ∀ j, (rekv m i ((m.kv i).1, v)).kv j = if j = i then ((m.kv i).1, v) else m.kv j := fun _ => rfl
  rw [List.map_append, List.map_cons, List.map_append, List.map_cons, map_other h1 hkv, map_other h2 hkv, hkv i, if_pos rfl]
  exact .overwrite _ _ _ hit

theorem put_effect {z : K × V} {t : Tree K V} {tr : T} {U : List Nat} (h : OK z t tr U) (cmp : Compare K) (k : K) (v : V) :
    ∃ b t' tr' U', put cmp t k v = .ok (b, t') ∧ OK z t' tr' U' ∧ PutEffect cmp k v (entries t tr) (entries t' tr') b ∧ t'.size = t.size + b.toNat := by
  have hroot := h.holds.root
  rcases descend_exact cmp k tr .top h.holds with ⟨i, hi, e, es⟩ | ⟨es, ⟨rfl, e⟩ | ⟨c, l, r, i, rfl, hlr, -, e⟩⟩
  · refine ⟨false, { t with heap := rekv t.heap i ((t.heap.kv i).1, v) }, tr, U, ?_, h.rekv (h.holds.pos i hi) _,
      found_effect h.holds hi (search_hits h.holds (by rw [search, hroot]; exact es)), by simp⟩
    rw [put, putInner, hroot]; simp only [Ctx.par] at e; rw [e]; rfl
  · obtain ⟨n, t', e', hn, ok', hsz, hkv, -⟩ := insertAt_empty h k v
    refine ⟨true, { t' with size := t'.size + 1 }, .node .nil n .nil, n :: U, ?_, ⟨ok'.holds, ok'.rb, ok'.buf, ok'.sub, ok'.zero⟩, ?_, ?_⟩
    · have : putInner cmp t k v = .ok (true, t') := by rw [putInner, hroot]; simp only [Ctx.par] at e; rw [e]; exact e'
      rw [put, this]; rfl
    · have : entries { t' with size := t'.size + 1 } (.node .nil n .nil) = [(k, v)] := by simp [entries, T.ids, hkv]
      rw [this]; exact .first
    · show t'.size + 1 = _; rw [hsz]; rfl
  · have hlr' : l = .nil ∨ r = .nil := by rcases hlr with h | h <;> [exact .inl h.1; exact .inr h.1]
    obtain ⟨n, t', tr', e', hn, ok', hsz, hids, hkv, -⟩ := insertAt_spec h hlr' k v
    refine ⟨true, { t' with size := t'.size + 1 }, tr', n :: U, ?_, ⟨ok'.holds, ok'.rb, ok'.buf, ok'.sub, ok'.zero⟩, ?_, ?_⟩
    · have : putInner cmp t k v = .ok (true, t') := by rw [putInner, hroot]; simp only [Ctx.par, Ctx.plug] at e; rw [e]; exact e'
      rw [put, this]; rfl
    · show PutEffect cmp k v (entries t _) (tr'.ids.map t'.heap.kv) true
      rw [hids]
      exact missing_effect h.rb (fun hh => hn (h.sub n hh)) hlr hkv
    · show t'.size + 1 = _; rw [hsz]; rfl

theorem putNode_effect {z : K × V} {t : Tree K V} {tr : T} {U : List Nat} (h : OK z t tr U) (cmp : Compare K) {x : Nat} (hx : x ∈ U) (hxt : x ∉ tr.ids) :
    ∃ b t' tr', putNode cmp t x = .ok (b, t') ∧ OK z t' tr' U ∧ PutEffect cmp (t.heap.kv x).1 (t.heap.kv x).2 (entries t tr) (entries t' tr') b ∧
      t'.size = t.size := by
  have hroot := h.holds.root
  have hx2 := h.pos x hx
  obtain ⟨b, t', tr', e0, ok', hsz, -⟩ := putNode_any h cmp hx hxt
  rcases descend_exact cmp (t.heap.kv x).1 tr .top h.holds with ⟨i, hi, e, es⟩ | ⟨es, ⟨rfl, e⟩ | ⟨c, l, r, i, rfl, hlr, -, e⟩⟩
  · refine ⟨false, { t with heap := rekv t.heap i ((t.heap.kv i).1, (t.heap.kv x).2) }, tr, ?_, h.rekv (h.holds.pos i hi) _,
      found_effect h.holds hi (search_hits h.holds (by rw [search, hroot]; exact es)), rfl⟩
    rw [putNode, hroot]; simp only [Ctx.par] at e; rw [e]; rfl
  · obtain ⟨m', e', hh, -, hk, -⟩ := link_empty (m := t.heap) hx2
    have e1 : putNode cmp t x = .ok (true, { t with heap := m' }) := by rw [putNode, hroot]; simp only [Ctx.par] at e; rw [e]; simp [e']
    rw [e1] at e0; cases e0
    refine ⟨true, _, tr', e1, ok', ?_, rfl⟩
    have : tr'.ids = [x] := ok'.holds.navigable.unique hh.navigable
    show PutEffect cmp _ _ [] (tr'.ids.map m'.kv) true
    rw [this, hk]; exact .first
  · have hlr' : l = .nil ∨ r = .nil := by rcases hlr with h | h <;> [exact .inl h.1; exact .inr h.1]
    obtain ⟨m', tr2, e', hh, hids, -, hk, -⟩ := link_spec h.holds h.rb hlr' hx2 hxt
    have e1 : putNode cmp t x = .ok (true, { t with heap := m' }) := by rw [putNode, hroot]; simp only [Ctx.par, Ctx.plug] at e; rw [e]; simp [e']
    rw [e1] at e0; cases e0
    refine ⟨true, _, tr', e1, ok', ?_, rfl⟩
    have : tr'.ids = tr2.ids := ok'.holds.navigable.unique hh.navigable
    show PutEffect cmp _ _ (entries t _) (tr'.ids.map m'.kv) true
    rw [this, hids]
    refine missing_effect h.rb hxt hlr (fun j => ?_)
    rw [hk]; split
    next hj => rw [hj]
    next => rfl

/-- The entry of the node that is removed goes, whichever node leaves the tree. -/
theorem Removed.entries {z : K × V} {cmp : Compare K} {t t' : Tree K V} {tr tr' : T} {U as bs : List Nat} {i rm : Nat}
    (R : Removed z cmp t t' tr tr' U as i bs rm) (hn : tr.ids.Nodup) (e : tr.ids = as ++ i :: bs) :
    tr'.ids.map t'.heap.kv = as.map t.heap.kv ++ bs.map t.heap.kv := by
  rw [e] at hn
  have h1 : i ∉ as := by simp only [List.nodup_append, List.nodup_cons, List.mem_cons] at hn; grind
  have h2 : i ∉ bs := by simp only [List.nodup_append, List.nodup_cons, List.mem_cons] at hn; grind
  rcases R.ids with ⟨rfl, h⟩ | ⟨-, bs', rfl, h⟩
  · rw [h, List.map_append, map_other h1 R.kv, map_other h2 R.kv]
  · rw [h, List.map_append, List.map_cons, map_other h1 R.kv, map_other (L := bs') (fun hh => h2 (by simp [hh])) R.kv, R.kv i, if_pos rfl]; rfl

theorem removeNode_effect {z : K × V} {t : Tree K V} {tr : T} {U : List Nat} {i : Nat} (h : OK z t tr U) (cmp : Compare K) (hi : i ∈ tr.ids) {k : K}
    (hit : Hits cmp k (t.heap.kv i)) :
    removeNode cmp t i = .panic .nilDeref ∨
    ∃ rm t' tr', removeNode cmp t i = .ok (some rm, t') ∧ OK z t' tr' U ∧ rm ∈ U ∧ rm ∉ tr'.ids ∧
      DelEffect cmp k (entries t tr) (entries t' tr') true ∧ t'.size = t.size - 1 ∧ ∃ P S, entries t tr = P ++ t.heap.kv i :: S ∧ entries t' tr' = P ++ S := by
  obtain ⟨as, bs, e⟩ := List.append_of_mem hi
  rcases removeNode_spec h e cmp with ⟨_, _, e'⟩ | ⟨_, rm, t', tr', e', R⟩
  · exact .inl e'
  · right
    have h1 : entries t tr = as.map t.heap.kv ++ t.heap.kv i :: bs.map t.heap.kv := by rw [RBTree.entries, e]; simp
    have h2 : entries t' tr' = as.map t.heap.kv ++ bs.map t.heap.kv := R.entries h.holds.nodup e
    refine ⟨rm, t', tr', e', R.ok, h.sub _ R.mem, (rm_out h.holds.nodup e R.ids).1, ?_, R.size, _, _, h1, h2⟩
    rw [h1, h2]; exact .removed _ _ _ hit

theorem delete_effect {z : K × V} {t : Tree K V} {tr : T} {U : List Nat} (h : OK z t tr U) (cmp : Compare K) (k : K) :
    delete cmp t k = .panic .nilDeref ∨ delete cmp t k = .ok (none, t) ∨
    ∃ rm t' tr', delete cmp t k = .ok (some rm, t') ∧ OK z t' tr' U ∧ rm ∈ U ∧ rm ∉ tr'.ids ∧
      DelEffect cmp k (entries t tr) (entries t' tr') true ∧ t'.size = t.size - 1 := by
  rw [delete]
  rcases search_any h cmp k with ⟨i, hi, e⟩ | e
  · rw [e]
    rcases removeNode_effect h cmp hi (search_hits h.holds e) with e' | ⟨rm, t', tr', e', h1, h2, h3, h4, h5, -⟩
    · exact .inl e'
    · exact .inr (.inr ⟨rm, t', tr', e', h1, h2, h3, h4, h5⟩)
  · right; left; rw [e]; rfl

theorem deleteKeys_effect {z : K × V} (cmp : Compare K) (ks : List K) {t : Tree K V} {tr : T} {U : List Nat} (h : OK z t tr U) :
    deleteKeys cmp t ks = .panic .nilDeref ∨
    ∃ n t' tr' U', deleteKeys cmp t ks = .ok (n, t') ∧ OK z t' tr' U' ∧ DelsEffect cmp ks (entries t tr) (entries t' tr') n ∧ t'.size = t.size - n := by
  induction ks generalizing t tr U with
  | nil => exact .inr ⟨0, t, tr, U, rfl, h, .nil _, by simp⟩
  | cons k ks ih =>
    rw [deleteKeys]
    rcases delete_effect h cmp k with e | e | ⟨rm, t', tr', e, ok', h1, h2, h3, h4⟩
    · left; rw [e]; rfl
    · rw [e]; simp only [Res.bind_ok, ne_eq, not_true_eq_false, if_false]
      rcases ih h with e' | ⟨n, t', tr', U', e', ok', he, hs⟩
      · exact .inl e'
      · exact .inr ⟨n, t', tr', U', e', ok', .cons (b := false) (.absent _) he, hs⟩
    · rw [e]
      obtain ⟨t2, e2, ok2, hs2, hkv2, -⟩ := freeNode_spec ok' h1 h2
      simp only [Res.bind_ok, ne_eq, reduceCtorEq, not_false_eq_true, if_true, e2]
      rcases ih ok2 with e3 | ⟨n, t3, tr3, U3, e3, ok3, he, hs⟩
      · left; rw [e3]; rfl
      · right
        have : entries t2 tr' = entries t' tr' := by rw [entries, entries, hkv2]
        rw [this] at he
        refine ⟨n + 1, t3, tr3, U3, by rw [e3]; rfl, ok3, .cons (b := true) h3 he, by rw [hs, hs2, h4]; push_cast; omega⟩

theorem deleteMapping_effect {z : K × V} {t : Tree K V} {tr : T} {U : List Nat} (h : OK z t tr U) (cmp : Compare K) (vc : Compare V) (k : K) (v : V) :
    deleteByWholeMapping cmp vc t k v = .panic .nilDeref ∨ deleteByWholeMapping cmp vc t k v = .ok (false, t) ∨
    ∃ t' tr' U' P e S, deleteByWholeMapping cmp vc t k v = .ok (true, t') ∧ OK z t' tr' U' ∧ Hits cmp k e ∧ vc v e.2 = 0 ∧
      entries t tr = P ++ e :: S ∧ entries t' tr' = P ++ S ∧ t'.size = t.size - 1 := by
  rw [deleteByWholeMapping]
  rcases search_any h cmp k with ⟨i, hi, e⟩ | e
  · rw [e]
    simp only [Res.bind_ok]
    by_cases hv : vc v (t.heap.kv i).2 = 0
    · rw [if_pos hv]
      rcases removeNode_effect h cmp hi (search_hits h.holds e) with e' | ⟨rm, t', tr', e', h1, h2, h3, -, h5, P, S, h6, h7⟩
      · left; simp [e']
      · right; right
        obtain ⟨t2, e2, ok2, hs2, hkv2, -⟩ := freeNode_spec h1 h2 h3
        exact ⟨t2, tr', _, P, _, S, by simp [e', e2], ok2, search_hits h.holds e, hv, h6, by rw [← h7, entries, entries, hkv2], by rw [hs2, h5]⟩
    · rw [if_neg hv]; exact .inr (.inl rfl)
  · rw [e]; exact .inr (.inl rfl)

/-! ### C104 -/

/-- C104: every call that returns, in every history and with any comparator, has its effect on the entries (in the order of `Next`) and on `Size`. -/
theorem calls_effect (cmp : Compare K) (z : K × V) (ops : List (Op K V)) {s s' : Tree K V × List Nat} (e : run cmp (new z, []) ops = .ok s)
    (op : Op K V) (e' : step cmp s op = .ok s') {L : List Nat} (hL : Navigable s.1.heap (s.1.heap.parent 0) L) :
    ∃ L', Navigable s'.1.heap (s'.1.heap.parent 0) L' ∧
      Effect cmp (s.2.map s.1.heap.kv) op (L.map s.1.heap.kv, sizeOf s.1) (L'.map s'.1.heap.kv, sizeOf s'.1) := by
  obtain ⟨tr, U, ok, hn, ho⟩ := run_inv cmp ops (inv_new z) e
  obtain rfl := hL.unique ok.holds.navigable
  cases op with
  | put k v =>
    obtain ⟨b, t', tr', U', e1, ok', he, hs⟩ := put_effect ok cmp k v
    simp only [step, e1, Res.bind_ok, Res.pure_eq, Res.ok.injEq] at e'
    subst e'
    refine ⟨tr'.ids, ok'.holds.navigable, ?_⟩
    simp only [sizeOf, hs]; exact .put he
  | delete k =>
    rcases delete_effect ok cmp k with e1 | e1 | ⟨rm, t', tr', e1, ok', -, -, he, hs⟩
    · simp [step, e1] at e'
    · simp only [step, e1, Res.bind_ok, Res.pure_eq, Res.ok.injEq] at e'
      subst e'
      refine ⟨tr.ids, ok.holds.navigable, ?_⟩
      have := Effect.delete (cmp := cmp) (held := s.2.map s.1.heap.kv) (n := s.1.size) (.absent (k := k) (tr.ids.map s.1.heap.kv))
      simpa [sizeOf] using this
    · simp only [step, e1, Res.bind_ok, Res.pure_eq, Res.ok.injEq] at e'
      subst e'
      refine ⟨tr'.ids, ok'.holds.navigable, ?_⟩
      simp only [sizeOf, hs]; exact .delete he
  | deleteKeys ks =>
    rcases deleteKeys_effect cmp ks ok with e1 | ⟨n, t', tr', U', e1, ok', he, hs⟩
    · simp [step, e1] at e'
    · simp only [step, e1, Res.bind_ok, Res.pure_eq, Res.ok.injEq] at e'
      subst e'
      refine ⟨tr'.ids, ok'.holds.navigable, ?_⟩
      simp only [sizeOf, hs]; exact .deleteKeys he
  | deleteMapping k v vc =>
    rcases deleteMapping_effect ok cmp vc k v with e1 | e1 | ⟨t', tr', U', P, x, S, e1, ok', h1, h2, h3, h4, hs⟩
    · simp [step, e1] at e'
    · simp only [step, e1, Res.bind_ok, Res.pure_eq, Res.ok.injEq] at e'
      subst e'
      exact ⟨tr.ids, ok.holds.navigable, .deleteMappingNot⟩
    · simp only [step, e1, Res.bind_ok, Res.pure_eq, Res.ok.injEq] at e'
      subst e'
      refine ⟨tr'.ids, ok'.holds.navigable, ?_⟩
      rw [entries] at h3 h4
      simp only [sizeOf, hs, h3, h4]; exact .deleteMapping h1 h2
  | clear =>
    simp only [step, Res.pure_eq, Res.ok.injEq] at e'
    subst e'
    exact ⟨[], ok.clear.holds.navigable, .clear⟩
  | putNode j =>
    simp only [step] at e'
    cases hj : s.2[j]? with
    | none =>
      rw [hj] at e'; simp only [Res.pure_eq, Res.ok.injEq] at e'; subst e'
      exact ⟨tr.ids, ok.holds.navigable, .putNodeNot (by simp [hj])⟩
    | some x =>
      rw [hj] at e'
      have hx : x ∈ s.2 := List.mem_of_getElem? hj
      obtain ⟨b, t', tr', e1, ok', he, hs⟩ := putNode_effect ok cmp (ho x hx).1 (ho x hx).2
      simp only [e1, Res.bind_ok, Res.pure_eq, Res.ok.injEq] at e'
      subst e'
      refine ⟨tr'.ids, ok'.holds.navigable, ?_⟩
      simp only [sizeOf, hs]; exact .putNode (by simp [hj]) he

/-- C104: a deletion of a key that a lookup does not find changes nothing. -/
theorem delete_absent (cmp : Compare K) (t : Tree K V) (k : K) (hk : get cmp t k = .ok none) (v : V) (vc : Compare V) :
    delete cmp t k = .ok (none, t) ∧ deleteKeys cmp t [k] = .ok (0, t) ∧ deleteByWholeMapping cmp vc t k v = .ok (false, t) := by
  have : search cmp t.heap k = .ok none := by
    rw [get] at hk
    cases hs : search cmp t.heap k with
    | ok o =>
      cases o with
      | none => rfl
      | some i => rw [hs] at hk; simp at hk
    | panic q => rw [hs] at hk; cases hk
    | hang => rw [hs] at hk; cases hk
  have hd : delete cmp t k = .ok (none, t) := by rw [delete, this]; rfl
  refine ⟨hd, ?_, ?_⟩
  · rw [deleteKeys, hd]; simp [deleteKeys]
  · rw [deleteByWholeMapping, this]; rfl

/-- C104: a deletion of a key that a lookup finds removes the entry whose value the lookup returns and no other, or panics (C76); so does
`DeleteByWholeMapping` if the value fits, and it changes nothing if not. -/
theorem delete_present (cmp : Compare K) (z : K × V) (ops : List (Op K V)) {s : Tree K V × List Nat} (e : run cmp (new z, []) ops = .ok s)
    {L : List Nat} (hL : Navigable s.1.heap (s.1.heap.parent 0) L) (k : K) {w : V} (hk : get cmp s.1 k = .ok (some w)) :
    ∃ P kw S, L.map s.1.heap.kv = P ++ (kw, w) :: S ∧ cmp k kw ≠ -1 ∧ cmp k kw ≠ 1 ∧
      (delete cmp s.1 k = .panic .nilDeref ∨
        ∃ rm t' L', delete cmp s.1 k = .ok (some rm, t') ∧ rm ∈ L ∧ rm ∉ L' ∧
          Navigable t'.heap (t'.heap.parent 0) L' ∧ L'.map t'.heap.kv = P ++ S ∧ sizeOf t' = sizeOf s.1 - 1) ∧
      ∀ (v : V) (vc : Compare V),
        (vc v w ≠ 0 → deleteByWholeMapping cmp vc s.1 k v = .ok (false, s.1)) ∧
        (vc v w = 0 → deleteByWholeMapping cmp vc s.1 k v = .panic .nilDeref ∨
          ∃ t' L', deleteByWholeMapping cmp vc s.1 k v = .ok (true, t') ∧ Navigable t'.heap (t'.heap.parent 0) L' ∧ L'.map t'.heap.kv = P ++ S ∧
            sizeOf t' = sizeOf s.1 - 1) := by
  obtain ⟨tr, U, ok, -, -⟩ := run_inv cmp ops (inv_new z) e
  obtain rfl := hL.unique ok.holds.navigable
  obtain ⟨i, hi, hs, hw⟩ : ∃ i, i ∈ tr.ids ∧ search cmp s.1.heap k = .ok (some i) ∧ (s.1.heap.kv i).2 = w := by
    rw [get] at hk
    rcases search_any ok cmp k with ⟨i, hi, hs⟩ | hs <;> rw [hs] at hk <;> simp at hk
    exact ⟨i, hi, hs, hk⟩
  have hit := search_hits ok.holds hs
  obtain ⟨as, bs, hab⟩ := List.append_of_mem hi
  refine ⟨as.map s.1.heap.kv, (s.1.heap.kv i).1, bs.map s.1.heap.kv, by rw [hab, ← hw]; simp, hit.1, hit.2, ?_, ?_⟩
  · rcases removeNode_spec ok hab cmp with ⟨_, _, e'⟩ | ⟨_, rm, t', tr', e', R⟩
    · left; rw [delete, hs]; exact e'
    · right
      exact ⟨rm, t', tr'.ids, by rw [delete, hs]; exact e', R.mem, (rm_out ok.holds.nodup hab R.ids).1, R.ok.holds.navigable, R.entries ok.holds.nodup hab, R.size⟩
  · intro v vc
    refine ⟨fun hv => ?_, fun hv => ?_⟩
    · rw [deleteByWholeMapping, hs]; simp only [Res.bind_ok]; rw [if_neg (by rw [hw]; exact hv)]; rfl
    · rw [deleteByWholeMapping, hs]; simp only [Res.bind_ok]; rw [if_pos (by rw [hw]; exact hv)]
      rcases removeNode_spec ok hab cmp with ⟨_, _, e'⟩ | ⟨_, rm, t', tr', e', R⟩
      · left; rw [e']; rfl
      · right
        obtain ⟨t2, e2, ok2, hs2, hkv2, -⟩ := freeNode_spec R.ok (ok.sub rm R.mem) (rm_out ok.holds.nodup hab R.ids).1
        refine ⟨t2, tr'.ids, by simp [e', e2], ok2.holds.navigable, ?_, ?_⟩
        · rw [hkv2]; exact R.entries ok.holds.nodup hab
        · rw [sizeOf, hs2]; exact R.size

/-! ### What it means for a history -/

/-- A new entry costs at most one of the old ones, an overwriting `Put` none. -/
theorem PutEffect.loss {cmp : Compare K} {k : K} {v : V} {es es' : List (K × V)} {b : Bool} (h : PutEffect cmp k v es es' b) :
    (b = false ∧ es'.length = es.length ∧ es'.map (·.1) = es.map (·.1)) ∨
    (b = true ∧ ∃ D : List (K × V), D.length ≤ 1 ∧ ((k, v) :: es).Perm (es' ++ D)) := by
  cases h with
  | overwrite P e S h => exact .inl ⟨rfl, by simp, by simp⟩
  | first => exact .inr ⟨rfl, [], by simp, by simp⟩
  | behind P e D S hD h =>
    refine .inr ⟨rfl, D, hD, ?_⟩
    have h1 : ((k, v) :: (P ++ e :: (D ++ S))).Perm (P ++ e :: (k, v) :: (D ++ S)) := by
      have := (List.perm_middle (a := (k, v)) (l₁ := P ++ [e]) (l₂ := D ++ S)).symm
      simpa using this
    refine h1.trans ?_
    simp only [List.append_assoc, List.cons_append]
    exact List.Perm.append_left P (List.Perm.cons e (List.Perm.cons _ List.perm_append_comm))

theorem DelEffect.length {cmp : Compare K} {k : K} {es es' : List (K × V)} {b : Bool} (h : DelEffect cmp k es es' b) : es'.length + b.toNat = es.length := by
  cases h <;> simp [Bool.toNat]; omega

theorem DelsEffect.length {cmp : Compare K} {ks : List K} {es es' : List (K × V)} {n : Nat} (h : DelsEffect cmp ks es es' n) : es'.length + n = es.length := by
  induction h with
  | nil => simp
  | cons h hs ih => have := h.length; omega

/-- Is this call a `Put`? -/
def Op.isPut : Op K V → Bool
  | .put _ _ => true
  | _ => false

/-- The calls of `Put` in a history. -/
def puts (ops : List (Op K V)) : Nat := ops.countP Op.isPut

/-- A history without `PutNode`. -/
def NoPutNode (ops : List (Op K V)) : Prop := ∀ j, .putNode j ∉ ops

theorem run_snoc {cmp : Compare K} {ops : List (Op K V)} {op : Op K V} {s s' : Tree K V × List Nat} (e : run cmp s (ops ++ [op]) = .ok s') :
    ∃ s1, run cmp s ops = .ok s1 ∧ step cmp s1 op = .ok s' := by
  induction ops generalizing s with
  | nil =>
    simp only [List.nil_append, run] at e
    cases e1 : step cmp s op with
    | ok s1 => rw [e1] at e; simp at e; subst e; exact ⟨s, rfl, e1⟩
    | panic k => rw [e1] at e; cases e
    | hang => rw [e1] at e; cases e
  | cons o ops ih =>
    rw [List.cons_append, run] at e
    cases e1 : step cmp s o with
    | ok s1 =>
      rw [e1] at e
      obtain ⟨s2, h1, h2⟩ := ih e
      exact ⟨s2, by rw [run, e1]; exact h1, h2⟩
    | panic k => rw [e1] at e; cases e
    | hang => rw [e1] at e; cases e

/-- C104: in every history without `PutNode`, `Size` exceeds the number of entries by at most the number of `Put`s, and never falls below it:
no call but `Put` loses an entry it should not, and a `Put` at most one. -/
theorem size_gap (cmp : Compare K) (z : K × V) (ops : List (Op K V)) (hp : NoPutNode ops) {s : Tree K V × List Nat} (e : run cmp (new z, []) ops = .ok s)
    {L : List Nat} (hL : Navigable s.1.heap (s.1.heap.parent 0) L) :
    (L.length : Int) ≤ sizeOf s.1 ∧ sizeOf s.1 ≤ L.length + puts ops := by
  induction ops using List.reverseRecOn generalizing s L with
  | nil =>
    simp only [run, Res.pure_eq, Res.ok.injEq] at e; subst e
    have : L = [] := hL.unique (ok_new z).holds.navigable
    subst this
    simp [sizeOf, new, puts]
  | append_singleton ops op ih =>
    obtain ⟨s1, e1, e2⟩ := run_snoc e
    obtain ⟨tr, U, ok, -, -⟩ := run_inv cmp ops (inv_new z) e1
    obtain ⟨L', nav, he⟩ := calls_effect cmp z ops e1 op e2 ok.holds.navigable
    obtain rfl := hL.unique nav
    obtain ⟨i1, i2⟩ := ih (fun j hj => hp j (by simp [hj])) e1 ok.holds.navigable
    have hpo : puts (ops ++ [op]) = puts ops + op.isPut.toNat := by
      rw [puts, List.countP_append]; cases op <;> rfl
    generalize hx : L.map s.1.heap.kv = es' at he
    generalize hy : tr.ids.map s1.1.heap.kv = es at he
    generalize hu : sizeOf s.1 = n' at he ⊢
    generalize hw : sizeOf s1.1 = n at he i1 i2
    have hx' : L.length = es'.length := by rw [← hx]; simp
    have hy' : tr.ids.length = es.length := by rw [← hy]; simp
    rw [hx']; rw [hy'] at i1 i2
    cases he with
    | put h =>
      rcases h.loss with ⟨rfl, hl, -⟩ | ⟨rfl, D, hD, hl⟩
      · simp only [hpo, Op.isPut, Bool.toNat, cond_true, cond_false] at *; push_cast; omega
      · have := hl.length_eq
        simp only [hpo, Op.isPut, Bool.toNat, cond_true, cond_false, List.length_cons, List.length_append] at *; push_cast; omega
    | delete h => have := h.length; simp only [hpo, Op.isPut, Bool.toNat, cond_true, cond_false] at *; omega
    | deleteKeys h => have := h.length; simp only [hpo, Op.isPut, Bool.toNat, cond_true, cond_false] at *; omega
    | deleteMapping h hv => simp only [hpo, Op.isPut, Bool.toNat, cond_true, cond_false, List.length_append, List.length_cons] at *; omega
    | deleteMappingNot => simp only [hpo, Op.isPut, Bool.toNat, cond_true, cond_false] at *; omega
    | clear => simp only [hpo, Op.isPut, Bool.toNat, cond_true, cond_false] at *; simp
    | putNode hj h => exact absurd (List.mem_append_right ops (List.mem_singleton.2 rfl)) (hp _)
    | putNodeNot hj => exact absurd (List.mem_append_right ops (List.mem_singleton.2 rfl)) (hp _)

/-- C104: the least entry in the order of `Next` stays the least, whatever is put: after any history, any number of further `Put`s leave its
key where it is. -/
theorem first_stays (cmp : Compare K) (z : K × V) (ops : List (Op K V)) (kvs : List (K × V)) {s s' : Tree K V × List Nat}
    (e : run cmp (new z, []) ops = .ok s) (e' : run cmp (new z, []) (ops ++ kvs.map (fun e => .put e.1 e.2)) = .ok s')
    {i : Nat} {L : List Nat} (hL : Navigable s.1.heap (s.1.heap.parent 0) (i :: L)) :
    ∃ j L', Navigable s'.1.heap (s'.1.heap.parent 0) (j :: L') ∧ (s'.1.heap.kv j).1 = (s.1.heap.kv i).1 := by
  induction kvs using List.reverseRecOn generalizing s' with
  | nil => simp only [List.map_nil, List.append_nil] at e'; rw [e] at e'; cases e'; exact ⟨i, L, hL, rfl⟩
  | append_singleton kvs x ih =>
    rw [List.map_append, ← List.append_assoc] at e'
    obtain ⟨s1, e1, e2⟩ := run_snoc e'
    obtain ⟨j, L1, nav1, hk⟩ := ih e1
    obtain ⟨L', nav, he⟩ := calls_effect cmp z _ e1 _ e2 nav1
    rw [List.map_cons] at he
    cases L' with
    | nil =>
      exfalso
      generalize hx : ([] : List Nat).map s'.1.heap.kv = es' at he
      generalize hu : sizeOf s'.1 = n' at he
      cases he with
      | put h => rcases h.loss with ⟨-, h1, -⟩ | ⟨-, D, hD, h1⟩
                 · subst hx; simp at h1
                 · have := h1.length_eq; subst hx; simp at this; omega
    | cons j' L' =>
      refine ⟨j', L', nav, ?_⟩
      rw [List.map_cons] at he
      generalize hx : s'.1.heap.kv j' :: L'.map s'.1.heap.kv = es' at he
      generalize hy : s1.1.heap.kv j :: L1.map s1.1.heap.kv = es at he
      generalize hu : sizeOf s'.1 = n' at he
      generalize hw : sizeOf s1.1 = n at he
      rw [← hk]
      cases he with
      | put h =>
        cases h with
        | overwrite P e S h => cases P <;> simp at hx hy <;> grind
        | first => simp at hy
        | behind P e D S hD h => cases P <;> simp at hx hy <;> grind

/-! ### The hypotheses are met -/

/-- The tree that lost its entries (C101): deleting 5, which is found, leaves the other entry alone. -/
example : ∃ s L, run Fn.comp (new ((0 : Int), (0 : Int)), []) [.put 5 50, .put 3 30, .put 4 40, .put 1 10, .put 2 20] = .ok s ∧
    Navigable s.1.heap (s.1.heap.parent 0) L ∧ (L.length : Int) ≤ sizeOf s.1 ∧ sizeOf s.1 ≤ L.length + 5 ∧
    (delete Fn.comp s.1 5 = .panic .nilDeref ∨
        ∃ rm t' L', delete Fn.comp s.1 5 = .ok (some rm, t') ∧ Navigable t'.heap (t'.heap.parent 0) L' ∧ L'.map t'.heap.kv = [(2, 20)]) ∧
    delete Fn.comp s.1 2 = .ok (none, s.1) := by
  obtain ⟨s, L, e, nav, h1, h2, h3, -, h5⟩ := put_keeps_refuted
  obtain ⟨g1, g2⟩ := size_gap _ _ _ (by intro j; simp) e nav
  refine ⟨s, L, e, nav, g1, g2, ?_, (delete_absent Fn.comp s.1 2 h5 0 (fun _ _ => 0)).1⟩
  obtain ⟨P, kw, S, hP, c1, c2, hd, -⟩ := delete_present _ _ _ e nav 5 h3
  rcases hd with hd | ⟨rm, t', L', d1, -, -, d2, d3, -⟩
  · exact .inl hd
  · refine .inr ⟨rm, t', L', d1, d2, ?_⟩
    rw [d3]
    rw [h1] at hP
    cases P with
    | nil => simp at hP; simp [← hP.2]
    | cons a P =>
      cases P with
      | nil => simp at hP
      | cons b P => simp at hP

end Gds.RBTree
