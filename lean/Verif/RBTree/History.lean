import Verif.RBTree.Sim

/-! The simulation of ascending histories, call by call. -/

namespace Gds.RBTree

variable {K V : Type}

theorem T.eq_nil_of_ids {t : T} (h : t.ids = []) : t = .nil := by
  cases t with
  | nil => rfl
  | node l i r => simp [T.ids] at h

theorem Sim.putR {z : K × V} {cmp : Compare K} (hc : cmp.ThreeWay) {g : Prop} {t : Tree K V} {L : List (K × V)} {tr : T} {U : List Nat} (h : SimT z cmp g t L tr U) (k : K) (v : V)
    (ha : (∃ e ∈ L, cmp k e.1 = 0) ∨ ∀ e ∈ L, 0 < cmp k e.1) :
    ∃ t', RBTree.put cmp t k v = .ok ((specGet cmp k L).isNone, t') ∧ (∃ tr' U', SimT z cmp g t' (specPut cmp k v L) tr' U' ∧
      ((tr.ids = [] ∨ t.heap.right 0 = tr.ids.getLast?) → t'.heap.right 0 = tr'.ids.getLast?) ∧ ∃ ns, tr'.ids = tr.ids ++ ns) := by
  have hroot := h.ok.holds.root
  rcases Sim.search hc h k with ⟨as, i, bs, hab, e, he, hL, h1, h2⟩ | ⟨e, hno⟩
  · have hd : descend cmp t.heap k (t.heap.parent 0) none = .ok (.found i) := by
      rw [RBTree.search, hroot] at e
      rw [hroot]; exact descend_of_search tr none none h.ok.holds.rep e
    have hi : i ∈ tr.ids := by rw [hab]; simp
    have hkey : ∀ j, ((rekv t.heap i ((t.heap.kv i).1, v)).kv j).1 = (t.heap.kv j).1 := by
      intro j; simp only [rekv]; split
      next hh => rw [hh]
      next => rfl
    have hA : ∀ a ∈ as.map t.heap.kv, 0 < cmp k a.1 := by intro a ha; obtain ⟨j, hj, rfl⟩ := List.mem_map.1 ha; exact h1 j hj
    refine ⟨{ t with heap := rekv t.heap i ((t.heap.kv i).1, v) }, ?_, tr, U, ⟨h.ok.rekv (h.ok.holds.pos i hi) _, ?_, ?_, ?_, h.nonnil, ?_, h.first⟩, ?_⟩
    · rw [RBTree.put, putInner, hd, hL, specGet_found (fun a ha => by have := hA a ha; omega) he]; rfl
    · rw [hL, specPut_found hA he, entries, hab]
      have hn := h.ok.holds.nodup
      rw [hab] at hn
      simp only [List.nodup_append, List.nodup_cons, List.mem_cons] at hn
      rw [List.map_append, List.map_cons]
      congr 1
      · refine List.map_congr_left (fun j hj => ?_); simp only [rekv]; grind
      · congr 1
        · simp [rekv]
        · refine List.map_congr_left (fun j hj => ?_); simp only [rekv]; grind
    · refine h.asc.imp ?_
      intro a b hab; rw [hkey, hkey]; exact hab
    · rw [hL, specPut_found hA he]; show t.size = _; rw [h.size, hL]; simp
    · intro j rest hj hlow
      refine h.low j rest hj ?_
      rw [← hkey]; exact hlow
    · refine ⟨?_, [], by simp⟩
      rintro (hh | hh)
      · rw [hh] at hi; simp at hi
      · exact hh
  · have hmax : ∀ e ∈ L, 0 < cmp k e.1 := by
      rcases ha with ⟨e, he, h0⟩ | ha
      · exact absurd h0 (hno e he)
      · exact ha
    rw [specPut_max hmax, specGet_none hno]
    have hids : ∀ i ∈ tr.ids, 0 < cmp k (t.heap.kv i).1 := by
      intro i hi; refine hmax _ ?_; rw [← h.ents, entries]; exact List.mem_map.2 ⟨i, hi, rfl⟩
    by_cases hnil : tr.ids = []
    · obtain rfl := T.eq_nil_of_ids hnil
      obtain ⟨n, t', e', hn, ok', hsz, hkv, hl, hr⟩ := insertAt_empty h.ok k v
      have hL : L = [] := by rw [← h.ents]; rfl
      subst hL
      refine ⟨{ t' with size := t'.size + 1 }, ?_, .node .nil n .nil, n :: U, ⟨⟨ok'.holds, ok'.rb, ok'.buf, ok'.sub, ok'.zero⟩, ?_, ?_, ?_, ?_, ?_, ?_⟩, ?_⟩
      · have : descend cmp t.heap k (t.heap.parent 0) none = .ok (.missing none) := by rw [hroot, T.root_nil, descend]; rfl
        rw [RBTree.put, putInner, this]
        simp only [Res.bind_ok]
        rw [show (allocNode t k v >>= fun x => link x.2.heap x.1 none >>= fun m => pure (true, { x.2 with heap := m })) = insertAt t k v none from rfl, e']; rfl
      · simp [entries, T.ids, hkv]
      · simp [Asc, T.ids]
      · show t'.size + 1 = _; rw [hsz, h.size]; rfl
      · intro _; show t'.heap.left 0 ≠ none; rw [hl]; simp
      · intro j rest hj _; simp [T.ids] at hj; show t'.heap.left 0 = _; rw [hl, hj.1]
      · intro _ _; show t'.heap.left 0 = _; rw [hl]; rfl
      · exact ⟨fun _ => by show t'.heap.right 0 = _; rw [hr]; rfl, [n], rfl⟩
    · have hcm : ∀ i ∈ tr.ids, cmp k (t.heap.kv i).1 = 1 := by
        intro i hi; have := hids i hi; have := hc.range k (t.heap.kv i).1; omega
      obtain ⟨c, l, i, hpl, haf, hd⟩ := descend_max tr .top h.ok.holds (by rintro rfl; exact hnil rfl) rfl hcm
      simp only [Ctx.plug, Ctx.par] at hpl hd
      rw [← hroot] at hd
      have okc : OK z t (c.plug (.node l i .nil)) U := hpl ▸ h.ok
      obtain ⟨n, t', tr', e', hn, ok', hsz, hi', hkv, hl, hr, -⟩ := insertAt_spec okc (.inr rfl) k v
      have hids' : tr'.ids = tr.ids ++ [n] := by
        rw [hi', hpl, ids_plug, haf]; simp [T.ids]
      have hnn : n ∉ tr.ids := fun hh => hn (h.ok.sub n hh)
      have hkvo : ∀ j ∈ tr.ids, t'.heap.kv j = t.heap.kv j := by
        intro j hj; rw [hkv, if_neg]; rintro rfl; exact hnn hj
      have hkvn : t'.heap.kv n = (k, v) := by rw [hkv, if_pos rfl]
      have hhead : tr'.ids.head? = tr.ids.head? := by
        rw [hids']; cases hq : tr.ids with
        | nil => exact absurd hq hnil
        | cons => rfl
      refine ⟨{ t' with size := t'.size + 1 }, ?_, tr', n :: U, ⟨⟨ok'.holds, ok'.rb, ok'.buf, ok'.sub, ok'.zero⟩, ?_, ?_, ?_, ?_, ?_, ?_⟩, ?_⟩
      · rw [RBTree.put, putInner, hd]
        simp only [Res.bind_ok]
        rw [show (allocNode t k v >>= fun x => link x.2.heap x.1 (some i) >>= fun m => pure (true, { x.2 with heap := m })) = insertAt t k v (some i) from rfl, e']; rfl
      · show tr'.ids.map t'.heap.kv = _
        rw [hids', List.map_append, ← h.ents, entries]
        congr 1
        · exact List.map_congr_left hkvo
        · simp [hkvn]
      · show tr'.ids.Pairwise (fun i j => cmp (t'.heap.kv i).1 (t'.heap.kv j).1 < 0)
        rw [hids', List.pairwise_append]
        refine ⟨?_, by simp, ?_⟩
        · refine List.Pairwise.imp_of_mem ?_ h.asc
          intro a b ha hb hab; rw [hkvo a ha, hkvo b hb]; exact hab
        · intro a ha b hb
          simp only [List.mem_singleton] at hb; subst hb
          rw [hkvn, hkvo a ha]
          exact (hc.pos_iff k (t.heap.kv a).1).1 (hids a ha)
      · show t'.size + 1 = _; rw [hsz, h.size]; simp
      · intro _; show t'.heap.left 0 ≠ none; rw [hl]; exact h.nonnil hnil
      · intro j rest hj hlow
        show t'.heap.left 0 = _
        rw [hl]
        have hq : tr.ids.head? = some j := by rw [← hhead, hj]; rfl
        obtain ⟨rest', hrest⟩ : ∃ rest', tr.ids = j :: rest' := by
          cases hq' : tr.ids with
          | nil => rw [hq'] at hq; cases hq
          | cons a as => rw [hq'] at hq; cases hq; exact ⟨as, rfl⟩
        refine h.low j rest' hrest ?_
        rw [← hkvo j (by rw [hrest]; simp)]; exact hlow
      · intro hg _
        show t'.heap.left 0 = _
        rw [hl, hhead]; exact h.first hg hnil
      · refine ⟨?_, [n], hids'⟩
        rintro (hh | hh)
        · exact absurd hh hnil
        · show t'.heap.right 0 = _
          have hlast : tr.ids.getLast? = some i := by rw [hpl, ids_plug, haf]; simp [T.ids]
          rw [hr, if_pos (by rw [hh, hlast]), hids']; simp

theorem Sim.put {z : K × V} {cmp : Compare K} (hc : cmp.ThreeWay) {g : Prop} {t : Tree K V} {L : List (K × V)} (h : Sim z cmp g t L) (k : K) (v : V)
    (ha : (∃ e ∈ L, cmp k e.1 = 0) ∨ ∀ e ∈ L, 0 < cmp k e.1) :
    ∃ t', RBTree.put cmp t k v = .ok ((specGet cmp k L).isNone, t') ∧ Sim z cmp g t' (specPut cmp k v L) := by
  obtain ⟨tr, U, h⟩ := h
  obtain ⟨t', e, tr', U', h', -⟩ := Sim.putR hc h k v ha
  exact ⟨t', e, tr', U', h'⟩

theorem Sim.delete {z : K × V} {cmp : Compare K} (hc : cmp.ThreeWay) {g : Prop} {t : Tree K V} {L : List (K × V)} {tr : T} {U : List Nat} (h : SimT z cmp g t L tr U) (k : K)
    (hg : g → okDel cmp z.1 L k) :
    (RBTree.delete cmp t k = .ok (none, t) ∧ specGet cmp k L = none ∧ specDel cmp k L = L) ∨
    ∃ rm t' tr', RBTree.delete cmp t k = .ok (some rm, t') ∧ specGet cmp k L ≠ none ∧ SimT z cmp g t' (specDel cmp k L) tr' U ∧ rm ∈ U ∧ rm ∉ tr'.ids := by
  rcases Sim.search hc h k with ⟨as, i, bs, hab, e, he, hL, h1, h2⟩ | ⟨e, hno⟩
  · right
    obtain ⟨rm, t', tr', e', s', m1, m2⟩ := Sim.remove hc h hab he hL hg
    refine ⟨rm, t', tr', ?_, ?_, s', h.ok.sub rm m1, m2⟩
    · rw [RBTree.delete, e]; exact e'
    · rw [hL, specGet_found (by intro a ha; obtain ⟨j, hj, rfl⟩ := List.mem_map.1 ha; have := h1 j hj; omega) he]; simp
  · left
    refine ⟨?_, specGet_none hno, specDel_none hno⟩
    rw [RBTree.delete, e]; rfl

theorem SimT.freeNode {z : K × V} {cmp : Compare K} {g : Prop} {t : Tree K V} {L : List (K × V)} {tr : T} {U : List Nat} {n : Nat} (h : SimT z cmp g t L tr U)
    (hn : n ∈ U) (hnt : n ∉ tr.ids) : ∃ t', RBTree.freeNode t (some n) = .ok t' ∧ SimT z cmp g t' L tr (U.filter (· ≠ n)) := by
  obtain ⟨t', e, ok', hs, hk, hl⟩ := freeNode_spec h.ok hn hnt
  refine ⟨t', e, ok', ?_, ?_, by rw [hs]; exact h.size, ?_, ?_, ?_⟩
  · rw [entries, hk]; exact h.ents
  · rw [Asc, hk]; exact h.asc
  · rw [hl]; exact h.nonnil
  · rw [hl, hk]; exact h.low
  · rw [hl]; exact h.first

theorem Sim.deleteKeys {z : K × V} {cmp : Compare K} (hc : cmp.ThreeWay) {g : Prop} (ks : List K) {t : Tree K V} {L : List (K × V)} (h : Sim z cmp g t L)
    (hg : g → okDels cmp z.1 L ks) :
    ∃ n t', RBTree.deleteKeys cmp t ks = .ok (n, t') ∧ Sim z cmp g t' (ks.foldl (fun L k => specDel cmp k L) L) ∧
      n + (ks.foldl (fun L k => specDel cmp k L) L).length = L.length := by
  induction ks generalizing t L with
  | nil => exact ⟨0, t, rfl, h, by simp⟩
  | cons k ks ih =>
    obtain ⟨tr, U, h⟩ := h
    rw [RBTree.deleteKeys]
    rcases Sim.delete hc h k (fun q => (hg q).1) with ⟨e, -, hd⟩ | ⟨rm, t', tr', e, hne, s', m1, m2⟩
    · rw [e]
      simp only [Res.bind_ok, ne_eq, not_true_eq_false, if_false, List.foldl_cons]
      rw [hd]
      exact ih ⟨tr, U, h⟩ (fun q => by have := (hg q).2; rwa [hd] at this)
    · obtain ⟨t2, e2, s2⟩ := s'.freeNode m1 m2
      obtain ⟨n, t3, e3, s3, hn⟩ := ih ⟨tr', _, s2⟩ (fun q => (hg q).2)
      rw [e]
      simp only [Res.bind_ok, ne_eq, reduceCtorEq, not_false_eq_true, if_true, e2, e3, List.foldl_cons]
      refine ⟨n + 1, t3, rfl, s3, ?_⟩
      have h1 := h.size
      have h2 := s'.size
      rcases Sim.search hc h k with ⟨as, i, bs, hab, e, he, hL, q1, q2⟩ | ⟨e, hno⟩
      · have : (specDel cmp k L).length + 1 = L.length := by
          rw [hL, specDel_found ?_ ?_ he]
          · simp; omega
          · intro a ha; obtain ⟨j, hj, rfl⟩ := List.mem_map.1 ha; have := q1 j hj; omega
          · intro a ha; obtain ⟨j, hj, rfl⟩ := List.mem_map.1 ha; have := q2 j hj; omega
        omega
      · exact absurd (specGet_none hno) hne

theorem Sim.deleteMapping {z : K × V} {cmp : Compare K} (hc : cmp.ThreeWay) {g : Prop} {t : Tree K V} {L : List (K × V)} (h : Sim z cmp g t L) (k : K) (v : V) (vc : Compare V)
    (hg : g → ∀ w, specGet cmp k L = some w → vc v w = 0 → okDel cmp z.1 L k) :
    ∃ b t', deleteByWholeMapping cmp vc t k v = .ok (b, t') ∧ Sim z cmp g t' (specStep cmp L (.deleteMapping k v vc)) ∧
      (b = true ↔ ∃ w, specGet cmp k L = some w ∧ vc v w = 0) := by
  obtain ⟨tr, U, h⟩ := h
  rw [deleteByWholeMapping, specStep]
  rcases Sim.search hc h k with ⟨as, i, bs, hab, e, he, hL, h1, h2⟩ | ⟨e, hno⟩
  · have hgt : specGet cmp k L = some (t.heap.kv i).2 := by
      rw [hL, specGet_found (by intro a ha; obtain ⟨j, hj, rfl⟩ := List.mem_map.1 ha; have := h1 j hj; omega) he]
    rw [e, hgt]
    simp only [Res.bind_ok]
    by_cases hv : vc v (t.heap.kv i).2 = 0
    · rw [if_pos hv, if_pos hv]
      obtain ⟨rm, t', tr', e', s', m1, m2⟩ := Sim.remove hc h hab he hL (fun q => hg q _ hgt hv)
      obtain ⟨t2, e2, s2⟩ := s'.freeNode (h.ok.sub rm m1) m2
      exact ⟨true, t2, by simp [e', e2], ⟨tr', _, s2⟩, by simp [hv]⟩
    · rw [if_neg hv, if_neg hv]; exact ⟨false, t, rfl, ⟨tr, U, h⟩, by simp [hv]⟩
  · rw [e, specGet_none hno]; exact ⟨false, t, rfl, ⟨tr, U, h⟩, by simp⟩

theorem Sim.clear {z : K × V} {cmp : Compare K} {g : Prop} {t : Tree K V} {L : List (K × V)} (h : Sim z cmp g t L) : Sim z cmp g (RBTree.clear t) [] := by
  obtain ⟨tr, U, h⟩ := h
  exact ⟨.nil, U, sim_empty h.ok.clear rfl⟩

theorem Sim.step {z : K × V} {cmp : Compare K} (hc : cmp.ThreeWay) {g : Prop} {s : Tree K V × List Nat} {L : List (K × V)} (h : Sim z cmp g s.1 L) (op : Op K V)
    (ha : Ascending cmp L [op]) (hg : g → KeepsFirst cmp z.1 L [op]) :
    ∃ s', RBTree.step cmp s op = .ok s' ∧ Sim z cmp g s'.1 (specStep cmp L op) := by
  cases op with
  | put k v =>
    obtain ⟨t', e, h'⟩ := Sim.put hc h k v ha.1
    exact ⟨(t', s.2), by rw [RBTree.step, e]; rfl, h'⟩
  | delete k =>
    obtain ⟨tr, U, h⟩ := h
    rcases Sim.delete hc h k (fun q => (hg q).1) with ⟨e, -, hd⟩ | ⟨rm, t', tr', e, -, s', -, -⟩
    · exact ⟨(s.1, s.2), by rw [RBTree.step, e]; rfl, tr, U, by rw [specStep, hd]; exact h⟩
    · exact ⟨(t', rm :: s.2), by rw [RBTree.step, e]; rfl, tr', U, s'⟩
  | deleteKeys ks =>
    obtain ⟨n, t', e, h', -⟩ := Sim.deleteKeys hc ks h (fun q => (hg q).1)
    exact ⟨(t', s.2), by rw [RBTree.step, e]; rfl, h'⟩
  | deleteMapping k v vc =>
    obtain ⟨n, t', e, h', -⟩ := Sim.deleteMapping hc h k v vc (fun q => (hg q).1)
    exact ⟨(t', s.2), by rw [RBTree.step, e]; rfl, h'⟩
  | clear => exact ⟨(RBTree.clear s.1, s.2), rfl, h.clear⟩
  | putNode j => exact absurd ha.1 (by simp)

theorem Sim.run {z : K × V} {cmp : Compare K} (hc : cmp.ThreeWay) {g : Prop} (ops : List (Op K V)) {s : Tree K V × List Nat} {L : List (K × V)} (h : Sim z cmp g s.1 L)
    (ha : Ascending cmp L ops) (hg : g → KeepsFirst cmp z.1 L ops) :
    ∃ s', RBTree.run cmp s ops = .ok s' ∧ Sim z cmp g s'.1 (specRun cmp L ops) := by
  induction ops generalizing s L with
  | nil => exact ⟨s, rfl, h⟩
  | cons op ops ih =>
    obtain ⟨s1, e1, h1⟩ := Sim.step hc h op ⟨ha.1, trivial⟩ (fun q => ⟨(hg q).1, trivial⟩)
    obtain ⟨s2, e2, h2⟩ := ih h1 ha.2 (fun q => (hg q).2)
    exact ⟨s2, by rw [RBTree.run, e1]; exact e2, h2⟩

theorem Sim.new (z : K × V) (cmp : Compare K) (g : Prop) : Sim z cmp g (new z) [] := ⟨.nil, [], sim_empty (ok_new z) rfl⟩

end Gds.RBTree
