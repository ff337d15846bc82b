import Verif.RBTree.Props

/-! C87: `LeftMost`, `RightMost`, `Size`, `IsEmpty`. -/

namespace Gds.RBTree

variable {K V : Type}

/-- C61: after every history of ascending `Put`s and any deletes and `Clear`s, `Size` is the number of entries and `IsEmpty` says
whether it is 0. -/
theorem isEmpty_partial {cmp : Compare K} (hc : cmp.ThreeWay) (z : K × V) (ops : List (Op K V)) (ha : Ascending cmp [] ops) :
    ∃ s, run cmp (new z, []) ops = .ok s ∧ sizeOf s.1 = (specRun cmp [] ops).length ∧ (isEmpty s.1 = true ↔ specRun cmp [] ops = []) := by
  obtain ⟨s, e, tr, U, h⟩ := Sim.run hc ops (g := False) (s := (new z, [])) (Sim.new z cmp _) ha (by simp)
  refine ⟨s, e, h.size, ?_⟩
  rw [isEmpty, h.size, decide_eq_true_iff, ← List.length_eq_zero_iff]; omega

/-- C87: `LeftMost` is the node of the first entry, after the ascending histories whose deletes keep it. -/
theorem leftMost_partial {cmp : Compare K} (hc : cmp.ThreeWay) (z : K × V) (ops : List (Op K V)) (ha : Ascending cmp [] ops)
    (hk : KeepsFirst cmp z.1 [] ops) (hne : specRun cmp [] ops ≠ []) :
    ∃ s, run cmp (new z, []) ops = .ok s ∧ ∃ e, (specRun cmp [] ops).head? = some e ∧ entryAt s.1.heap (leftMost s.1) = .ok e := by
  obtain ⟨s, e, tr, U, h⟩ := Sim.run hc ops (g := True) (s := (new z, [])) (Sim.new z cmp _) ha (fun _ => hk)
  have hids : tr.ids ≠ [] := by rintro hh; apply hne; rw [← h.ents, entries, hh]; rfl
  obtain ⟨i, rest, hi⟩ : ∃ i rest, tr.ids = i :: rest := by
    cases hq : tr.ids with
    | nil => exact absurd hq hids
    | cons i rest => exact ⟨i, rest, rfl⟩
  refine ⟨s, e, s.1.heap.kv i, ?_, ?_⟩
  · rw [← h.ents, entries, hi]; rfl
  · rw [leftMost, h.first trivial hids, hi]; rfl

theorem Sim.puts {z : K × V} {cmp : Compare K} (hc : cmp.ThreeWay) {g : Prop} : ∀ (kvs : List (K × V)) {s : Tree K V × List Nat} {L : List (K × V)} {tr : T}
    {U : List Nat}, SimT z cmp g s.1 L tr U → Ascending cmp L (kvs.map fun e => .put e.1 e.2) → (tr.ids = [] ∨ s.1.heap.right 0 = tr.ids.getLast?) →
    ∃ s', RBTree.run cmp s (kvs.map fun e => .put e.1 e.2) = .ok s' ∧ ∃ tr' U', SimT z cmp g s'.1 (specRun cmp L (kvs.map fun e => .put e.1 e.2)) tr' U' ∧
      (tr'.ids = [] ∨ s'.1.heap.right 0 = tr'.ids.getLast?)
  | [], s, _, tr, U, h, _, hr => ⟨s, rfl, tr, U, h, hr⟩
  | (k, v) :: kvs, s, L, tr, U, h, ha, hr => by
    obtain ⟨t', e, tr', U', h', hr', -⟩ := Sim.putR hc h k v ha.1
    obtain ⟨s', e', r⟩ := Sim.puts hc kvs (s := (t', s.2)) h' ha.2 (.inr (hr' hr))
    refine ⟨s', ?_, r⟩
    rw [List.map_cons, run_cons (s' := (t', s.2))]
    · exact e'
    · rw [RBTree.step, e]; rfl

/-- C87: `RightMost` is the node of the last entry, after every sequence of `Put`s in ascending key order (keys may repeat). -/
theorem rightMost_partial {cmp : Compare K} (hc : cmp.ThreeWay) (z : K × V) (kvs : List (K × V))
    (ha : Ascending cmp [] (kvs.map fun e => .put e.1 e.2)) (hne : kvs ≠ []) :
    ∃ s, run cmp (new z, []) (kvs.map fun e => .put e.1 e.2) = .ok s ∧
      ∃ e, (specRun cmp [] (kvs.map fun e => .put e.1 e.2)).getLast? = some e ∧ entryAt s.1.heap (rightMost s.1) = .ok e := by
  obtain ⟨tr0, U0, h0⟩ := Sim.new z cmp True
  have h00 : tr0.ids = [] := by
    have := h0.ents; rw [entries] at this; exact List.map_eq_nil_iff.1 this
  obtain ⟨s, e, tr, U, h, hr⟩ := Sim.puts hc kvs (s := (new z, [])) h0 ha (.inl h00)
  have hids : tr.ids ≠ [] := by
    intro hh
    have h1 := h.size
    have : (specRun cmp [] (kvs.map fun e => Op.put e.1 e.2)) ≠ [] := by
      rcases List.eq_nil_or_concat kvs with rfl | ⟨l, x, rfl⟩
      · exact absurd rfl hne
      · rw [List.concat_eq_append, List.map_append, specRun, List.foldl_append]
        simp only [List.map_cons, List.map_nil, List.foldl_cons, List.foldl_nil, specStep]
        generalize List.foldl _ _ _ = M
        cases M with
        | nil => simp [specPut]
        | cons a b => simp only [specPut]; split <;> [simp; (split <;> simp)]
    rw [← h.ents, entries, hh] at this; exact this rfl
  have hr := hr.resolve_left hids
  refine ⟨s, e, s.1.heap.kv (tr.ids.getLast hids), ?_, ?_⟩
  · rw [← h.ents, entries, List.getLast?_map, List.getLast?_eq_some_getLast hids]; rfl
  · rw [rightMost, hr, List.getLast?_eq_some_getLast hids]; rfl

theorem run_append (cmp : Compare K) : ∀ (a b : List (Op K V)) {s s1 : Tree K V × List Nat}, run cmp s a = .ok s1 → run cmp s (a ++ b) = run cmp s1 b
  | [], _, s, s1, h => by cases h; rfl
  | op :: a, b, s, s1, h => by
    simp only [run, List.cons_append] at h ⊢
    cases hh : step cmp s op with
    | ok x => rw [hh] at h; simp only [Res.bind_ok] at h ⊢; exact run_append cmp a b h
    | panic p => rw [hh] at h; cases h
    | hang => rw [hh] at h; cases h

theorem ascending_append {cmp : Compare K} : ∀ (a b : List (Op K V)) {L : List (K × V)}, Ascending cmp L a → Ascending cmp (specRun cmp L a) b →
    Ascending cmp L (a ++ b)
  | [], _, _, _, h => h
  | _ :: a, b, _, h1, h2 => ⟨h1.1, ascending_append a b h1.2 h2⟩

/-- C87 is false after deletes: when the deleted key is not the greatest and not below the zero key, `RightMost` is the node of the
key before it (nil if there is none), although a greater key is still stored. -/
theorem rightMost_refuted {cmp : Compare K} (hc : cmp.ThreeWay) (z : K × V) (kvs : List (K × V))
    (ha : Ascending cmp [] (kvs.map fun e => .put e.1 e.2)) {A B : List (K × V)} {e : K × V}
    (hs : specRun cmp [] (kvs.map fun e => .put e.1 e.2) = A ++ e :: B) (hB : B ≠ []) (hz : 0 ≤ cmp e.1 z.1) :
    ∃ s, run cmp (new z, []) ((kvs.map fun e => .put e.1 e.2) ++ [.delete e.1]) = .ok s ∧
      (∀ b ∈ B, get cmp s.1 b.1 = .ok (some b.2)) ∧
      (A = [] → rightMost s.1 = none) ∧ ∀ a, A.getLast? = some a → entryAt s.1.heap (rightMost s.1) = .ok a := by
  obtain ⟨tr0, U0, h0⟩ := Sim.new z cmp True
  have h00 : tr0.ids = [] := by
    have := h0.ents; rw [entries] at this; exact List.map_eq_nil_iff.1 this
  obtain ⟨s, e1, tr, U, h, hr⟩ := Sim.puts hc kvs (s := (new z, [])) h0 ha (.inl h00)
  rw [hs] at h
  have hasc : (A ++ e :: B).Pairwise (fun a b => cmp a.1 b.1 < 0) := by
    rw [← h.ents, entries, List.pairwise_map]; exact h.asc
  rw [List.pairwise_append, List.pairwise_cons] at hasc
  obtain ⟨as, i, bs, hab, rfl, rfl, rfl⟩ : ∃ as i bs, tr.ids = as ++ i :: bs ∧ as.map s.1.heap.kv = A ∧ s.1.heap.kv i = e ∧ bs.map s.1.heap.kv = B := by
    have := h.ents
    rw [entries, List.map_eq_append_iff] at this
    obtain ⟨as, r, h1, h2, h3⟩ := this
    rw [List.map_eq_cons_iff] at h3
    obtain ⟨i, bs, h4, h5, h6⟩ := h3
    exact ⟨as, i, bs, by rw [h1, h4], h2, h5, h6⟩
  obtain ⟨s', e2, hg⟩ := map_partial hc z _ (ascending_append _ [.delete (s.1.heap.kv i).1] ha ⟨trivial, trivial⟩)
  refine ⟨s', e2, ?_, ?_⟩
  · intro b hb
    rw [(hg b.1).1]
    obtain ⟨B1, B2, hB'⟩ := List.append_of_mem hb
    have e3 : specRun cmp [] ((kvs.map fun e => .put e.1 e.2) ++ [.delete (s.1.heap.kv i).1]) =
        (specDel cmp (s.1.heap.kv i).1 (as.map s.1.heap.kv) ++ specDel cmp (s.1.heap.kv i).1 B1) ++ b :: specDel cmp (s.1.heap.kv i).1 B2 := by
      have h0 : (kvs.map fun e => Op.put e.1 e.2).foldl (specStep cmp) [] = _ := hs
      rw [specRun, List.foldl_append, h0, hB']
      simp only [List.foldl_cons, List.foldl_nil, specStep, specDel, List.filter_append, List.filter_cons, hc.self]
      have := hasc.2.1.1 b hb
      have h1 : decide (cmp (s.1.heap.kv i).1 b.1 ≠ 0) = true := by simp; omega
      rw [if_pos h1]; simp
    rw [e3, specGet_found _ (hc.self b.1)]
    intro a ha h0
    have : cmp a.1 b.1 < 0 := by
      rw [List.mem_append] at ha
      rcases ha with ha | ha
      · exact hasc.2.2 a (List.mem_filter.1 ha |>.1) b (by simp [hb])
      · have h2 := hasc.2.1.2
        rw [hB', List.pairwise_append] at h2
        exact h2.2.2 a (List.mem_filter.1 ha |>.1) b (by simp)
    have := hc.zero_symm h0; omega
  · rw [run_append _ _ _ e1] at e2
    rcases Sim.search hc h (s.1.heap.kv i).1 with ⟨as', i', bs', hab', e', he', -, h1, h2⟩ | ⟨-, hno⟩
    swap
    · exact absurd (hc.self _) (hno _ (by simp))
    have hi : i ∈ as' ++ i' :: bs' := by rw [← hab', hab]; simp
    obtain rfl : i' = i := by
      rcases List.mem_append.1 hi with hi | hi
      · have := h1 i hi; rw [hc.self] at this; omega
      · rcases List.mem_cons.1 hi with hi | hi
        · exact hi.symm
        · have := h2 i hi; rw [hc.self] at this; omega
    rcases removeNode_spec h.ok hab cmp with ⟨-, h3, -⟩ | ⟨-, rm, t', tr', e3, R⟩
    · omega
    have hd : delete cmp s.1 (s.1.heap.kv i').1 = .ok (some rm, t') := by rw [delete, e']; exact e3
    have hs' : s' = (t', rm :: s.2) := by
      rw [run_cons (s' := (t', rm :: s.2)) (by rw [step, hd]; rfl), run_nil] at e2
      cases e2; rfl
    have hsz : ¬ t'.size = 0 := by
      rw [R.size, h.size]
      have : bs ≠ [] := by simpa using hB
      have := List.length_pos_iff.2 this
      simp; omega
    have hr : t'.heap.right 0 = as.getLast? := by rw [R.right, if_neg hsz, if_pos (by omega)]
    subst hs'
    refine ⟨?_, ?_⟩
    · intro hA
      rw [rightMost, hr, List.map_eq_nil_iff.1 hA]; rfl
    · intro a ha
      rw [List.getLast?_map] at ha
      cases hq : as.getLast? with
      | none => rw [hq] at ha; cases ha
      | some x =>
        rw [hq] at ha; cases ha
        have hx : x ≠ i' := by
          rintro rfl
          have := h.ok.holds.nodup
          rw [hab, List.nodup_append] at this
          exact this.2.2 x (List.mem_of_getLast? hq) x (by simp) rfl
        rw [rightMost, hr, hq]
        show Res.ok (t'.heap.kv x) = _
        rw [R.kv, if_neg hx]

example : ∃ s, run Fn.comp (new ((0 : Int), (0 : Nat)), []) ([(1, 10), (2, 20), (5, 50), (2, 21)].map fun e => .put e.1 e.2) = .ok s ∧
    entryAt s.1.heap (rightMost s.1) = .ok (5, 50) := by
  obtain ⟨s, e, x, h1, h2⟩ := rightMost_partial (cmp := Fn.comp) Fn.comp_strict.toThreeWay ((0 : Int), (0 : Nat)) [(1, 10), (2, 20), (5, 50), (2, 21)]
    ⟨.inr (by simp), .inr (by decide), .inr (by decide), .inl (by decide), trivial⟩ (by simp)
  have h3 : (specRun Fn.comp [] ([((1 : Int), 10), (2, 20), (5, 50), (2, 21)].map fun e => .put e.1 e.2)).getLast? = some (5, 50) := by decide
  rw [h3] at h1; cases h1
  exact ⟨s, e, h2⟩

/-- `Put` 1, 2, 3, then `Delete` 2: `RightMost` is the node of 1. -/
example : ∃ s, run Fn.comp (new ((0 : Int), (0 : Nat)), []) ([(1, 10), (2, 20), (3, 30)].map (fun e => .put e.1 e.2) ++ [.delete 2]) = .ok s ∧
    get Fn.comp s.1 3 = .ok (some 30) ∧ entryAt s.1.heap (rightMost s.1) = .ok (1, 10) := by
  obtain ⟨s, e, h1, -, h2⟩ := rightMost_refuted (cmp := Fn.comp) Fn.comp_strict.toThreeWay ((0 : Int), (0 : Nat)) [(1, 10), (2, 20), (3, 30)]
    ⟨.inr (by simp), .inr (by decide), .inr (by decide), trivial⟩ (A := [(1, 10)]) (e := (2, 20)) (B := [(3, 30)]) (by decide) (by simp) (by decide)
  exact ⟨s, e, h1 (3, 30) (by simp), h2 _ rfl⟩

example : ∃ s, run Fn.comp (new (0, 0), []) ascOps = .ok s ∧ entryAt s.1.heap (leftMost s.1) = .ok (1, 10) := by
  obtain ⟨s, e, x, h1, h2⟩ := leftMost_partial Fn.comp_strict.toThreeWay (0, 0) ascOps ascOps_asc ascOps_keeps (by rw [ascOps_spec]; decide)
  rw [ascOps_spec] at h1; cases h1
  exact ⟨s, e, h2⟩

/-! ### `nodeBuffer.Size`: the number of nodes `Alloc` hands out before it asks for new memory -/

/-- One `Alloc` on a buffer that is not empty takes one node and no new memory; on an empty buffer it takes a new block. -/
theorem Buf.alloc_size {b : Buf} {m : Heap K V} {U FL : List Nat} (h : BufOK b m U FL) :
    ∃ n b' m', b.alloc m = .ok (some n, b', m') ∧
      (b.isEmpty = false → b'.size = b.size - 1 ∧ b'.fresh = b.fresh) ∧
      (b.isEmpty = true → b'.size = b.bufferedLength - 1 ∧ (b'.fresh : Int) = b.fresh + b.bufferedLength) := by
  have hc := h.cursor
  have hsz := h.size
  have hlen := h.len
  rw [Buf.alloc]
  by_cases h1 : b.sliceCursor = -1
  · by_cases h2 : b.linkedListSize = 0
    · have h3 : ¬ ((b.bufferedLength.toNat : Int) - 1 = -1) := by omega
      simp only [h1, h2, ne_eq, not_true, if_false, if_true, Buf.fill]
      rw [Buf.alloc]
      simp only [Buf.fillNew, ne_eq, h3, not_false_eq_true, if_true, Res.pure_eq]
      refine ⟨_, _, _, rfl, ?_, ?_⟩
      · simp [Buf.isEmpty, Buf.size, h1, h2]
      · intro _; simp only [Buf.size, h2]; omega
    · cases FL with
      | nil => simp only [List.length_nil] at hsz; omega
      | cons x FL =>
        have hx := h.chain
        have hr : m.right 1 = some x := hx.1
        simp only [h1, h2, ne_eq, not_true, if_false, hr, Heap.rightOf, Heap.setRight, Res.bind_ok]
        refine ⟨_, _, _, rfl, ?_, ?_⟩
        · intro _; simp only [Buf.size, and_true]; omega
        · intro he; have he : b.linkedListSize + b.sliceCursor + 1 = 0 := of_decide_eq_true he; exfalso; rw [hsz] at *; simp only [List.length_cons] at *; omega
  · rw [if_pos h1]
    refine ⟨_, _, _, rfl, ?_, ?_⟩
    · intro _; simp only [Buf.size, and_true]; omega
    · intro he; have he : b.linkedListSize + b.sliceCursor + 1 = 0 := of_decide_eq_true he; exfalso; rw [hsz] at *; simp only [List.length_cons] at *; omega

/-- `Free` adds the node, unless `bufferedLength` freed nodes are kept already. -/
theorem Buf.free_size {b : Buf} {m : Heap K V} {n : Nat} :
    ∃ b' m', b.free m (some n) = .ok (b', m') ∧ b'.size = if b.linkedListSize = b.bufferedLength then b.size else b.size + 1 := by
  by_cases h1 : b.linkedListSize = b.bufferedLength
  · exact ⟨b, m, by rw [Buf.free, if_pos h1]; rfl, by rw [if_pos h1]⟩
  · refine ⟨_, _, by rw [Buf.free, if_neg h1]; rfl, ?_⟩
    rw [if_neg h1]; simp only [Buf.size]; omega

/-- `Clear` empties the buffer; `FillN n` on a cleared buffer provides `n` nodes. -/
theorem Buf.clear_fillN (b : Buf) (m : Heap K V) (n : Nat) :
    (b.clear m).1.isEmpty = true ∧ ((b.clear m).1.fillN n).size = n ∧ ((b.clear m).1.fillN n).fresh = b.fresh + n := by
  simp [Buf.clear, Buf.isEmpty, Buf.size, Buf.fillN, Buf.fillNew]

/-- `FillN` never throws free nodes away: it makes new ones only when the slice is used up, and the nodes freed to the list stay. -/
theorem Buf.fillN_keeps {b : Buf} (n : Nat) (h : -1 ≤ b.sliceCursor) :
    b.size ≤ (b.fillN n).size ∧ (b.sliceCursor ≠ -1 → b.fillN n = b) ∧ (b.fillN n).linkedListSize = b.linkedListSize := by
  unfold Buf.fillN Buf.size Buf.fillNew
  split
  · exact ⟨by simp; omega, fun h' => absurd ‹_› h', rfl⟩
  · exact ⟨Int.le_refl _, fun _ => rfl, rfl⟩

example : (-1 : Int) ≤ ({ base := 5, sliceCursor := 2, linkedListSize := 1, bufferedLength := 4, fresh := 9 } : Buf).sliceCursor := by decide

end Gds.RBTree
