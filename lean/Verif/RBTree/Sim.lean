import Verif.RBTree.Refine

/-! Ascending histories implement the sorted map. -/

namespace Gds.RBTree

variable {K V : Type}

/-- Deleting `k` does not remove the first entry, or the first key is below the zero key, or it is the only one. -/
def okDel (cmp : Compare K) (zk : K) (L : List (K × V)) (k : K) : Prop :=
  ∀ e rest, L = e :: rest → cmp k e.1 = 0 → rest = [] ∨ cmp e.1 zk < 0

/-- The same for several keys. -/
def okDels (cmp : Compare K) (zk : K) : List (K × V) → List K → Prop
  | _, [] => True
  | L, k :: ks => okDel cmp zk L k ∧ okDels cmp zk (specDel cmp k L) ks

/-- No call of the history deletes the least key while others remain, unless it is below the zero key. -/
def KeepsFirst (cmp : Compare K) (zk : K) : List (K × V) → List (Op K V) → Prop
  | _, [] => True
  | L, op :: ops => (match op with
      | .delete k => okDel cmp zk L k
      | .deleteKeys ks => okDels cmp zk L ks
      | .deleteMapping k v vc => (∀ w, specGet cmp k L = some w → vc v w = 0 → okDel cmp zk L k)
      | _ => True) ∧ KeepsFirst cmp zk (specStep cmp L op) ops

section spec
variable {cmp : Compare K} {k : K} {v : V}

theorem specPut_found {A B : List (K × V)} {e : K × V} (hA : ∀ a ∈ A, 0 < cmp k a.1) (he : cmp k e.1 = 0) :
    specPut cmp k v (A ++ e :: B) = A ++ (e.1, v) :: B := by
  induction A with
  | nil => simp [specPut, he]
  | cons a A ih =>
    have h1 := hA a (by simp)
    rw [List.cons_append, specPut, if_neg (by omega), if_neg (by omega), ih (fun b hb => hA b (by simp [hb]))]; rfl

theorem specPut_max {L : List (K × V)} (hA : ∀ a ∈ L, 0 < cmp k a.1) : specPut cmp k v L = L ++ [(k, v)] := by
  induction L with
  | nil => rfl
  | cons a A ih =>
    have h1 := hA a (by simp)
    rw [specPut, if_neg (by omega), if_neg (by omega), ih (fun b hb => hA b (by simp [hb]))]; rfl

theorem specDel_none {L : List (K × V)} (h : ∀ a ∈ L, cmp k a.1 ≠ 0) : specDel cmp k L = L := by
  rw [specDel, List.filter_eq_self]; intro a ha; simpa using h a ha

theorem specDel_found {A B : List (K × V)} {e : K × V} (hA : ∀ a ∈ A, cmp k a.1 ≠ 0) (hB : ∀ a ∈ B, cmp k a.1 ≠ 0) (he : cmp k e.1 = 0) :
    specDel cmp k (A ++ e :: B) = A ++ B := by
  rw [specDel, List.filter_append, List.filter_cons_of_neg (by simpa using he)]
  exact congrArg₂ _ (specDel_none hA) (specDel_none hB)

theorem specGet_none {L : List (K × V)} (h : ∀ a ∈ L, cmp k a.1 ≠ 0) : specGet cmp k L = none := by
  rw [specGet, List.find?_eq_none.2 (by simpa using h)]; rfl

theorem specGet_found {A B : List (K × V)} {e : K × V} (hA : ∀ a ∈ A, cmp k a.1 ≠ 0) (he : cmp k e.1 = 0) :
    specGet cmp k (A ++ e :: B) = some e.2 := by
  have : A.find? (fun e => decide (cmp k e.1 = 0)) = none := List.find?_eq_none.2 (by simpa using hA)
  rw [specGet, List.find?_append, this]
  simp [he]

end spec

/-- The tree `t` stores the map `L`; if `g`, the header's left pointer is the first node. -/
structure SimT (z : K × V) (cmp : Compare K) (g : Prop) (t : Tree K V) (L : List (K × V)) (tr : T) (U : List Nat) : Prop where
  ok : OK z t tr U
  ents : entries t tr = L
  asc : Asc cmp t.heap tr.ids
  size : t.size = L.length
  nonnil : tr.ids ≠ [] → t.heap.left 0 ≠ none
  low : ∀ i rest, tr.ids = i :: rest → cmp (t.heap.kv i).1 z.1 < 0 → t.heap.left 0 = some i
  first : g → tr.ids ≠ [] → t.heap.left 0 = tr.ids.head?

def Sim (z : K × V) (cmp : Compare K) (g : Prop) (t : Tree K V) (L : List (K × V)) : Prop := ∃ tr U, SimT z cmp g t L tr U

theorem sim_empty {z : K × V} {cmp : Compare K} {g : Prop} {t : Tree K V} {U : List Nat} (h : OK z t .nil U) (hs : t.size = 0) : SimT z cmp g t [] .nil U :=
  ⟨h, rfl, by simp [Asc, T.ids], hs, by simp [T.ids], by simp [T.ids], by simp [T.ids]⟩

/-- Keys around a node whose key equals `k`. -/
theorem asc_around {cmp : Compare K} (hc : cmp.ThreeWay) {m : Heap K V} {as bs : List Nat} {i : Nat} {k : K} (h : Asc cmp m (as ++ i :: bs))
    (he : cmp k (m.kv i).1 = 0) : (∀ a ∈ as, 0 < cmp k (m.kv a).1) ∧ (∀ b ∈ bs, cmp k (m.kv b).1 < 0) := by
  simp only [Asc, List.pairwise_append, List.pairwise_cons, List.mem_cons] at h
  refine ⟨fun a ha => ?_, fun b hb => ?_⟩
  · have h1 := h.2.2 a ha i (.inl rfl)
    have := hc.lt_of_lt_of_le h1 (by have := hc.zero_symm he; omega : cmp (m.kv i).1 k ≤ 0)
    have := hc.flip (m.kv a).1 k; omega
  · exact hc.lt_of_le_of_lt (by omega) (h.2.1.1 b hb)

theorem Sim.search {z : K × V} {cmp : Compare K} (hc : cmp.ThreeWay) {g : Prop} {t : Tree K V} {L : List (K × V)} {tr : T} {U : List Nat} (h : SimT z cmp g t L tr U) (k : K) :
    (∃ as i bs, tr.ids = as ++ i :: bs ∧ search cmp t.heap k = .ok (some i) ∧ cmp k (t.heap.kv i).1 = 0 ∧
      L = as.map t.heap.kv ++ t.heap.kv i :: bs.map t.heap.kv ∧ (∀ a ∈ as, 0 < cmp k (t.heap.kv a).1) ∧ (∀ b ∈ bs, cmp k (t.heap.kv b).1 < 0)) ∨
    (search cmp t.heap k = .ok none ∧ ∀ e ∈ L, cmp k e.1 ≠ 0) := by
  rw [RBTree.search, h.ok.holds.root]
  rcases searchFrom_spec hc k tr none h.ok.holds.rep h.asc with ⟨i, hi, e, he⟩ | ⟨e, hno⟩
  · left
    obtain ⟨as, bs, hab⟩ := List.append_of_mem hi
    have ha := h.asc; rw [hab] at ha
    refine ⟨as, i, bs, hab, e, he, ?_, asc_around hc ha he⟩
    rw [← h.ents, entries, hab]; simp
  · right
    refine ⟨e, ?_⟩
    rw [← h.ents, entries]
    intro e he
    obtain ⟨i, hi, rfl⟩ := List.mem_map.1 he
    exact hno i hi

theorem Sim.get {z : K × V} {cmp : Compare K} (hc : cmp.ThreeWay) {g : Prop} {t : Tree K V} {L : List (K × V)} (h : Sim z cmp g t L) (k : K) :
    RBTree.get cmp t k = .ok (specGet cmp k L) ∧ has cmp t k = .ok (specGet cmp k L).isSome := by
  obtain ⟨tr, U, h⟩ := h
  rw [RBTree.get, has]
  rcases Sim.search hc h k with ⟨as, i, bs, hab, e, he, hL, h1, h2⟩ | ⟨e, hno⟩
  · rw [e, hL, specGet_found (by intro a ha; obtain ⟨j, hj, rfl⟩ := List.mem_map.1 ha; have := h1 j hj; omega) he]; exact ⟨rfl, rfl⟩
  · rw [e, specGet_none hno]; exact ⟨rfl, rfl⟩

/-- Removing the node of a key. -/
theorem Sim.remove {z : K × V} {cmp : Compare K} (hc : cmp.ThreeWay) {g : Prop} {t : Tree K V} {L : List (K × V)} {tr : T} {U : List Nat} (h : SimT z cmp g t L tr U)
    {k : K} {as bs : List Nat} {i : Nat} (hab : tr.ids = as ++ i :: bs) (he : cmp k (t.heap.kv i).1 = 0)
    (hL : L = as.map t.heap.kv ++ t.heap.kv i :: bs.map t.heap.kv) (hg : g → okDel cmp z.1 L k) :
    ∃ rm t' tr', removeNode cmp t i = .ok (some rm, t') ∧ SimT z cmp g t' (specDel cmp k L) tr' U ∧ rm ∈ tr.ids ∧ rm ∉ tr'.ids := by
  have hn := h.ok.holds.nodup
  have ha := h.asc; rw [hab] at ha hn
  obtain ⟨h1, h2⟩ := asc_around hc ha he
  have hdel : specDel cmp k L = as.map t.heap.kv ++ bs.map t.heap.kv := by
    rw [hL]
    refine specDel_found ?_ ?_ he
    · intro a ha; obtain ⟨j, hj, rfl⟩ := List.mem_map.1 ha; have := h1 j hj; omega
    · intro a ha; obtain ⟨j, hj, rfl⟩ := List.mem_map.1 ha; have := h2 j hj; omega
  rcases removeNode_spec h.ok hab cmp with ⟨e, -, -⟩ | ⟨-, rm, t', tr', e, R⟩
  · exact absurd e (h.nonnil (by rw [hab]; simp))
  refine ⟨rm, t', tr', e, ?_, R.mem, (rm_out h.ok.holds.nodup hab R.ids).1⟩
  have hents : entries t' tr' = specDel cmp k L := by
    rw [hdel, entries]
    simp only [List.nodup_append, List.nodup_cons, List.mem_cons] at hn
    rcases R.ids with ⟨rfl, hi⟩ | ⟨_, bs', rfl, hi⟩
    · rw [hi, List.map_append]
      congr 1 <;> refine List.map_congr_left (fun j hj => ?_) <;> rw [R.kv] <;> grind
    · rw [hi, List.map_append, List.map_cons, List.map_cons]
      congr 1
      · refine List.map_congr_left (fun j hj => ?_); rw [R.kv]; grind
      · congr 1
        · rw [R.kv]; simp
        · refine List.map_congr_left (fun j hj => ?_); rw [R.kv]; grind
  have hsz : t'.size = (specDel cmp k L).length := by
    rw [R.size, h.size, hdel, hL]; simp; omega
  have hlen : (specDel cmp k L).length = tr'.ids.length := by rw [← hents, entries, List.length_map]
  have hnz : tr'.ids ≠ [] → t'.heap.left 0 = leftAfter cmp t.heap i bs := by
    intro hne
    rw [R.left, if_neg]
    rw [hsz, hlen]; cases hh : tr'.ids with
    | nil => exact absurd hh hne
    | cons => simp; omega
  -- the first node
  have hhead : as ≠ [] → tr'.ids.head? = as.head? ∧ tr.ids.head? = as.head? := by
    intro hne
    obtain ⟨a, as', rfl⟩ := List.exists_cons_of_ne_nil hne
    rcases R.ids with ⟨_, hi⟩ | ⟨_, bs', _, hi⟩ <;> rw [hi, hab] <;> simp
  have hhead' : as = [] → tr'.ids = bs := by
    rintro rfl
    rcases R.ids with ⟨_, hi⟩ | ⟨hh, _⟩
    · simpa using hi
    · exact absurd rfl hh
  -- what happens to the left pointer
  have hleft : leftAfter cmp t.heap i bs = if as = [] ∧ cmp (t.heap.kv i).1 z.1 < 0 then bs.head? else t.heap.left 0 := by
    rw [leftAfter, h.ok.zero]
    by_cases hz : cmp (t.heap.kv i).1 z.1 > -1
    · rw [if_pos hz, if_neg (by rintro ⟨_, hh⟩; omega)]
    · rw [if_neg hz]
      have hz' : cmp (t.heap.kv i).1 z.1 < 0 := by omega
      cases as with
      | nil =>
        rw [h.low i bs (by simpa using hab) hz']
        simp only [hz', and_self, if_true]
        rw [hc.self]; simp
      | cons a as =>
        simp only [reduceCtorEq, false_and, if_false]
        have hai : cmp (t.heap.kv a).1 (t.heap.kv i).1 < 0 := by
          simp only [Asc, List.cons_append, List.pairwise_cons] at ha; exact ha.1 i (by simp)
        have := hc.lt_trans hai hz'
        rw [h.low a (as ++ i :: bs) (by simpa using hab) this]
        simp only
        rw [if_neg (by have := hc.range (t.heap.kv a).1 (t.heap.kv i).1; omega)]
  have hkvs : ∀ j ∈ as, t'.heap.kv j = t.heap.kv j := by
    intro j hj
    rw [R.kv, if_neg]
    rintro rfl
    simp only [List.nodup_append, List.nodup_cons, List.mem_cons] at hn
    exact hn.2.2 j hj j (.inl rfl) rfl
  have hfirstkv : ∀ f rest, tr'.ids = f :: rest → (as ≠ [] → as.head? = some f ∧ t'.heap.kv f = t.heap.kv f) ∧
      (as = [] → t'.heap.kv f = t.heap.kv f ∧ bs.head? = some f) := by
    intro f rest hf
    refine ⟨fun hne => ?_, fun hnil => ?_⟩
    · have := (hhead hne).1
      rw [hf] at this
      have h3 : as.head? = some f := this.symm
      exact ⟨h3, hkvs f (List.mem_of_mem_head? (by rw [h3]; rfl))⟩
    · have h3 := hhead' hnil
      rw [hf] at h3
      refine ⟨?_, by rw [← h3]; rfl⟩
      subst hnil
      rw [R.kv, if_neg]
      rintro rfl
      simp only [List.nil_append, List.nodup_cons] at hn
      rw [← h3] at hn; simp at hn
  refine ⟨R.ok, hents, ?_, hsz, ?_, ?_, ?_⟩
  · have hp : (entries t' tr').Pairwise (fun a b => cmp a.1 b.1 < 0) := by
      rw [hents, specDel]
      refine List.Pairwise.filter _ ?_
      rw [← h.ents, entries, List.pairwise_map]; exact h.asc
    rw [entries, List.pairwise_map] at hp; exact hp
  · intro hne
    rw [hnz hne, hleft]
    split
    next hh =>
      rw [← hhead' hh.1]
      cases hq : tr'.ids with
      | nil => exact absurd hq hne
      | cons => simp
    next => exact h.nonnil (by rw [hab]; simp)
  · intro f rest hf hlow
    rw [hnz (by rw [hf]; simp), hleft]
    obtain ⟨q1, q2⟩ := hfirstkv f rest hf
    by_cases hnil : as = []
    · obtain ⟨q3, q4⟩ := q2 hnil
      rw [q3] at hlow
      subst hnil
      have hif : cmp (t.heap.kv i).1 (t.heap.kv f).1 < 0 := by
        simp only [Asc, List.nil_append, List.pairwise_cons] at ha
        exact ha.1 f (List.mem_of_mem_head? (by rw [q4]; rfl))
      rw [if_pos ⟨rfl, hc.lt_trans hif hlow⟩, q4]
    · obtain ⟨q3, q4⟩ := q1 hnil
      rw [if_neg (fun hh => hnil hh.1)]
      obtain ⟨a, as', rfl⟩ := List.exists_cons_of_ne_nil hnil
      simp only [List.head?_cons, Option.some.injEq] at q3; subst q3
      exact h.low a (as' ++ i :: bs) (by simpa using hab) (by rw [← q4]; exact hlow)
  · intro hgg hne
    rw [hnz hne, hleft]
    by_cases hnil : as = []
    · rw [hhead' hnil]
      subst hnil
      by_cases hz : cmp (t.heap.kv i).1 z.1 < 0
      · rw [if_pos ⟨rfl, hz⟩]
      · exfalso
        rcases hg hgg (t.heap.kv i) (bs.map t.heap.kv) (by simpa using hL) he with hb | hb
        · exact hne (by rw [hhead' rfl]; simpa using hb)
        · exact hz hb
    · rw [if_neg (fun hh => hnil hh.1), h.first hgg (by rw [hab]; simp), (hhead hnil).1, (hhead hnil).2]

end Gds.RBTree
