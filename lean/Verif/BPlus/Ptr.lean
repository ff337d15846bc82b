import Verif.BPlus.HistExact

/-! C118: the pointer `GetEntry` returns.  It points into the array of a leaf (`&node.values[idx]`), so the user can write to the entry. -/

namespace Gds.BPlus
open BT Tree
variable {K V : Type} [Inhabited K] [Inhabited V]

/-! ### The model -/

/-- bplustree.go:62-68 `GetEntry`, with the pointer itself: the node and the slot. -/
def entryPtr (cmp : Compare K) (t : Tree K V) (key : K) : Res (Option (Nat × Nat)) := do
  let (node, idx, exist) ← search cmp t key
  if exist then
    let _ ← t.getVal node idx
    match node with
    | some q => .ok (some (q, idx))
    | none => .panic .nilDeref
  else .ok none

/-- `*p`, for a pointer that `GetEntry` returned (bplustree.go:62-68; the slots of a node are one array, bplustree_node.go:9-17). -/
def loadPtr (t : Tree K V) (p : Nat × Nat) : K × V := t.h.values p.1 p.2

/-- `*p = e`, for a pointer that `GetEntry` returned (bplustree.go:62-68; `truple.KV` has the exported fields `Key` and `Val`). -/
def storePtr (t : Tree K V) (p : Nat × Nat) (e : K × V) : Tree K V :=
  { t with h := { t.h with values := fun q j => if q = p.1 ∧ j = p.2 then e else t.h.values q j } }

/-- `if p := m.GetEntry(key); p != nil { *p = f(*p) }`: the user's statement; answers whether there was an entry. -/
def modify (cmp : Compare K) (t : Tree K V) (key : K) (f : K × V → K × V) : Res (Tree K V × Bool) := do
  let p ← entryPtr cmp t key
  match p with
  | none => .ok (t, false)
  | some p => .ok (storePtr t p (f (loadPtr t p)), true)

/-- A call of the map, or a modification through `GetEntry`. -/
inductive Act (K V : Type) where
  | call (op : Op K V)
  | modify (k : K) (f : K × V → K × V)

/-- One of them (bplustree.go:62-68 and the functions of `step`). -/
def act (cmp : Compare K) (t : Tree K V) : Act K V → Res (Tree K V × Out)
  | .call op => step cmp t op
  | .modify k f => do
    let (t, b) ← modify cmp t k f
    .ok (t, .bool b)

/-- A history of them: the tree and all answers. -/
def acts (cmp : Compare K) (t : Tree K V) : List (Act K V) → Res (Tree K V × List Out)
  | [] => .ok (t, [])
  | a :: as => do
    let (t, o) ← act cmp t a
    let (t, os) ← acts cmp t as
    .ok (t, o :: os)

/-- The same on a new map (bplustree.go:24-37 `NewMap`). -/
def actsNew (cmp : Compare K) (M : Nat) (as : List (Act K V)) : Res (Tree K V × List Out) := do
  let t ← newMap M
  acts cmp t as

/-! ### The specification -/

/-- The tree with the entry that `find` finds replaced. -/
def FT.modify (cmp : Compare K) (key : K) (f : K × V → K × V) : {d : Nat} → FT (K × V) d → FT (K × V) d
  | 0, l => let l : FLeaf (K × V) := l
    match (FT.bisect cmp key l.slot 0 l.num).2 with
    | none => (l : FLeaf (K × V))
    | some i => (⟨fun j => if j = i then f (l.slot i) else l.slot j, l.num⟩ : FLeaf (K × V))
  | d + 1, n =>
    let vs : List (K × V) := n.1
    let ks : List (FT (K × V) d) := n.2
    let i := (FT.bisect cmp key (fun j => vs.getD j default) 0 vs.length).1
    ((vs, ks.set i (FT.modify cmp key f (ks.getD i (FT.empty d)))) : List (K × V) × List (FT (K × V) d))

/-- The map with the entry that `find` finds replaced. -/
def FMap.modify (cmp : Compare K) (key : K) (f : K × V → K × V) (m : FMap K V) : FMap K V :=
  m.map (fun x => ⟨x.1, x.2.modify cmp key f⟩)

/-- A call or a modification; `none` for a panic. -/
def FMap.act (cmp : Compare K) (M : Nat) (m : FMap K V) : Act K V → Option (FMap K V × Out)
  | .call op => FMap.step cmp M m op
  | .modify k f => some (FMap.modify cmp k f m, .bool (FMap.find cmp k m).isSome)

/-- A history of them. -/
def FMap.acts (cmp : Compare K) (M : Nat) : FMap K V → List (Act K V) → Option (FMap K V × List Out)
  | m, [] => some (m, [])
  | m, a :: as => (FMap.act cmp M m a).bind (fun r => (FMap.acts cmp M r.1 as).map (fun q => (q.1, r.2 :: q.2)))

/-! ### One slot changes -/

/-- The abstract tree with slot `i` of leaf `p` replaced. -/
def poke (p i : Nat) (e : K × V) : {d : Nat} → BT K V d → BT K V d
  | 0, b => leaf b.ptr (if b.ptr = p then b.vals.set i e else b.vals)
  | _ + 1, b => inner b.ptr b.vals ((InnerT.kids b).map (poke p i e))

section
omit [Inhabited K] [Inhabited V]
variable {p i : Nat} {e : K × V}

theorem poke_inner {d : Nat} (q : Nat) (vs : List (K × V)) (ks : List (BT K V d)) : poke p i e (inner q vs ks) = inner q vs (ks.map (poke p i e)) := rfl

theorem poke_ptr : ∀ {d : Nat} (b : BT K V d), (poke p i e b).ptr = b.ptr
  | 0, _ => rfl
  | _ + 1, _ => rfl

theorem poke_ids : ∀ {d : Nat} (b : BT K V d), (poke p i e b).ids = b.ids
  | 0, _ => rfl
  | d + 1, b => by
    obtain ⟨q, vs, ks, rfl⟩ := exists_inner b
    rw [poke_inner, inner_ids, inner_ids, List.flatMap_map]
    congr 1
    exact List.flatMap_congr (fun k _ => poke_ids k)

theorem poke_leaves : ∀ {d : Nat} (b : BT K V d), (poke p i e b).leaves = b.leaves
  | 0, _ => rfl
  | d + 1, b => by
    obtain ⟨q, vs, ks, rfl⟩ := exists_inner b
    show (ks.map (poke p i e)).flatMap leaves = ks.flatMap leaves
    rw [List.flatMap_map]
    exact List.flatMap_congr (fun k _ => poke_leaves k)

theorem poke_len : ∀ {d : Nat} (b : BT K V d), (poke p i e b).vals.length = b.vals.length
  | 0, b => by
    show (if b.ptr = p then b.vals.set i e else b.vals).length = _
    split <;> simp
  | _ + 1, _ => rfl

theorem poke_entries_len : ∀ {d : Nat} (b : BT K V d), (poke p i e b).entries.length = b.entries.length
  | 0, b => poke_len b
  | d + 1, b => by
    obtain ⟨q, vs, ks, rfl⟩ := exists_inner b
    show ((ks.map (poke p i e)).flatMap entries).length = (ks.flatMap entries).length
    rw [List.flatMap_map, List.length_flatMap, List.length_flatMap]
    congr 1
    exact List.map_congr_left (fun k _ => poke_entries_len k)

theorem poke_occ {M : Nat} : ∀ {d : Nat} (b : BT K V d), b.KidsOcc M → (poke p i e b).KidsOcc M
  | 0, _, _ => trivial
  | d + 1, b, h => by
    obtain ⟨q, vs, ks, rfl⟩ := exists_inner b
    rw [poke_inner, inner_kidsOcc]
    intro k hk
    obtain ⟨k0, hk0, rfl⟩ := List.mem_map.1 hk
    have := (inner_kidsOcc _ _ _ _).1 h k0 hk0
    exact ⟨by rw [poke_len]; exact this.1, poke_occ k0 this.2⟩

theorem poke_rep {t : Tree K V} (hp : t.h.isLeaf p = true) : ∀ {d : Nat} (b : BT K V d), Rep t.h b → Rep (storePtr t (p, i) e).h (poke p i e b)
  | 0, b, hr => by
    obtain ⟨q, vs, rfl⟩ := exists_leaf b
    obtain ⟨r1, r2, r3, r4⟩ := (rep_leaf _ _ _).1 hr
    show Rep _ (leaf q (if q = p then vs.set i e else vs))
    refine (rep_leaf _ _ _).2 ⟨r1, ?_, ?_, r4⟩
    · show t.h.num q = _
      rw [r2]; split <;> simp
    · intro j hj
      show (if q = p ∧ j = i then e else t.h.values q j) = _
      by_cases hq : q = p
      · simp only [hq, true_and, if_true] at hj ⊢
        rw [List.length_set] at hj
        rw [List.getElem_set]
        by_cases hji : j = i
        · rw [if_pos hji, if_pos hji.symm]
        · rw [if_neg hji, if_neg (fun h => hji h.symm)]
          have h9 := r3 j hj
          subst hq; exact h9
      · simp only [hq, false_and, if_false] at hj ⊢
        exact r3 j hj
  | d + 1, b, hr => by
    obtain ⟨q, vs, ks, rfl⟩ := exists_inner b
    obtain ⟨r1, r2, r3, r4, r5, r6⟩ := (rep_inner _ _ _ _).1 hr
    have hq : q ≠ p := by rintro rfl; rw [r1] at hp; cases hp
    rw [poke_inner]
    refine (rep_inner _ _ _ _).2 ⟨r1, r2, ?_, by simpa using r4, ?_, ?_⟩
    · intro j hj
      show (if q = p ∧ j = i then e else t.h.values q j) = _
      rw [if_neg (fun h => hq h.1)]; exact r3 j hj
    · have : (ks.map (poke p i e)).map (fun k => some k.ptr) = ks.map (fun k => some k.ptr) := by
        rw [List.map_map]; exact List.map_congr_left (fun k _ => by simp [poke_ptr])
      rw [this]; exact r5
    · intro k hk
      obtain ⟨k0, hk0, rfl⟩ := List.mem_map.1 hk
      exact poke_rep hp k0 (r6 k0 hk0)

theorem store_good {t : Tree K V} (hp : t.h.isLeaf p = true) {d : Nat} {b : BT K V d} (g : Good t b) : Good (storePtr t (p, i) e) (poke p i e b) := by
  refine ⟨by rw [poke_ptr]; exact g.root, ⟨poke_rep hp b g.pre.rep, by rw [poke_ids]; exact g.pre.nodup, by rw [poke_ids]; exact g.pre.lt, g.pre.deg,
    poke_occ b g.pre.occ, ?_, by rw [poke_leaves]; exact g.pre.rnodup, by rw [poke_leaves]; exact g.pre.rlt⟩, by rw [poke_len]; exact g.hi,
    by rw [poke_len]; exact g.lo, by rw [poke_entries_len]; exact g.size⟩
  rw [poke_leaves]; exact g.pre.ring

theorem store_same {t : Tree K V} {q : Nat} (h : q ≠ p) : SameAt t.h (storePtr t (p, i) e).h q := by
  refine ⟨rfl, rfl, ?_, rfl⟩
  funext j
  show (if q = p ∧ j = i then e else t.h.values q j) = _
  rw [if_neg (fun hh => h hh.1)]

end

/-- Where the search ends, and what writing there does to the pure tree. -/
theorem searchLoop_store (cmp : Compare K) (t : Tree K V) (key : K) (hdeg : 2 ≤ t.degree) : ∀ (d : Nat) (b : BT K V d), Rep t.h b → b.ids.Nodup →
    b.KidsOcc t.degree → b.vals.length ≤ 2 * t.degree - 1 →
    ∃ q i, searchLoop cmp t (some b.ptr) key = .ok (some q, i, ((view t.h d b.ptr).find cmp key).isSome) ∧
      ((view t.h d b.ptr).find cmp key = none → ∀ f, (view t.h d b.ptr).modify cmp key f = view t.h d b.ptr) ∧
      ∀ e, (view t.h d b.ptr).find cmp key = some e → i < 2 * t.degree - 1 ∧ t.h.values q i = e ∧ q ∈ b.ids ∧ t.h.isLeaf q = true ∧
        ∀ f, view (storePtr t (q, i) (f e)).h d b.ptr = (view t.h d b.ptr).modify cmp key f := by
  intro d
  induction d with
  | zero =>
    intro b hr _ _ hlen
    obtain ⟨p, vs, rfl⟩ := exists_leaf b
    obtain ⟨r1, r2, r3, r4⟩ := (rep_leaf _ _ _).1 hr
    simp only [leaf_ptr, leaf_vals] at hlen ⊢
    obtain ⟨mid', h1, h2⟩ := bsearch_bisect cmp t p key (t.h.values p) vs.length hlen (fun _ _ => rfl) _ 0 vs.length 0 (Nat.le_refl _) (Nat.le_refl _)
    have hf : (view t.h 0 p).find cmp key = (FT.bisect cmp key (t.h.values p) 0 vs.length).2.map (t.h.values p) := by
      show (FT.bisect cmp key (t.h.values p) 0 (t.h.num p)).2.map (t.h.values p) = _
      rw [r2]
    have hm : ∀ f, (view t.h 0 p).modify cmp key f = match (FT.bisect cmp key (t.h.values p) 0 vs.length).2 with
        | none => view t.h 0 p
        | some i => (⟨fun j => if j = i then f (t.h.values p i) else t.h.values p j, t.h.num p⟩ : FLeaf (K × V)) := by
      intro f
      rw [← r2]; rfl
    rw [hf, searchLoop]
    simp only [getNum, r2, Res.bind_ok, h1, getLeaf, r1, if_true]
    cases hb : (FT.bisect cmp key (t.h.values p) 0 vs.length).2 with
    | none => exact ⟨p, _, rfl, fun _ f => by rw [hm f, hb], by simp⟩
    | some i =>
      obtain ⟨h3, h4⟩ := h2 i hb
      refine ⟨p, mid', rfl, by simp, fun e he => ?_⟩
      simp at he
      refine ⟨by omega, by rw [h3]; exact he, by simp, r1, fun f => ?_⟩
      rw [hm f, hb, h3]
      show FLeaf.mk _ _ = FLeaf.mk (fun j => if j = i then f (t.h.values p i) else t.h.values p j) (t.h.num p)
      rw [he]
      congr 1
      funext j
      show (if p = p ∧ j = i then f e else t.h.values p j) = _
      simp
  | succ d ih =>
    intro b hr hnd hocc hlen
    obtain ⟨p, vs, ks, rfl⟩ := exists_inner b
    obtain ⟨r1, r2, r3, r4, r5, r6⟩ := (rep_inner _ _ _ _).1 hr
    simp only [inner_ptr, inner_vals] at hlen ⊢
    have hgd : ∀ j, j < vs.length → vs.getD j default = t.h.values p j := by
      intro j hj
      rw [r3 j hj, List.getD_eq_getElem?_getD, List.getElem?_eq_getElem hj]; rfl
    obtain ⟨mid', h1, -⟩ := bsearch_bisect cmp t p key (fun j => vs.getD j default) vs.length hlen hgd _ 0 vs.length 0 (Nat.le_refl _) (Nat.le_refl _)
    obtain ⟨l', mid2, ex, g1, -, g3, -, -⟩ := bsearch_post cmp t p vs.length key hlen _ 0 vs.length 0 (Nat.le_refl _) (Nat.zero_le _) (Nat.le_refl _)
    have hpos : (FT.bisect cmp key (fun j => vs.getD j default) 0 vs.length).1 ≤ vs.length := by
      rw [h1] at g1
      injection g1 with g1
      simp only [Prod.mk.injEq] at g1
      rw [g1.1]; exact g3
    have hfd : (view t.h (d + 1) p).find cmp key =
        FT.find cmp key ((ks.map (fun k => view t.h d k.ptr)).getD (FT.bisect cmp key (fun j => vs.getD j default) 0 vs.length).1 (FT.empty d)) := by
      rw [view_inner hr]; rfl
    have hmd : ∀ f, (view t.h (d + 1) p).modify cmp key f = FT.node vs ((ks.map (fun k => view t.h d k.ptr)).set
        (FT.bisect cmp key (fun j => vs.getD j default) 0 vs.length).1 (FT.modify cmp key f
          ((ks.map (fun k => view t.h d k.ptr)).getD (FT.bisect cmp key (fun j => vs.getD j default) 0 vs.length).1 (FT.empty d)))) := by
      intro f
      rw [view_inner hr]; rfl
    generalize hps : (FT.bisect cmp key (fun j => vs.getD j default) 0 vs.length).1 = pos at *
    have hpk : pos < ks.length := by omega
    have hget : (ks.map (fun k => view t.h d k.ptr)).getD pos (FT.empty d) = view t.h d ks[pos].ptr := by
      rw [List.getD_eq_getElem?_getD, List.getElem?_eq_getElem (by simpa using hpk)]; simp
    have hkc : t.h.children p pos = some ks[pos].ptr := by
      rw [r5 pos (by simpa using hpk)]; simp
    have hocck := (inner_kidsOcc _ _ _ _).1 hocc ks[pos] (by simp)
    have hp2 : pos < 2 * t.degree := by omega
    obtain ⟨A, k, B, hA, hks⟩ : ∃ A k B, A.length = pos ∧ ks = A ++ k :: B := ⟨ks.take pos, ks[pos], ks.drop (pos + 1), by simp; omega, by simp⟩
    have hkp : ks[pos] = k := by subst hks; subst hA; simp
    rw [hkp] at hget hkc hocck
    have hkm : k ∈ ks := by rw [hks]; simp
    have hnd' := hnd
    rw [hks] at hnd'
    simp only [inner_ids, List.nodup_cons, List.flatMap_append, List.flatMap_cons, List.mem_append, not_or, List.nodup_append, List.mem_cons] at hnd'
    obtain ⟨⟨n1, n2, n3⟩, n4, ⟨n5, n6, n7⟩, n8⟩ := hnd'
    obtain ⟨q, i, a1, a2, a3⟩ := ih k (r6 k hkm) n5 hocck.2 hocck.1.2
    rw [hfd, hget, searchLoop]
    simp only [getNum, r2, Res.bind_ok, h1, getLeaf, r1, Bool.false_eq_true, if_false, getKid, hp2, if_true, hkc]
    refine ⟨q, i, a1, fun hn f => ?_, fun e he => ?_⟩
    · rw [hmd f, hget, a2 hn f, view_inner hr]
      congr 1
      apply List.ext_getElem
      · simp
      · intro j h5 h6
        rw [List.getElem_set]
        split
        · rename_i hj; subst hj; simp only [List.getElem_map, hkp]
        · rfl
    · obtain ⟨b1, b2, b3, b4, b5⟩ := a3 e he
      refine ⟨b1, b2, ?_, b4, fun f => ?_⟩
      · rw [inner_ids, List.mem_cons, List.mem_flatMap]; exact Or.inr ⟨k, hkm, b3⟩
      · have hrep := poke_rep (i := i) (e := f e) b4 k (r6 k hkm)
        rw [hks] at hr hnd
        have hv := view_replace (h' := (storePtr t (q, i) (f e)).h) hr hnd hrep (poke_ptr k) (fun x _ hx => store_same (fun hh => hx (hh ▸ b3)))
        rw [hv, hmd f, hget, ← b5 f, hks, ← hA]
        congr 1
        simp

/-! ### Histories with modifications -/

theorem modify_view (cmp : Compare K) (t : Tree K V) (m : FMap K V) (s : Shows t m) (key : K) (f : K × V → K × V) :
    ∃ t', modify cmp t key f = .ok (t', (FMap.find cmp key m).isSome) ∧ Shows t' (FMap.modify cmp key f m) ∧ t'.degree = t.degree := by
  cases s with
  | cleared c => exact ⟨t, by simp [modify, entryPtr, c.search cmp key, FMap.find], Shows.cleared c, rfl⟩
  | @live d b g =>
    by_cases h0 : t.size = 0
    · obtain ⟨q, i, h1, -⟩ := search_view cmp t _ (Shows.live b g) key
      have h2 : search cmp t key = .ok (none, 0, false) := by rw [search, if_pos h0]
      rw [h1] at h2
      simp only [Res.ok.injEq, Prod.mk.injEq] at h2
      obtain ⟨q', i', h4, h5, h6⟩ := searchLoop_store cmp t key g.pre.deg d b g.pre.rep g.pre.nodup g.pre.occ g.hi
      refine ⟨t, by rw [modify, entryPtr, h1]; simp [h2.2.2], ?_, rfl⟩
      have hn : (view t.h d b.ptr).find cmp key = none := by
        have := h2.2.2
        simpa [FMap.find] using this
      show Shows t (some ⟨d, (view t.h d b.ptr).modify cmp key f⟩)
      rw [h5 hn f]
      exact Shows.live b g
    · obtain ⟨q, i, h1, h2, h3⟩ := searchLoop_store cmp t key g.pre.deg d b g.pre.rep g.pre.nodup g.pre.occ g.hi
      have hs : search cmp t key = .ok (some q, i, ((view t.h d b.ptr).find cmp key).isSome) := by rw [search, if_neg h0, g.root]; exact h1
      show ∃ t', modify cmp t key f = .ok (t', ((view t.h d b.ptr).find cmp key).isSome) ∧ Shows t' (some ⟨d, (view t.h d b.ptr).modify cmp key f⟩) ∧ _
      cases hf : (view t.h d b.ptr).find cmp key with
      | none =>
        rw [hf] at hs
        rw [h2 hf f]
        exact ⟨t, by simp [modify, entryPtr, hs], Shows.live b g, rfl⟩
      | some e =>
        obtain ⟨b1, b2, b3, b4, b5⟩ := h3 e hf
        rw [hf] at hs
        refine ⟨storePtr t (q, i) (f e), by simp [modify, entryPtr, hs, getVal, b1, loadPtr, b2], ?_, rfl⟩
        have := Shows.live (poke q i (f e) b) (store_good (i := i) (e := f e) b4 g)
        rw [poke_ptr, b5 f] at this
        exact this

theorem act_view (cmp : Compare K) (a : Act K V) (t : Tree K V) (m : FMap K V) (s : Shows t m) :
    (FMap.act cmp t.degree m a = none ∧ act cmp t a = .panic .indexOutOfRange) ∨
    ∃ t' m' o, FMap.act cmp t.degree m a = some (m', o) ∧ act cmp t a = .ok (t', o) ∧ Shows t' m' ∧ t'.degree = t.degree := by
  cases a with
  | call op => exact step_view cmp op t m s
  | modify k f =>
    obtain ⟨t', h1, h2, h3⟩ := modify_view cmp t m s k f
    exact Or.inr ⟨t', _, _, rfl, by simp [act, h1], h2, h3⟩

theorem acts_view (cmp : Compare K) : ∀ (as : List (Act K V)) (t : Tree K V) (m : FMap K V), Shows t m →
    (FMap.acts cmp t.degree m as = none ∧ acts cmp t as = .panic .indexOutOfRange) ∨
    ∃ t' m' os, FMap.acts cmp t.degree m as = some (m', os) ∧ acts cmp t as = .ok (t', os) ∧ Shows t' m' ∧ t'.degree = t.degree
  | [], t, m, s => Or.inr ⟨t, m, [], rfl, rfl, s, rfl⟩
  | a :: as, t, m, s => by
    rw [FMap.acts, acts]
    rcases act_view cmp a t m s with ⟨h1, h2⟩ | ⟨t', m', o, h1, h2, h3, h4⟩
    · left; rw [h1, h2]; exact ⟨rfl, rfl⟩
    · rw [h1, h2]
      have := acts_view cmp as t' m' h3
      rw [h4] at this
      rcases this with ⟨g1, g2⟩ | ⟨t2, m2, os, g1, g2, g3, g4⟩
      · left; simp [g1, g2]
      · right; exact ⟨t2, m2, o :: os, by simp [g1], by simp [g2], g3, g4⟩

/-- C118: every history of calls and of modifications through `GetEntry`, with any comparator, is the one of the specification: which call
panics, every answer, the size, and what the four read operations find for every key. -/
theorem modify_history_exact (cmp : Compare K) (M : Nat) (hM : 2 ≤ M) (as : List (Act K V)) :
    match FMap.acts cmp M FMap.new as with
    | none => actsNew cmp M as = .panic .indexOutOfRange
    | some (m, outs) => ∃ t, actsNew cmp M as = .ok (t, outs) ∧ sizeOf t = (m.entries.length : Int) ∧ isEmpty t = m.entries.isEmpty ∧
        (∀ key, Reads cmp t key (FMap.find cmp key m)) ∧ (m = none → t.root = none) ∧ (m ≠ none → ∃ d l ss, Holds t d l m.entries ss) := by
  obtain ⟨t0, h0, hd, s⟩ := newMap_shows (K := K) (V := V) hM
  have hr : actsNew cmp M as = acts cmp t0 as := by simp [actsNew, h0]
  rcases acts_view cmp as t0 FMap.new s with ⟨h1, h2⟩ | ⟨t', m', os, h1, h2, h3, -⟩
  · rw [hd] at h1
    rw [h1, hr]
    exact h2
  · rw [hd] at h1
    rw [h1]
    obtain ⟨a, b, c, d⟩ := h3.observed
    exact ⟨t', hr.trans h2, a, b, fun key => h3.reads key, c, d⟩

/-! ### Writing the value -/

omit [Inhabited K] [Inhabited V] in
theorem bisect_keys (cmp : Compare K) (key : K) (f g : Nat → K × V) (h : ∀ j, (f j).1 = (g j).1) : ∀ (n l hi : Nat), hi - l ≤ n →
    FT.bisect cmp key f l hi = FT.bisect cmp key g l hi := by
  intro n
  induction n with
  | zero =>
    intro l hi hn
    rw [FT.bisect, FT.bisect, if_neg (by omega), if_neg (by omega)]
  | succ n ih =>
    intro l hi hn
    rw [FT.bisect]
    conv_rhs => rw [FT.bisect]
    by_cases hl : l < hi
    · rw [if_pos hl, if_pos hl]
      simp only [h]
      rw [ih l _ (by omega), ih _ hi (by omega)]
    · rw [if_neg hl, if_neg hl]

theorem find_empty (cmp : Compare K) (key : K) : ∀ d, FT.find cmp key (FT.empty d : FT (K × V) d) = none
  | 0 => by
    show (FT.bisect cmp key _ 0 0).2.map _ = none
    rw [FT.bisect]; simp
  | d + 1 => by
    show FT.find cmp key (List.getD [] _ (FT.empty d)) = none
    simp [find_empty cmp key d]

theorem find_modify (cmp : Compare K) (key : K) (f : K × V → K × V) (hf : ∀ e, (f e).1 = e.1) (key' : K) : ∀ {d : Nat} (n : FT (K × V) d),
    FT.find cmp key (n.modify cmp key f) = (FT.find cmp key n).map f ∧
    (FT.find cmp key' (n.modify cmp key f) = FT.find cmp key' n ∨
      ∃ e, FT.find cmp key' n = some e ∧ FT.find cmp key n = some e ∧ FT.find cmp key' (n.modify cmp key f) = some (f e))
  | 0, n => by
    obtain ⟨l, rfl⟩ : ∃ l : FLeaf (K × V), (show FT (K × V) 0 from l) = n := ⟨n, rfl⟩
    have hfd : ∀ (x : K) (l : FLeaf (K × V)), FT.find (d := 0) cmp x l = (FT.bisect cmp x l.slot 0 l.num).2.map l.slot := fun _ _ => rfl
    cases hb : (FT.bisect cmp key l.slot 0 l.num).2 with
    | none =>
      have hm : FT.modify (d := 0) cmp key f l = l := by
        show (match (FT.bisect cmp key l.slot 0 l.num).2 with | none => (l : FLeaf (K × V)) | some i => _) = _
        rw [hb]
      rw [hm, hfd, hb]
      exact ⟨rfl, Or.inl rfl⟩
    | some i =>
      have hm : FT.modify (d := 0) cmp key f l = (⟨fun j => if j = i then f (l.slot i) else l.slot j, l.num⟩ : FLeaf (K × V)) := by
        show (match (FT.bisect cmp key l.slot 0 l.num).2 with | none => (l : FLeaf (K × V)) | some i => _) = _
        rw [hb]
      have hbk : ∀ x, FT.bisect cmp x (fun j => if j = i then f (l.slot i) else l.slot j) 0 l.num = FT.bisect cmp x l.slot 0 l.num := by
        intro x
        refine bisect_keys cmp x _ _ (fun j => ?_) _ 0 l.num (Nat.le_refl _)
        by_cases hj : j = i
        · simp only [hj, if_true, hf]
        · simp only [hj, if_false]
      rw [hm, hfd, hfd, hfd, hfd, hbk, hbk, hb]
      refine ⟨by simp, ?_⟩
      cases hb' : (FT.bisect cmp key' l.slot 0 l.num).2 with
      | none => left; rfl
      | some i' =>
        by_cases hii : i' = i
        · subst hii
          right
          exact ⟨l.slot i', rfl, rfl, by simp⟩
        · left; simp [hii]
  | d + 1, n => by
    obtain ⟨vs, ks, rfl⟩ : ∃ (vs : List (K × V)) (ks : List (FT (K × V) d)), FT.node vs ks = n := ⟨n.1, n.2, rfl⟩
    have hfd : ∀ (x : K) (ks : List (FT (K × V) d)), FT.find cmp x (FT.node vs ks) =
      FT.find cmp x (ks.getD (FT.bisect cmp x (fun j => vs.getD j default) 0 vs.length).1 (FT.empty d)) := fun _ _ => rfl
    have hm : FT.modify cmp key f (FT.node vs ks) = FT.node vs (ks.set (FT.bisect cmp key (fun j => vs.getD j default) 0 vs.length).1
      (FT.modify cmp key f (ks.getD (FT.bisect cmp key (fun j => vs.getD j default) 0 vs.length).1 (FT.empty d)))) := rfl
    rw [hm, hfd, hfd, hfd, hfd]
    generalize (FT.bisect cmp key (fun j => vs.getD j default) 0 vs.length).1 = i
    generalize (FT.bisect cmp key' (fun j => vs.getD j default) 0 vs.length).1 = i'
    obtain ⟨ih1, ih2⟩ := find_modify cmp key f hf key' (ks.getD i (FT.empty d))
    by_cases hi : i < ks.length
    · have e1 : ∀ x, (ks.set i x).getD i (FT.empty d) = x := fun x => by
        rw [List.getD_eq_getElem?_getD, List.getElem?_set_self hi]; rfl
      rw [e1]
      refine ⟨ih1, ?_⟩
      by_cases hii : i' = i
      · subst hii
        rw [e1]; exact ih2
      · left
        rw [List.getD_eq_getElem?_getD, List.getElem?_set_ne (fun h => hii h.symm), ← List.getD_eq_getElem?_getD]
    · have e2 : ∀ x, ks.set i x = ks := fun x => List.set_eq_of_length_le (by omega)
      rw [e2]
      refine ⟨?_, Or.inl rfl⟩
      have : ks.getD i (FT.empty d) = FT.empty d := by
        rw [List.getD_eq_getElem?_getD, List.getElem?_eq_none (by omega)]; rfl
      rw [this, find_empty]; rfl

omit [Inhabited K] [Inhabited V] in
theorem bisect_hit (cmp : Compare K) (key : K) (f : Nat → K × V) {i : Nat} : ∀ (n l hi : Nat), hi - l ≤ n → (FT.bisect cmp key f l hi).2 = some i → cmp key (f i).1 = 0 := by
  intro n
  induction n with
  | zero =>
    intro l hi hn
    rw [FT.bisect, if_neg (by omega)]; simp
  | succ n ih =>
    intro l hi hn
    rw [FT.bisect]
    by_cases hl : l < hi
    · rw [if_pos hl]
      simp only
      split
      · exact ih l _ (by omega)
      · split
        · exact ih _ hi (by omega)
        · intro h; cases h; omega
    · rw [if_neg hl]; simp

theorem find_hit (cmp : Compare K) (key : K) {e : K × V} : ∀ {d : Nat} (n : FT (K × V) d), FT.find cmp key n = some e → cmp key e.1 = 0
  | 0, n, h => by
    obtain ⟨l, rfl⟩ : ∃ l : FLeaf (K × V), (show FT (K × V) 0 from l) = n := ⟨n, rfl⟩
    have h : (FT.bisect cmp key l.slot 0 l.num).2.map l.slot = some e := h
    obtain ⟨i, h1, h2⟩ := Option.map_eq_some_iff.1 h
    rw [← h2]; exact bisect_hit cmp key l.slot _ 0 l.num (Nat.le_refl _) h1
  | d + 1, n, h => find_hit cmp key (d := d) _ h

/-- C118: writing a value through `GetEntry(k)` right away, after any history (with such writes) and with any comparator: it finds an entry iff
`ContainsKey(k)`, and then all reads of `k` show the new value; a read of any key `k'` that does not compare equal
to the entry written to shows what it showed before; `Size` is the same. -/
theorem modify_value {cmp : Compare K} (M : Nat) (hM : 2 ≤ M) (as : List (Act K V)) {t : Tree K V} {outs : List Out}
    (e : actsNew cmp M as = .ok (t, outs)) (k : K) (v : V) :
    ∃ t' o, getEntry cmp t k = .ok o ∧ modify cmp t k (fun x => (x.1, v)) = .ok (t', o.isSome) ∧ Reads cmp t' k (o.map (fun x => (x.1, v))) ∧
      sizeOf t' = sizeOf t ∧
      ∀ k' o', getEntry cmp t k' = .ok o' → (∀ x, o = some x → cmp k' x.1 ≠ 0) → Reads cmp t' k' o' := by
  obtain ⟨t0, h0, hd, s⟩ := newMap_shows (K := K) (V := V) hM
  have hr : actsNew cmp M as = acts cmp t0 as := by simp [actsNew, h0]
  rcases acts_view cmp as t0 FMap.new s with ⟨h1, h2⟩ | ⟨t1, m, os, h1, h2, h3, -⟩
  · rw [hr, h2] at e; cases e
  rw [hr, h2] at e
  cases e
  obtain ⟨t', e1, s1, -⟩ := modify_view cmp t m h3 k (fun x => (x.1, v))
  refine ⟨t', FMap.find cmp k m, (h3.reads k).2.1, e1, ?_, ?_, fun k' o' he hne => ?_⟩
  · have := s1.reads (cmp := cmp) k
    have hf : FMap.find cmp k (FMap.modify cmp k (fun x => (x.1, v)) m) = (FMap.find cmp k m).map (fun x => (x.1, v)) := by
      cases m with
      | none => rfl
      | some x => exact (find_modify cmp k (fun x => (x.1, v)) (fun _ => rfl) k x.2).1
    rw [hf] at this
    exact this
  · cases h3 with
    | cleared c => 
      cases s1 with
      | cleared c' => rw [sizeOf, sizeOf, c.size, c'.size]
    | @live d b g =>
      simp only [modify] at e1
      cases hp : entryPtr cmp t k with
      | ok p =>
        rw [hp] at e1
        cases p with
        | none => simp at e1; rw [e1.1]
        | some p => simp at e1; rw [← e1.1]; rfl
      | panic x => rw [hp] at e1; cases e1
      | hang => rw [hp] at e1; cases e1
  · have h9 := (h3.reads (cmp := cmp) k').2.1
    rw [he] at h9
    cases h9
    have := s1.reads (cmp := cmp) k'
    have hf : FMap.find cmp k' (FMap.modify cmp k (fun x => (x.1, v)) m) = FMap.find cmp k' m := by
      cases m with
      | none => rfl
      | some x =>
        rcases (find_modify cmp k (fun x => (x.1, v)) (fun _ => rfl) k' x.2).2 with h | ⟨e, h4, h5, -⟩
        · exact h
        · exact absurd (find_hit cmp k' x.2 h4) (hne e h5)
    rw [hf] at this
    exact this

/-- A non-trivial case: seven entries in two levels (degree 3, so leaves of at most five entries), two of them written to, one key absent. -/
example : (actsNew (Fn.comp (T := Nat)) 3 ((List.range 7).map (fun i => Act.call (Op.insertUnique i i)) ++
    [.modify 2 (fun x => (x.1, 20)), .modify 6 (fun x => (x.1, x.2 + 60)), .modify 9 (fun x => (x.1, 0))])
    >>= fun r => (get (Fn.comp (T := Nat)) r.1 2 >>= fun a => get (Fn.comp (T := Nat)) r.1 6 >>= fun b => get (Fn.comp (T := Nat)) r.1 3 >>=
      fun c => .ok (a, b, c, r.2.drop 7))) = .ok (20, 66, 3, [.bool true, .bool true, .bool false]) := by cbv

/-! ### Pointers kept over other calls -/

/-- What one would like: a pointer obtained for `k` is still the pointer of `k` after a call that inserted another key. -/
def PointerStays : Prop := ∀ (M : Nat), 2 ≤ M → ∀ (as : List (Act Nat Nat)) (t : Tree Nat Nat) (outs : List Out) (k : Nat) (p : Nat × Nat) (k' v : Nat) (t' : Tree Nat Nat),
  actsNew (Fn.comp (T := Nat)) M as = .ok (t, outs) → entryPtr (Fn.comp (T := Nat)) t k = .ok (some p) → k' ≠ k →
  insertUnique (Fn.comp (T := Nat)) t k' v = .ok (t', true) → entryPtr (Fn.comp (T := Nat)) t' k = .ok (some p)

/-- `p := m.GetEntry(k); m.InsertUnique(k', v); *p = …`: the value of `p.Key` then, and `Get(k)`, `Get(k')` after `p.Val = x`. -/
def held (M : Nat) (as : List (Act Nat Nat)) (k k' v x : Nat) : Res (Option (Nat × Nat × Nat)) := do
  let (t, _) ← actsNew (Fn.comp (T := Nat)) M as
  let p ← entryPtr (Fn.comp (T := Nat)) t k
  let (t, _) ← insertUnique (Fn.comp (T := Nat)) t k' v
  match p with
  | none => .ok none
  | some p =>
    let t' := storePtr t p ((loadPtr t p).1, x)
    let a ← get (Fn.comp (T := Nat)) t' k
    let b ← get (Fn.comp (T := Nat)) t' k'
    .ok (some ((loadPtr t p).1, a, b))

/-- C118: a kept pointer becomes the pointer of another entry: after Insert 5, `p := GetEntry(5)`, Insert 3, `p` shows the key 3, and
`p.Val = 99` changes the value of 3 and leaves that of 5. -/
theorem held_wrong_entry : held 3 [.call (.insertUnique 5 50)] 5 3 30 99 = .ok (some (3, 50, 99)) := by cbv

/-- C118: or the pointer of no entry: the leaf 1, 2, 3, 4, 5 is split by Insert 6, the entry of 5 moves to the new leaf; `p` still shows the key 5
and `p.Val = 99` is lost. -/
theorem held_lost : held 3 ((List.range 5).map (fun i => Act.call (Op.insertUnique (i + 1) ((i + 1) * 10)))) 5 6 60 99 = .ok (some (5, 50, 60)) := by cbv

omit [Inhabited K] [Inhabited V] in
theorem bind_ok_inv {α β : Type} {x : Res α} {f : α → Res β} {b : β} (h : (x >>= f) = .ok b) : ∃ a, x = .ok a ∧ f a = .ok b := by
  cases x with
  | ok a => exact ⟨a, rfl, h⟩
  | panic k => simp at h
  | hang => simp at h

theorem pointerStays_refuted : ¬ PointerStays := by
  intro h
  have e : (actsNew (K := Nat) (V := Nat) (Fn.comp (T := Nat)) 3 [.call (.insertUnique 5 50)] >>= fun r => entryPtr (Fn.comp (T := Nat)) r.1 5 >>= fun p =>
    insertUnique (Fn.comp (T := Nat)) r.1 3 30 >>= fun q => entryPtr (Fn.comp (T := Nat)) q.1 5 >>= fun p' => .ok (p, q.2, p')) =
    .ok (some (0, 0), true, some (0, 1)) := by cbv
  obtain ⟨⟨t, outs⟩, e1, e⟩ := bind_ok_inv e
  obtain ⟨p, e2, e⟩ := bind_ok_inv e
  obtain ⟨⟨t', b⟩, e3, e⟩ := bind_ok_inv e
  obtain ⟨p', e4, e⟩ := bind_ok_inv e
  simp only [Res.ok.injEq, Prod.mk.injEq] at e
  obtain ⟨rfl, rfl, rfl⟩ := e
  have := h 3 (by omega) _ t outs 5 (0, 0) 3 30 t' e1 e2 (by omega) e3
  rw [e4] at this
  simp at this

/-! The part that holds: writes of values, through whatever pointers, leave every pointer the pointer of its entry. -/

theorem bsearch_value (cmp : Compare K) (t : Tree K V) (p : Nat × Nat) (v : V) (node : Option Nat) (key : K) : ∀ (n l hi mid : Nat), hi - l ≤ n →
    bsearch cmp (storePtr t p ((loadPtr t p).1, v)) node key l hi mid = bsearch cmp t node key l hi mid := by
  intro n
  induction n with
  | zero =>
    intro l hi mid hn
    rw [bsearch]
    conv_rhs => rw [bsearch]
    rw [if_neg (by omega), if_neg (by omega)]
  | succ n ih =>
    intro l hi mid hn
    rw [bsearch]
    conv_rhs => rw [bsearch]
    by_cases hl : l < hi
    · rw [if_pos hl, if_pos hl]
      cases node with
      | none => rfl
      | some q =>
        simp only [getVal]
        show (if _ < 2 * t.degree - 1 then Res.ok ((storePtr t p ((loadPtr t p).1, v)).h.values q _) else _) >>= _ = _
        by_cases hb : (l + (hi - 1)) / 2 < 2 * t.degree - 1
        · rw [if_pos hb, if_pos hb]
          have hk : ((storePtr t p ((loadPtr t p).1, v)).h.values q ((l + (hi - 1)) / 2)).1 = (t.h.values q ((l + (hi - 1)) / 2)).1 := by
            show (if q = p.1 ∧ _ = p.2 then _ else _ : K × V).1 = _
            split
            · rename_i h; rw [h.1, h.2]; rfl
            · rfl
          simp only [Res.bind_ok, hk]
          rw [ih l _ _ (by omega), ih _ hi _ (by omega)]
        · rw [if_neg hb, if_neg hb]; rfl
    · rw [if_neg hl, if_neg hl]

theorem searchLoop_value (cmp : Compare K) (t : Tree K V) (p : Nat × Nat) (v : V) (key : K) (hdeg : 2 ≤ t.degree) : ∀ (d : Nat) (b : BT K V d), Rep t.h b →
    b.KidsOcc t.degree → b.vals.length ≤ 2 * t.degree - 1 →
    searchLoop cmp (storePtr t p ((loadPtr t p).1, v)) (some b.ptr) key = searchLoop cmp t (some b.ptr) key := by
  intro d
  induction d with
  | zero =>
    intro b hr _ hlen
    obtain ⟨q, vs, rfl⟩ := exists_leaf b
    obtain ⟨r1, r2, r3, r4⟩ := (rep_leaf _ _ _).1 hr
    rw [searchLoop]
    conv_rhs => rw [searchLoop]
    have hl : (storePtr t p ((loadPtr t p).1, v)).h.isLeaf q = true := r1
    have hn : (storePtr t p ((loadPtr t p).1, v)).h.num q = t.h.num q := rfl
    simp only [leaf_ptr, getNum, hn, Res.bind_ok, bsearch_value cmp t p v _ key _ 0 (t.h.num q) 0 (Nat.le_refl _), getLeaf, r1, hl, if_true]
  | succ d ih =>
    intro b hr hocc hlen
    obtain ⟨q, vs, ks, rfl⟩ := exists_inner b
    obtain ⟨r1, r2, r3, r4, r5, r6⟩ := (rep_inner _ _ _ _).1 hr
    simp only [inner_ptr, inner_vals] at hlen ⊢
    obtain ⟨l', mid2, ex, g1, -, g3, -, -⟩ := bsearch_post cmp t q vs.length key hlen _ 0 vs.length 0 (Nat.le_refl _) (Nat.zero_le _) (Nat.le_refl _)
    have hl : (storePtr t p ((loadPtr t p).1, v)).h.isLeaf q = false := r1
    have hn : (storePtr t p ((loadPtr t p).1, v)).h.num q = t.h.num q := rfl
    have hc : (storePtr t p ((loadPtr t p).1, v)).h.children q l' = t.h.children q l' := rfl
    have hdd : (storePtr t p ((loadPtr t p).1, v)).degree = t.degree := rfl
    have hpk : l' < ks.length := by omega
    have hkc : t.h.children q l' = some ks[l'].ptr := by
      rw [r5 l' (by simpa using hpk)]; simp
    have hocck := (inner_kidsOcc _ _ _ _).1 hocc ks[l'] (by simp)
    have hp2 : l' < 2 * t.degree := by omega
    rw [searchLoop]
    conv_rhs => rw [searchLoop]
    simp only [getNum, hn, r2, Res.bind_ok, bsearch_value cmp t p v _ key _ 0 vs.length 0 (Nat.le_refl _), g1, getLeaf, r1, hl, Bool.false_eq_true, if_false, getKid,
      hdd, hp2, if_true, hc, hkc]
    exact ih ks[l'] (r6 _ (by simp)) hocck.2 hocck.1.2

/-- C118: after any history, a write of a value through the pointer of `k0` leaves all pointers what they were: `GetEntry(k)` returns
the same pointer as before, for every `k`. -/
theorem pointerStays_partial (cmp : Compare K) (M : Nat) (hM : 2 ≤ M) (as : List (Act K V)) {t : Tree K V} {outs : List Out}
    (e : actsNew cmp M as = .ok (t, outs)) (p : Nat × Nat) (v : V) (k : K) :
    entryPtr cmp (storePtr t p ((loadPtr t p).1, v)) k = entryPtr cmp t k := by
  obtain ⟨t0, h0, hd, s⟩ := newMap_shows (K := K) (V := V) hM
  have hr : actsNew cmp M as = acts cmp t0 as := by simp [actsNew, h0]
  rcases acts_view cmp as t0 FMap.new s with ⟨h1, h2⟩ | ⟨t1, m, os, h1, h2, h3, -⟩
  · rw [hr, h2] at e; cases e
  rw [hr, h2] at e
  cases e
  have hs : search cmp (storePtr t p ((loadPtr t p).1, v)) k = search cmp t k := by
    rw [search, search]
    show (if t.size = 0 then _ else searchLoop cmp _ t.root k) = _
    cases h3 with
    | cleared c => rw [if_pos c.size, if_pos c.size]
    | @live d b g => rw [g.root, searchLoop_value cmp t p v k g.pre.deg d b g.pre.rep g.pre.occ g.hi]
  rw [entryPtr, entryPtr, hs]
  cases search cmp t k with
  | ok x =>
    obtain ⟨node, idx, ex⟩ := x
    simp only [Res.bind_ok]
    cases node with
    | none => rfl
    | some q =>
      simp only [getVal]
      show (if ex then (if idx < 2 * t.degree - 1 then _ else _) >>= _ else _) = _
      by_cases hi : idx < 2 * t.degree - 1
      · rw [if_pos hi, if_pos hi]; rfl
      · rw [if_neg hi, if_neg hi]
  | panic x => rfl
  | hang => rfl

end Gds.BPlus
