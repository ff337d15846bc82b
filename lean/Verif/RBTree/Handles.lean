import Verif.RBTree.Exact
import Verif.RBTree.Break

/-! C119: nodes in the user's hands: `SetKey` and `SetValue` in the course of a history, and which node carries which entry. -/

namespace Gds.RBTree

variable {K V : Type}

/-! ### The model -/

/-- `n` times `Next` (redblackbtree_node.go:80-92); nil stays nil. -/
def nextN (m : Heap K V) : Nat → Option Nat → Res (Option Nat)
  | 0, p => pure p
  | _ + 1, none => pure none
  | n + 1, some i => do
    let p ← next m (some i)
    nextN m n p

/-- The `n`-th node in the order of `Next`, from the leftmost one on (redblackbtree_node.go:59-66, 80-92): how the user got hold of the node
does not matter. -/
def nodeAt (m : Heap K V) (n : Nat) : Res (Option Nat) :=
  match m.parent 0 with
  | none => pure none
  | some r => do
    let p ← minChild m (some r)
    nextN m n p

/-- A call, or the user rewriting the key or value of a node: of the `n`-th node of the tree, or of the `j`-th node that `Delete` returned and that is
still in the user's hands. -/
inductive Act (K V : Type) where
  | call (c : Call K V)
  | setKey (n : Nat) (k : K)
  | setValue (n : Nat) (v : V)
  | heldKey (j : Nat) (k : K)
  | heldValue (j : Nat) (v : V)

/-- `SetKey` / `SetValue` on a node, if there is one (redblackbtree_node.go:38-44). -/
def writeNode (s : Tree K V × List Nat) (p : Option Nat) (f : Heap K V → Option Nat → Res (Heap K V)) : Res (Ans K V × Tree K V × List Nat) :=
  match p with
  | none => pure (.bool false, s)
  | some i => do
    let m ← f s.1.heap (some i)
    pure (.bool true, { s.1 with heap := m }, s.2)

/-- One of them, with the answer (whether there was such a node); redblacktree.go's calls and redblackbtree_node.go:38-44. -/
def actAns (cmp : Compare K) (s : Tree K V × List Nat) : Act K V → Res (Ans K V × Tree K V × List Nat)
  | .call c => stepAns cmp s c
  | .setKey n k => do
    let p ← nodeAt s.1.heap n
    writeNode s p (fun m q => setKey m q k)
  | .setValue n v => do
    let p ← nodeAt s.1.heap n
    writeNode s p (fun m q => setValue m q v)
  | .heldKey j k => writeNode s s.2[j]? (fun m q => setKey m q k)
  | .heldValue j v => writeNode s s.2[j]? (fun m q => setValue m q v)

/-- A history of them with all answers. -/
def actsAns (cmp : Compare K) (s : Tree K V × List Nat) : List (Act K V) → Res (List (Ans K V) × Tree K V × List Nat)
  | [] => pure ([], s)
  | a :: as => do
    let (o, s) ← actAns cmp s a
    let (os, s) ← actsAns cmp s as
    pure (o :: os, s)

/-! ### The specification -/

/-- The tree with `f` applied to the `n`-th label. -/
def CT.setNth {A : Type} (f : A → A) : Nat → CT A → CT A
  | _, .nil => .nil
  | n, .node b l a r =>
    if n < l.labels.length then .node b (CT.setNth f n l) a r
    else if n = l.labels.length then .node b l (f a) r
    else .node b l a (CT.setNth f (n - l.labels.length - 1) r)

/-- The list with `f` applied to the `j`-th element. -/
def setNthL {A : Type} (f : A → A) (j : Nat) (l : List A) : List A := l.modify j f

/-- Rewriting the `n`-th record of the tree. -/
def FT.write (s : FT K V) (n : Nat) (f : K × V → K × V) : Ans K V × FT K V :=
  (.bool (n < s.tree.labels.length), { s with tree := s.tree.setNth f n })

/-- Rewriting the `j`-th of the records the user holds. -/
def FT.writeHeld (s : FT K V) (j : Nat) (f : K × V → K × V) : Ans K V × FT K V :=
  (.bool (j < s.held.length), { s with held := setNthL f j s.held })

/-- One of them. -/
def FT.act (cmp : Compare K) (s : FT K V) : Act K V → Ans K V × FT K V
  | .call c => s.step cmp c
  | .setKey n k => s.write n (fun e => (k, e.2))
  | .setValue n v => s.write n (fun e => (e.1, v))
  | .heldKey j k => s.writeHeld j (fun e => (k, e.2))
  | .heldValue j v => s.writeHeld j (fun e => (e.1, v))

/-- A history of them. -/
def FT.acts (cmp : Compare K) (s : FT K V) : List (Act K V) → List (Ans K V) × FT K V
  | [] => ([], s)
  | a :: as =>
    let r := s.act cmp a
    let q := r.2.acts cmp as
    (r.1 :: q.1, q.2)

/-! ### Proofs -/

theorem nextN_spec {m : Heap K V} {root : Option Nat} {L : List Nat} (h : Navigable m root L) : ∀ (n : Nat) (as bs : List Nat), L = as ++ bs →
    nextN m n bs.head? = .ok bs[n]?
  | 0, _, bs, _ => by simp [nextN, List.head?_eq_getElem?]
  | n + 1, _, [], _ => rfl
  | n + 1, as, i :: bs, e => by
    simp only [List.head?_cons, nextN, h.next as i bs e, Res.bind_ok, List.getElem?_cons_succ]
    exact nextN_spec h n (as ++ [i]) bs (by rw [e]; simp)

theorem nodeAt_spec {m : Heap K V} {t : T} (h : Holds m t) (n : Nat) : nodeAt m n = .ok t.ids[n]? := by
  rw [nodeAt, h.root]
  cases t with
  | nil => rfl
  | node l i r =>
    have := minChild_spec h.rep (by simp)
    rw [T.root_node] at this
    simp only [T.root_node, this, Res.bind_ok]
    exact nextN_spec h.navigable n [] _ rfl

theorem setNth_paint (col : Nat → Bool) (kv : Nat → K × V) (f : K × V → K × V) : ∀ (t : T) (n i : Nat), t.ids.Nodup → t.ids[n]? = some i →
    CT.setNth f n (paint col kv t) = paint col (fun j => if j = i then f (kv i) else kv j) t
  | .nil, n, i, _, h => by simp [T.ids] at h
  | .node l x r, n, i, hn, h => by
    have hll : (paint col kv l).labels.length = l.ids.length := by rw [labels_paint]; simp
    simp only [T.ids, List.nodup_append, List.nodup_cons, List.mem_cons] at hn
    obtain ⟨n1, ⟨n2, n3⟩, n4⟩ := hn
    simp only [T.ids] at h
    simp only [paint, CT.setNth, hll]
    have keep : ∀ (t : T), i ∉ t.ids → paint col (fun j => if j = i then f (kv i) else kv j) t = paint col kv t := by
      intro t ht
      refine paint_congr (fun _ _ => rfl) (fun j hj => ?_)
      rw [if_neg]; rintro rfl; exact ht hj
    by_cases h1 : n < l.ids.length
    · rw [if_pos h1]
      rw [List.getElem?_append_left h1] at h
      have hi := List.mem_of_getElem? h
      have hix : x ≠ i := fun hh => n4 i hi x (.inl rfl) hh.symm
      have hir : i ∉ r.ids := fun hh => n4 i hi i (.inr hh) rfl
      rw [setNth_paint col kv f l n i n1 h, keep r hir, if_neg hix]
    · rw [if_neg h1]
      rw [List.getElem?_append_right (by omega)] at h
      by_cases h2 : n = l.ids.length
      · rw [if_pos h2]
        subst h2
        simp only [Nat.sub_self, List.getElem?_cons_zero, Option.some.injEq] at h
        subst h
        have hil : x ∉ l.ids := fun hh => n4 x hh x (.inl rfl) rfl
        rw [keep l hil, keep r n2, if_pos rfl]
      · rw [if_neg h2]
        obtain ⟨q, hq⟩ : ∃ q, n = l.ids.length + 1 + q := ⟨n - l.ids.length - 1, by omega⟩
        subst hq
        rw [show l.ids.length + 1 + q - l.ids.length = q + 1 by omega, List.getElem?_cons_succ] at h
        have hi := List.mem_of_getElem? h
        have hil : i ∉ l.ids := fun hh => n4 i hh i (.inr hi) rfl
        have hix : x ≠ i := fun hh => n2 (hh ▸ hi)
        rw [show l.ids.length + 1 + q - l.ids.length - 1 = q by omega, setNth_paint col kv f r q i n3 h, keep l hil, if_neg hix]

theorem setNth_out {A : Type} (f : A → A) : ∀ (t : CT A) (n : Nat), t.labels.length ≤ n → CT.setNth f n t = t
  | .nil, _, _ => rfl
  | .node b l a r, n, h => by
    simp only [CT.labels, List.length_append, List.length_cons] at h
    rw [CT.setNth, if_neg (by omega), if_neg (by omega), setNth_out f r _ (by omega)]

theorem write_exact {z : K × V} {s : Tree K V × List Nat} {fs : FT K V} (h : Rel z s fs) (n : Nat) (f : K × V → K × V)
    (g : Heap K V → Option Nat → Res (Heap K V)) (hg : ∀ m i, g m (some i) = .ok (rekv m i (f (m.kv i)))) :
    ∃ s', (nodeAt s.1.heap n >>= fun p => writeNode s p g) = .ok ((fs.write n f).1, s') ∧ Rel z s' (fs.write n f).2 := by
  have h0 := h
  obtain ⟨tr, U, ok, hn, ho, hp, hsz, hh⟩ := h
  have hlen : fs.tree.labels.length = tr.ids.length := by rw [← hp, labels_paint]; simp
  rw [nodeAt_spec ok.holds, FT.write, hlen]
  simp only [Res.bind_ok]
  cases hi : tr.ids[n]? with
  | none =>
    rw [List.getElem?_eq_none_iff] at hi
    refine ⟨s, by simp [writeNode]; omega, ?_⟩
    rw [setNth_out f fs.tree n (by omega)]
    exact h0
  | some i =>
    have hlt := (List.getElem?_eq_some_iff.1 hi).1
    have him := List.mem_of_getElem? hi
    refine ⟨({ s.1 with heap := rekv s.1.heap i (f (s.1.heap.kv i)) }, s.2), by simp [writeNode, hg, hlt], tr, U, ok.rekv (ok.holds.pos i him) _, hn, ho, ?_, hsz, ?_⟩
    · show paint s.1.heap.color (rekv s.1.heap i (f (s.1.heap.kv i))).kv tr = fs.tree.setNth f n
      rw [← hp, setNth_paint s.1.heap.color s.1.heap.kv f tr n i ok.holds.nodup hi]; rfl
    · show s.2.map (rekv s.1.heap i (f (s.1.heap.kv i))).kv = fs.held
      rw [← hh]
      refine List.map_congr_left (fun o hoH => if_neg ?_)
      rintro rfl; exact (ho o hoH).2 him

theorem writeHeld_exact {z : K × V} {s : Tree K V × List Nat} {fs : FT K V} (h : Rel z s fs) (j : Nat) (f : K × V → K × V)
    (g : Heap K V → Option Nat → Res (Heap K V)) (hg : ∀ m i, g m (some i) = .ok (rekv m i (f (m.kv i)))) :
    ∃ s', writeNode s s.2[j]? g = .ok ((fs.writeHeld j f).1, s') ∧ Rel z s' (fs.writeHeld j f).2 := by
  have h0 := h
  obtain ⟨tr, U, ok, hn, ho, hp, hsz, hh⟩ := h
  have hlen : fs.held.length = s.2.length := by rw [← hh]; simp
  rw [FT.writeHeld, hlen]
  cases hi : s.2[j]? with
  | none =>
    rw [List.getElem?_eq_none_iff] at hi
    refine ⟨s, by simp [writeNode]; omega, ?_⟩
    rw [setNthL, List.modify_eq_self (by omega)]
    exact h0
  | some i =>
    have hlt := (List.getElem?_eq_some_iff.1 hi).1
    have him := List.mem_of_getElem? hi
    have hpos := ok.pos i (ho i him).1
    refine ⟨({ s.1 with heap := rekv s.1.heap i (f (s.1.heap.kv i)) }, s.2), by simp [writeNode, hg, hlt], tr, U, ok.rekv hpos _, hn, ho, ?_, hsz, ?_⟩
    · show paint s.1.heap.color (rekv s.1.heap i (f (s.1.heap.kv i))).kv tr = fs.tree
      rw [← hp]
      refine paint_congr (fun _ _ => rfl) (fun o hoH => if_neg ?_)
      rintro rfl; exact (ho o him).2 hoH
    · show s.2.map (rekv s.1.heap i (f (s.1.heap.kv i))).kv = setNthL f j fs.held
      rw [← hh, setNthL]
      apply List.ext_getElem?
      intro q
      rw [List.getElem?_modify, List.getElem?_map, List.getElem?_map]
      cases hq : s.2[q]? with
      | none => simp
      | some o =>
        simp only [Option.map_some]
        by_cases hjq : j = q
        · subst hjq
          rw [hi] at hq; cases hq
          simp [rekv]
        · have : o ≠ i := by
            rintro rfl
            exact hjq ((List.getElem?_inj hlt hn).1 (by rw [hi, hq]))
          simp [hjq, rekv, this]

theorem act_exact {z : K × V} {s : Tree K V × List Nat} {fs : FT K V} (h : Rel z s fs) (cmp : Compare K) (a : Act K V) :
    actAns cmp s a = .panic .nilDeref ∨ ∃ s', actAns cmp s a = .ok ((fs.act cmp a).1, s') ∧ Rel z s' (fs.act cmp a).2 := by
  cases a with
  | call c => exact step_exact h cmp c
  | setKey n k => exact .inr (write_exact h n (fun e => (k, e.2)) _ (fun _ _ => rfl))
  | setValue n v => exact .inr (write_exact h n (fun e => (e.1, v)) _ (fun _ _ => rfl))
  | heldKey j k => exact .inr (writeHeld_exact h j (fun e => (k, e.2)) (fun m q => RBTree.setKey m q k) (fun _ _ => rfl))
  | heldValue j v => exact .inr (writeHeld_exact h j (fun e => (e.1, v)) (fun m q => RBTree.setValue m q v) (fun _ _ => rfl))

theorem acts_exact {z : K × V} (cmp : Compare K) (as : List (Act K V)) {s : Tree K V × List Nat} {fs : FT K V} (h : Rel z s fs) :
    actsAns cmp s as = .panic .nilDeref ∨ ∃ s', actsAns cmp s as = .ok ((fs.acts cmp as).1, s') ∧ Rel z s' (fs.acts cmp as).2 := by
  induction as generalizing s fs with
  | nil => exact .inr ⟨s, rfl, h⟩
  | cons a as ih =>
    rw [actsAns, FT.acts]
    rcases act_exact h cmp a with e | ⟨s1, e, h1⟩
    · left; rw [e]; rfl
    · rw [e]
      rcases ih h1 with e2 | ⟨s2, e2, h2⟩
      · left; simp [e2]
      · right; exact ⟨s2, by simp [e2], h2⟩

/-- C119: every history of calls in which the user also rewrites keys and values of nodes, of those in the tree and of those that `Delete` returned
(to put them back with `PutNode`, say), with any comparator: the answers, the size, the entries in order, all lookups, and the entries of
the held nodes are those of the specification, or a call dereferences nil. -/
theorem handles_exact (cmp : Compare K) (z : K × V) (as : List (Act K V)) :
    actsAns cmp (new z, []) as = .panic .nilDeref ∨
    ∃ s, actsAns cmp (new z, []) as = .ok ((FT.acts cmp FT.empty as).1, s) ∧
      s.1.size = (FT.acts cmp FT.empty as).2.size ∧
      (∃ L, Navigable s.1.heap (s.1.heap.parent 0) L ∧ L.map s.1.heap.kv = (FT.acts cmp FT.empty as).2.tree.labels) ∧
      (∀ k, get cmp s.1 k = .ok ((FT.acts cmp FT.empty as).2.get cmp k)) ∧
      s.2.map s.1.heap.kv = (FT.acts cmp FT.empty as).2.held := by
  rcases acts_exact cmp as (rel_new z) with e | ⟨s, e, hR⟩
  · exact .inl e
  · have hR0 := hR
    obtain ⟨tr, U, ok, -, -, hp, hs, hh⟩ := hR
    exact .inr ⟨s, e, hs, ⟨tr.ids, ok.holds.navigable, by rw [← hp, labels_paint]⟩, fun k => (hR0.get cmp k).1, hh⟩

/-! ### Which node carries which entry -/

/-- C119: what `Delete(k)` does to the nodes, after any such history: it finds a node `i`.  If `i` lacks a child, `i` leaves the tree and every other node
keeps its place and its entry.  If it has two, the NEXT node leaves the tree, and `i` stays and carries the next node's entry from now on; every other
node keeps its place and its entry. -/
theorem delete_nodes (cmp : Compare K) (z : K × V) (as : List (Act K V)) {o : List (Ans K V)} {s : Tree K V × List Nat} (e : actsAns cmp (new z, []) as = .ok (o, s))
    {L : List Nat} (hL : Navigable s.1.heap (s.1.heap.parent 0) L) (k : K) {rm : Nat} {t' : Tree K V} (hd : delete cmp s.1 k = .ok (some rm, t')) :
    ∃ A i B L', L = A ++ i :: B ∧ search cmp s.1.heap k = .ok (some i) ∧ Navigable t'.heap (t'.heap.parent 0) L' ∧
      (((s.1.heap.left i = none ∨ s.1.heap.right i = none) ∧ rm = i ∧ L' = A ++ B ∧ ∀ j, t'.heap.kv j = s.1.heap.kv j) ∨
       ((s.1.heap.left i ≠ none ∧ s.1.heap.right i ≠ none) ∧ ∃ B', B = rm :: B' ∧ L' = A ++ i :: B' ∧
          ∀ j, t'.heap.kv j = if j = i then s.1.heap.kv rm else s.1.heap.kv j)) := by
  rcases acts_exact cmp as (rel_new z) with e' | ⟨s1, e', hR⟩
  · rw [e] at e'; cases e'
  rw [e] at e'
  simp only [Res.ok.injEq, Prod.mk.injEq] at e'
  obtain ⟨-, rfl⟩ := e'
  obtain ⟨tr, U, ok, -⟩ := hR
  obtain rfl := hL.unique ok.holds.navigable
  rcases search_any ok cmp k with ⟨i, hi, hs⟩ | hs
  · obtain ⟨A, B, hab⟩ := List.append_of_mem hi
    rcases removeNode_spec ok hab cmp with ⟨_, _, e1⟩ | ⟨_, rm', t1, tr', e1, R⟩
    · rw [delete, hs] at hd
      simp only [Res.bind_ok, e1] at hd
      cases hd
    · have hd' : delete cmp s.1 k = .ok (some rm', t1) := by rw [delete, hs]; exact e1
      rw [hd'] at hd
      simp only [Res.ok.injEq, Prod.mk.injEq, Option.some.injEq] at hd
      obtain ⟨rfl, rfl⟩ := hd
      refine ⟨A, i, B, tr'.ids, hab, hs, R.ok.holds.navigable, ?_⟩
      have hw := R.which
      by_cases hri : rm' = i
      · left
        refine ⟨hw.1 hri, hri, ?_, fun j => ?_⟩
        · rcases R.ids with ⟨-, h⟩ | ⟨-, B', hB, -⟩
          · exact h
          · exfalso
            have := ok.holds.nodup
            rw [hab, hB, hri] at this
            simp [List.nodup_append] at this
        · rw [R.kv j]; split
          · next h => rw [h, hri]
          · rfl
      · right
        refine ⟨not_or.1 (fun h => hri (hw.2 h)), ?_⟩
        rcases R.ids with ⟨h, -⟩ | ⟨-, B', hB, hB'⟩
        · exact absurd h hri
        · exact ⟨B', hB, hB', R.kv⟩
  · rw [delete, hs] at hd
    simp at hd

/-- C119: what `Put(k, v)` does to the nodes, after any such history: a stored key changes the value of its node and nothing else; a new one adds a
node behind the node `i` at which the search left the tree; the right child of `i`, if there is one, leaves the tree; every other node keeps its place
and its entry. -/
theorem put_nodes (cmp : Compare K) (z : K × V) (as : List (Act K V)) {o : List (Ans K V)} {s : Tree K V × List Nat} (e : actsAns cmp (new z, []) as = .ok (o, s))
    {L : List Nat} (hL : Navigable s.1.heap (s.1.heap.parent 0) L) (k : K) (v : V) :
    ∃ b t' L', put cmp s.1 k v = .ok (b, t') ∧ Navigable t'.heap (t'.heap.parent 0) L' ∧
      ((∃ i ∈ L, search cmp s.1.heap k = .ok (some i) ∧ b = false ∧ L' = L ∧ ∀ j, t'.heap.kv j = if j = i then ((s.1.heap.kv i).1, v) else s.1.heap.kv j) ∨
       (search cmp s.1.heap k = .ok none ∧ b = true ∧ ∃ n, n ∉ L ∧ n ∉ s.2 ∧ (∀ j, t'.heap.kv j = if j = n then (k, v) else s.1.heap.kv j) ∧
          ((L = [] ∧ L' = [n]) ∨
           ∃ A i B, L = A ++ i :: ((s.1.heap.right i).toList ++ B) ∧ L' = A ++ i :: n :: B ∧
            (∃ r, s.1.heap.parent 0 = some r ∧ Leaves cmp s.1.heap k r i)))) := by
  rcases acts_exact cmp as (rel_new z) with e' | ⟨s1, e', hR⟩
  · rw [e] at e'; cases e'
  rw [e] at e'
  simp only [Res.ok.injEq, Prod.mk.injEq] at e'
  obtain ⟨-, rfl⟩ := e'
  obtain ⟨tr, U, h, -, ho, -⟩ := hR
  obtain rfl := hL.unique h.holds.navigable
  have hroot := h.holds.root
  rcases descend_exact cmp k tr .top h.holds with ⟨i, hi, e, es⟩ | ⟨es, ⟨rfl, e⟩ | ⟨c, l, r, i, rfl, hlr, ⟨o, hor, lv⟩, e⟩⟩
  · refine ⟨false, { s.1 with heap := rekv s.1.heap i ((s.1.heap.kv i).1, v) }, tr.ids, ?_, (h.rekv (h.holds.pos i hi) _).holds.navigable,
      .inl ⟨i, hi, ?_, rfl, rfl, fun _ => rfl⟩⟩
    · rw [put, putInner, hroot]; simp only [Ctx.par] at e; rw [e]; rfl
    · rw [search, hroot]; exact es
  · obtain ⟨n, t', e', hn, ok', hsz, hkv, hl, -⟩ := insertAt_empty h k v
    refine ⟨true, { t' with size := t'.size + 1 }, [n], ?_, ok'.holds.navigable,
      .inr ⟨?_, rfl, n, by simp [T.ids], fun hh => hn (ho n hh).1, hkv, .inl ⟨rfl, rfl⟩⟩⟩
    · have : putInner cmp s.1 k v = .ok (true, t') := by rw [putInner, hroot]; simp only [Ctx.par] at e; rw [e]; exact e'
      rw [put, this]; rfl
    · rw [search, hroot]; exact es
  · have hlr' : l = .nil ∨ r = .nil := by rcases hlr with h | h <;> [exact .inl h.1; exact .inr h.1]
    obtain ⟨n, t', tr', e', hn, ok', hsz, hids, hkv, hl, -⟩ := insertAt_spec h hlr' k v
    obtain ⟨-, -, h2, h3, -⟩ := h.holds.split
    refine ⟨true, { t' with size := t'.size + 1 }, tr'.ids, ?_, ok'.holds.navigable,
      .inr ⟨?_, rfl, n, fun hh => hn (h.sub n hh), fun hh => hn (ho n hh).1, hkv, .inr ⟨c.before ++ l.ids, i, c.after, ?_, by rw [hids], ?_⟩⟩⟩
    · have : putInner cmp s.1 k v = .ok (true, t') := by rw [putInner, hroot]; simp only [Ctx.par, Ctx.plug] at e; rw [e]; exact e'
      rw [put, this]; rfl
    · rw [search, hroot]; exact es
    · have : r.ids = (s.1.heap.right i).toList := by
        rw [h3]
        rcases hlr with ⟨rfl, -⟩ | ⟨rfl, -⟩
        · exact right_small h.rb
        · rfl
      rw [ids_plug, ← this]; simp [T.ids]
    · exact ⟨o, by rw [hroot, hor], lv⟩

/-! ### What one would like, and what happens -/

/-- What one would like: a node of the tree stays in the tree and keeps its entry while other keys are deleted. -/
def NodeStays : Prop := ∀ (as : List (Act Int Int)) (o : List (Ans Int Int)) (s : Tree Int Int × List Nat) (i : Nat) (k : Int) (rm : Option Nat) (t' : Tree Int Int),
  actsAns Fn.comp (new ((0 : Int), (0 : Int)), []) as = .ok (o, s) → Below s.1.heap (s.1.heap.parent 0) i → (s.1.heap.kv i).1 ≠ k →
  delete Fn.comp s.1 k = .ok (rm, t') → Below t'.heap (t'.heap.parent 0) i ∧ t'.heap.kv i = s.1.heap.kv i

/-- `a := LeftMost().Next(); b := a.Next()` (nodes number 1 and 2); `Delete(k)`; then `a.GetKey()`, `b.GetKey()`; then `b.SetValue(x)` and
`Get(k')`. -/
def heldNodes (as : List (Act Int Int)) (k k' x : Int) : Res (Int × Int × Option Int) := do
  let (_, s) ← actsAns Fn.comp (new ((0 : Int), (0 : Int)), []) as
  let a ← nodeAt s.1.heap 1
  let b ← nodeAt s.1.heap 2
  let (_, t) ← delete Fn.comp s.1 k
  let ea ← entryAt t.heap a
  let eb ← entryAt t.heap b
  let m ← setValue t.heap b x
  let g ← get Fn.comp { t with heap := m } k'
  pure (ea.1, eb.1, g)

/-- C119: Put 1, 2, 3; Delete 2: the node of 2 has become the node of 3, and what is written to the old node of 3 is not seen: Get 3 is still 30. -/
theorem held_node_lost : heldNodes [.call (.put 1 10), .call (.put 2 20), .call (.put 3 30)] 2 3 99 = .ok (3, 3, some 30) := by cbv

set_option maxHeartbeats 1000000 in
theorem nodeStays_refuted : ¬ NodeStays := by
  intro h
  have e : chk (actsAns Fn.comp (new ((0 : Int), (0 : Int)), []) [.call (.put 1 10), .call (.put 2 20), .call (.put 3 30)]) (fun r =>
    chk (delete Fn.comp r.2.1 2) (fun d => d.1.isSome && (r.2.1.heap.kv (d.1.getD 0)).1 == 3 && chk (search Fn.comp r.2.1.heap 2) (fun i => i != d.1))) = true := by cbv
  obtain ⟨⟨o, s⟩, e1, e⟩ := chk_ok e
  obtain ⟨⟨rm, t'⟩, e2, e⟩ := chk_ok e
  simp only [Bool.and_eq_true, beq_iff_eq] at e
  obtain ⟨⟨h1, h2⟩, h3⟩ := e
  obtain ⟨i, e3, h3⟩ := chk_ok h3
  cases rm with
  | none => cases h1
  | some rm =>
    rcases acts_exact Fn.comp _ (rel_new ((0 : Int), (0 : Int))) with e' | ⟨s1, e', hR⟩
    · rw [e1] at e'; cases e'
    rw [e1] at e'
    simp only [Res.ok.injEq, Prod.mk.injEq] at e'
    obtain ⟨-, rfl⟩ := e'
    obtain ⟨tr, U, ok, -⟩ := hR
    have nav := ok.holds.navigable
    obtain ⟨A, j, B, L', h4, h5, h6, h7⟩ := delete_nodes Fn.comp _ _ e1 nav 2 e2
    rw [h5] at e3
    cases e3
    rcases h7 with ⟨-, h8, -⟩ | ⟨-, B', rfl, h8, -⟩
    · rw [h8] at h3; simp at h3
    · have hb : rm ∈ tr.ids := by rw [h4]; simp
      have hne : (s.1.heap.kv rm).1 ≠ 2 := by
        simp only [Option.getD_some] at h2
        rw [h2]; decide
      have := (h _ o s rm 2 (some rm) t' e1 ((nav.mem rm).1 hb) hne e2).1
      have := (h6.mem rm).2 this
      have hn := nav.nodup
      rw [h4] at hn
      rw [h8] at this
      simp only [List.nodup_append, List.nodup_cons, List.mem_cons, List.mem_append] at hn this
      grind

/-- C119, the part of `NodeStays` that holds, for every comparator, after every history: deleting a key whose node lacks a child leaves every other node
in the tree, with its entry. -/
theorem nodeStays_partial (cmp : Compare K) (z : K × V) (as : List (Act K V)) {o : List (Ans K V)} {s : Tree K V × List Nat}
    (e : actsAns cmp (new z, []) as = .ok (o, s)) (k : K) {rm : Option Nat} {t' : Tree K V} (hd : delete cmp s.1 k = .ok (rm, t')) {i : Nat}
    (hi : Below s.1.heap (s.1.heap.parent 0) i)
    (hk : ∀ j, search cmp s.1.heap k = .ok (some j) → j ≠ i ∧ (s.1.heap.left j = none ∨ s.1.heap.right j = none)) :
    Below t'.heap (t'.heap.parent 0) i ∧ t'.heap.kv i = s.1.heap.kv i := by
  rcases acts_exact cmp as (rel_new z) with e' | ⟨s1, e', hR⟩
  · rw [e] at e'; cases e'
  have e2 := e'
  rw [e] at e'
  simp only [Res.ok.injEq, Prod.mk.injEq] at e'
  obtain ⟨-, rfl⟩ := e'
  obtain ⟨tr, U, ok, -⟩ := hR
  have nav := ok.holds.navigable
  cases rm with
  | none =>
    rcases delete_exact ok cmp k with h | ⟨h, -⟩ | ⟨_, _, _, h, -⟩ <;> rw [hd] at h <;> cases h
    exact ⟨hi, rfl⟩
  | some rm =>
    obtain ⟨A, j, B, L', h1, h2, h3, h4⟩ := delete_nodes cmp z as e nav k hd
    obtain ⟨hji, hch⟩ := hk j h2
    rcases h4 with ⟨-, -, h5, h6⟩ | ⟨⟨h5, h6⟩, -⟩
    · refine ⟨(h3.mem i).1 ?_, h6 i⟩
      have := (nav.mem i).2 hi
      rw [h1] at this
      rw [h5]
      simp only [List.mem_append, List.mem_cons] at this ⊢
      rcases this with h | h | h
      · exact .inl h
      · exact absurd h.symm hji
      · exact .inr h
    · rcases hch with h | h
      · exact absurd h h5
      · exact absurd h h6

/-- A non-trivial history: a node's value and key are rewritten (4 becomes 6, in order), a deleted node gets another key and is put back. -/
def showActs : List (Act Int Int) :=
  [.call (.put 1 10), .call (.put 2 20), .call (.put 3 30), .call (.put 4 40), .setValue 3 44, .setKey 3 6, .setKey 9 0, .call (.get 6), .call (.get 4), .call (.delete 6),
    .heldKey 0 7, .heldValue 0 70, .call (.putNode 0), .call (.get 7), .call .size, .heldKey 0 1]

example : (FT.acts (Fn.comp (T := Int)) FT.empty showActs).1 =
    [.bool true, .bool true, .bool true, .bool true, .bool true, .bool true, .bool false, .value (some 44), .value none, .entry (some (6, 44)),
      .bool true, .bool true, .bool true, .value (some 70), .number 3, .bool false] := by decide +kernel

example : ∃ s, actsAns (Fn.comp (T := Int)) (new ((0 : Int), (0 : Int)), []) showActs = .ok ((FT.acts (Fn.comp (T := Int)) FT.empty showActs).1, s) := by
  rcases handles_exact (Fn.comp (T := Int)) (0, 0) showActs with h | ⟨s, h, -⟩
  · exfalso
    have : chk (actsAns (Fn.comp (T := Int)) (new ((0 : Int), (0 : Int)), []) showActs) (fun _ => true) = true := by cbv
    rw [h] at this
    cases this
  · exact ⟨s, h⟩

end Gds.RBTree
