import Verif.BPlus.HistExact
import Verif.RBTree.Exact
import Verif.RBTree.Break
import Verif.SkipList.Rows

/-! C120: `Init` on a map that is in use: with another comparator (and degree), everything then answers as on a new map. -/

namespace Gds.BPlus
open BT Tree
variable {K V : Type} [Inhabited K] [Inhabited V]

/-- bplustree.go:30-37 `Init`, on any map (39-47 `NewNode`; `make` with a negative length panics).  The comparator is an argument of the calls. -/
def reinit (t : Tree K V) (degree : Nat) : Res (Tree K V) := do
  if degree = 0 then .panic .sliceBounds
  else
    let r := t.fresh
    let t := newNode t
    let t := { t with root := some r, size := 0, degree := degree }
    let t ← t.setPrev t.root t.root
    t.setNext t.root t.root

/-- A new map is `Init` on a zeroed one. -/
theorem newMap_reinit (degree : Nat) : (newMap degree : Res (Tree K V)) = reinit { h := { prev := fun _ => none, next := fun _ => none, values := fun _ _ => default, children := fun _ _ => none, num := fun _ => 0, isLeaf := fun _ => false }, fresh := 0, root := none, size := 0, degree := 0 } degree := rfl

theorem reinit_shows (t : Tree K V) {M : Nat} (hM : 2 ≤ M) : ∃ t', reinit t M = .ok t' ∧ t'.degree = M ∧ Shows t' FMap.new := by
  have h0 : M ≠ 0 := by omega
  simp only [reinit, h0, if_false, setPrev, setNext, newNode, Res.bind_ok]
  refine ⟨_, rfl, rfl, ?_⟩
  refine (?_ : ∀ t', Good t' (leaf t.fresh []) → view t'.h 0 t.fresh = (⟨fun _ => default, 0⟩ : FLeaf (K × V)) → Shows t' FMap.new) _ ?_ ?_
  · intro t' g hv
    have := Shows.live (leaf t.fresh []) g
    simp only [leaf_ptr, hv] at this
    exact this
  · constructor
    · rfl
    · constructor
      · exact (rep_leaf _ _ _).2 ⟨by simp, by simp, by intro i hi; simp at hi, by simp⟩
      · simp
      · simp
      · exact hM
      · simp
      · simp [Ring]
      · simp
      · simp
    · simp
    · simp
    · simp
  · simp [view]; rfl

/-- C120 (B+ tree): whatever state `t` the map is in — after any history, after `Clear`, even after a call that panicked half-way —, `Init` with a degree
`M ≥ 2` returns, and every history after it, with any comparator, is the one of a new map of that degree. -/
theorem init_new (t : Tree K V) (cmp : Compare K) (M : Nat) (hM : 2 ≤ M) (ops : List (Op K V)) :
    ∃ t0, reinit t M = .ok t0 ∧
    match FMap.run cmp M FMap.new ops with
    | none => run cmp t0 ops = .panic .indexOutOfRange
    | some (m, outs) => ∃ t', run cmp t0 ops = .ok (t', outs) ∧ sizeOf t' = (m.entries.length : Int) ∧ isEmpty t' = m.entries.isEmpty ∧
        (∀ key, Reads cmp t' key (FMap.find cmp key m)) := by
  obtain ⟨t0, e0, hd, s⟩ := reinit_shows t hM
  refine ⟨t0, e0, ?_⟩
  rcases run_view cmp ops t0 FMap.new s with ⟨h1, h2⟩ | ⟨t', m', os, h1, h2, h3, -⟩
  · rw [hd] at h1
    rw [h1]
    exact h2
  · rw [hd] at h1
    rw [h1]
    obtain ⟨a, b, -, -⟩ := h3.observed
    exact ⟨t', h2, a, b, fun key => h3.reads key⟩

/-- A map that `Clear` has made useless (C66) works again after `Init`. -/
example : (newMap (K := Nat) (V := Nat) 3 >>= fun t => run (Fn.comp (T := Nat)) t [.insertUnique 1 10, .clear, .insertUnique 2 20] >>= fun r =>
    get (Fn.comp (T := Nat)) r.1 2 >>= fun a => reinit r.1 2 >>= fun t => run (Fn.comp (T := Nat)) t [.insertUnique 2 20, .insertUnique 1 10] >>= fun r =>
    get (Fn.comp (T := Nat)) r.1 2 >>= fun b => .ok (a, b, r.2)) = .ok (0, 20, [.bool true, .bool true]) := by cbv

end Gds.BPlus

namespace Gds.RBTree
variable {K V : Type}

/-- redblacktree.go:31-38 `Init`, on any tree (node_buffer.go:22-27 for the buffer).  The comparator is an argument of the calls. -/
def reinit (t : Tree K V) : Tree K V :=
  let m : Heap K V := { t.heap with
      parent := fun j => if j = 0 then none else t.heap.parent j
      right := fun j => if j = 0 then some 0 else t.heap.right j
      left := fun j => if j = 0 then some 0 else t.heap.left j }
  let r := t.buf.init m 16
  { heap := r.2, size := 0, buf := r.1 }

theorem reinit_rel {z : K × V} {s : Tree K V × List Nat} {fs : FT K V} (h : Rel z s fs) :
    Rel z (reinit s.1, s.2) { fs with tree := .nil, size := 0 } := by
  obtain ⟨tr, U, ok, hn, ho, hp, hsz, hh⟩ := h
  obtain ⟨FL, hb⟩ := ok.buf
  refine ⟨.nil, U, ⟨⟨?_, trivial, by simp [T.ids], by simp [T.ids]⟩, rb_nil _, ⟨[], ?_⟩, by simp [T.ids], ok.zero⟩, hn, fun o hoH => ⟨(ho o hoH).1, by simp [T.ids]⟩, rfl, rfl, hh⟩
  · simp [reinit, Buf.init]
  · have h1 := hb.inside
    have h2 := hb.base
    have h3 := hb.cursor
    refine ⟨?_, ?_, ?_, ?_, ?_, by simp, ?_, ?_, by simp⟩ <;> simp only [reinit, Buf.init, Buf.fillNew] <;> try omega
    · simp [Chain]
    · simp
    · intro u hu
      obtain ⟨a, b, c, d⟩ := hb.used u hu
      exact ⟨a, by omega, by omega, by simp⟩

/-- Lives of a tree: histories, each with its own comparator, with `Init` between them. -/
def runLives (s : Tree K V × List Nat) : List (Compare K × List (Call K V)) → Res (List (List (Ans K V)) × Tree K V × List Nat)
  | [] => pure ([], s)
  | (cmp, cs) :: rest => do
    let (a, s) ← runAns cmp s cs
    let (as, s) ← runLives (reinit s.1, s.2) rest
    pure (a :: as, s)

/-- The same in the specification: each life begins with an empty tree; the records that `Delete` returned stay in the user's hands. -/
def FT.lives (s : FT K V) : List (Compare K × List (Call K V)) → List (List (Ans K V))
  | [] => []
  | (cmp, cs) :: rest => (s.run cmp cs).1 :: FT.lives { (s.run cmp cs).2 with tree := .nil, size := 0 } rest

theorem lives_rel {z : K × V} : ∀ (ls : List (Compare K × List (Call K V))) {s : Tree K V × List Nat} {fs : FT K V}, Rel z s fs →
    runLives s ls = .panic .nilDeref ∨ ∃ s', runLives s ls = .ok (fs.lives ls, s')
  | [], s, fs, _ => .inr ⟨s, rfl⟩
  | (cmp, cs) :: rest, s, fs, h => by
    rw [runLives, FT.lives]
    rcases run_exact cmp cs h with e | ⟨s1, e, h1⟩
    · left; rw [e]; rfl
    · rw [e]
      rcases lives_rel rest (reinit_rel h1) with e2 | ⟨s2, e2⟩
      · left; simp [e2]
      · right; exact ⟨s2, by simp [e2]⟩

/-- C120 (red-black tree): histories with `Init` between them, each with its own comparator: every answer of every life is that of a new tree (with
the nodes that `Delete` returned in the earlier lives still in the user's hands, for `PutNode`), or a call dereferences nil. -/
theorem lives_exact (z : K × V) (ls : List (Compare K × List (Call K V))) :
    runLives (new z, []) ls = .panic .nilDeref ∨ ∃ s, runLives (new z, []) ls = .ok (FT.lives FT.empty ls, s) :=
  lives_rel ls (rel_new z)

/-- C120 (red-black tree): in particular a life that puts back no node answers as on a new tree, whatever the life before it was and whatever its
comparator. -/
theorem init_new (z : K × V) (cmp cmp' : Compare K) (cs cs' : List (Call K V)) (hp : ∀ j, .putNode j ∉ cs') {a : List (Ans K V)}
    {s : Tree K V × List Nat} (e : runAns cmp (new z, []) cs = .ok (a, s)) :
    runAns cmp' (reinit s.1, s.2) cs' = .panic .nilDeref ∨ ∃ s', runAns cmp' (reinit s.1, s.2) cs' = .ok ((FT.run cmp' FT.empty cs').1, s') := by
  have held : ∀ (cs : List (Call K V)) (fs gs : FT K V), (∀ j, .putNode j ∉ cs) → fs.tree = gs.tree → fs.size = gs.size →
      (FT.run cmp' fs cs).1 = (FT.run cmp' gs cs).1 := by
    intro cs
    induction cs with
    | nil => intros; rfl
    | cons c cs ih =>
      intro fs gs hp ht hs
      have hp' : ∀ j, .putNode j ∉ cs := fun j hj => hp j (List.mem_cons_of_mem _ hj)
      have key : ∀ ks (fs gs : FT K V), fs.tree = gs.tree → fs.size = gs.size → (delKeys cmp' ks fs).1 = (delKeys cmp' ks gs).1 ∧
          (delKeys cmp' ks fs).2.tree = (delKeys cmp' ks gs).2.tree ∧ (delKeys cmp' ks fs).2.size = (delKeys cmp' ks gs).2.size := by
        intro ks
        induction ks with
        | nil => intro fs gs h1 h2; exact ⟨rfl, h1, h2⟩
        | cons k ks ihk =>
          intro fs gs h1 h2
          rw [delKeys, delKeys, h1]
          rcases delTree cmp' k gs.tree with ⟨_ | x, y⟩
          · exact ihk fs gs h1 h2
          · obtain ⟨a1, a2, a3⟩ := ihk { fs with tree := y, size := fs.size - 1 } { gs with tree := y, size := gs.size - 1 } rfl (by simp [h2])
            exact ⟨by simp only [a1], a2, a3⟩
      have step : (fs.step cmp' c).1 = (gs.step cmp' c).1 ∧ (fs.step cmp' c).2.tree = (gs.step cmp' c).2.tree ∧ (fs.step cmp' c).2.size = (gs.step cmp' c).2.size := by
        cases c with
        | put k v => simp only [FT.step, ht, hs]; exact ⟨trivial, trivial, trivial⟩
        | get k => simp only [FT.step, FT.get, ht, hs]; exact ⟨trivial, trivial, trivial⟩
        | has k => simp only [FT.step, FT.get, ht, hs]; exact ⟨trivial, trivial, trivial⟩
        | size => simp only [FT.step, ht, hs]; exact ⟨trivial, trivial, trivial⟩
        | isEmpty => simp only [FT.step, ht, hs]; exact ⟨trivial, trivial, trivial⟩
        | delete k =>
          simp only [FT.step, ht]
          rcases delTree cmp' k gs.tree with ⟨_ | x, y⟩
          · exact ⟨rfl, ht, hs⟩
          · exact ⟨rfl, rfl, by simp [hs]⟩
        | deleteKeys ks =>
          obtain ⟨a1, a2, a3⟩ := key ks fs gs ht hs
          simp only [FT.step, a1]
          exact ⟨trivial, a2, a3⟩
        | deleteMapping k v vc =>
          simp only [FT.step, FT.get, ht]
          rcases (seek cmp' k [] gs.tree).2 with _ | ⟨b, l, e, r⟩
          · exact ⟨rfl, ht, hs⟩
          · simp only
            split
            · exact ⟨rfl, rfl, by simp [hs]⟩
            · exact ⟨rfl, ht, hs⟩
        | clear => exact ⟨rfl, rfl, rfl⟩
        | putNode j => exact absurd (List.mem_cons_self ..) (hp j)
      rw [FT.run, FT.run]
      simp only [step.1, ih _ _ hp' step.2.1 step.2.2]
  rcases run_exact cmp cs (rel_new z) with e' | ⟨s1, e', h1⟩
  · rw [e] at e'; cases e'
  rw [e] at e'
  simp only [Res.ok.injEq, Prod.mk.injEq] at e'
  obtain ⟨-, rfl⟩ := e'
  rcases run_exact cmp' cs' (reinit_rel h1) with e2 | ⟨s2, e2, -⟩
  · exact .inl e2
  · have hh := held cs' { (FT.run cmp FT.empty cs).2 with tree := .nil, size := 0 } FT.empty hp rfl rfl
    exact .inr ⟨s2, by rw [e2]; exact congrArg (fun x => Res.ok (x, s2)) hh⟩

/-- Three entries, a second life in descending order with one node of the first life put back. -/
example : FT.lives (K := Int) (V := Int) FT.empty [(Fn.comp, [.put 1 10, .put 2 20, .put 3 30, .delete 1]), (fun a b => Fn.comp b a, [.size, .get 2, .put 3 33, .put 2 22, .putNode 0, .get 1, .get 3])] =
    [[.bool true, .bool true, .bool true, .entry (some (1, 10))], [.number 0, .value none, .bool true, .bool true, .bool true, .value (some 10), .value (some 33)]] := by
  decide +kernel

set_option maxHeartbeats 1000000 in
example : chk (runLives (new ((0 : Int), (0 : Int)), []) [(Fn.comp, [.put 1 10, .put 2 20, .put 3 30, .delete 1]),
    (fun a b => Fn.comp b a, [.size, .get 2, .put 3 33, .put 2 22, .putNode 0, .get 1, .get 3])]) (fun r => r.1 ==
    [[.bool true, .bool true, .bool true, .entry (some (1, 10))], [.number 0, .value none, .bool true, .bool true, .bool true, .value (some 10), .value (some 33)]]) = true := by
  cbv

end Gds.RBTree

namespace Gds.SkipList
variable {K V : Type}

/-- C120 (skip list): whatever state `s` the list is in, `Init` makes it a list on which every history, with any comparator and any random numbers, gives exactly the
results it gives on a new one, and which then shows the same entries. -/
theorem init_new (s : St K V) (comp : Compare K) (zk : K) (zv : V) (ops : List (Op K V)) :
    ∃ s1 s2 outs, runAns comp zk zv (init zk zv s) ops = .ok (s1, outs) ∧ runAns comp zk zv (new zk zv) ops = .ok (s2, outs) ∧
      outs = (rowRun comp zk zv [] ops).2 ∧ Shows zv s1 (plain (rowRun comp zk zv [] ops).1) ∧ Shows zv s2 (plain (rowRun comp zk zv [] ops).1) ∧
      ∀ k, has comp s1 k = has comp s2 k ∧ get comp zv s1 k = get comp zv s2 k ∧ rank comp s1 k = rank comp s2 k := by
  obtain ⟨s1, e1, B1⟩ := run_row (comp := comp) ops (init_row (zk := zk) (zv := zv) s)
  obtain ⟨s2, e2, B2⟩ := run_row (comp := comp) ops (new_built zk zv)
  refine ⟨s1, s2, _, e1, e2, rfl, holds_shows B1.holds, holds_shows B2.holds, fun k => ?_⟩
  have h1 := lookup_exact comp B1 k
  have h2 := lookup_exact comp B2 k
  cases hs : seek comp k (top (rowRun comp zk zv [] ops).1) (start zk zv (rowRun comp zk zv [] ops).1) with
  | none => simp only [hs] at h1 h2; simp only [h1, h2]; simp
  | some c => simp only [hs] at h1 h2; simp only [h1, h2]; simp

end Gds.SkipList
