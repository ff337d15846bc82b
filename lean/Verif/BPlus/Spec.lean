import Verif.BPlus.Model

/-! What is claimed about B+ trees, independently of the proofs. -/

namespace Gds.BPlus
variable {K V : Type}

/-- The subtree at `p` has uniform depth `d`, its leaves are `l` from left to right, and `ss` are the separators of its inner
    nodes; every node has at most `2M-1` values and every node below `p` has at least `M-1`. -/
inductive Sub (h : Heap K V) (M : Nat) : Nat → Nat → List Nat → List (K × V) → Prop
  | leaf {p : Nat} : h.isLeaf p = true → h.num p ≤ 2 * M - 1 → Sub h M 0 p [p] []
  | inner {d p : Nat} (c : Nat → Nat) (l : Nat → List Nat) (ss : Nat → List (K × V)) : h.isLeaf p = false → h.num p ≤ 2 * M - 1 →
      (∀ i, i ≤ h.num p → h.children p i = some (c i) ∧ M - 1 ≤ h.num (c i)) → (∀ i, i ≤ h.num p → Sub h M d (c i) (l i) (ss i)) →
      Sub h M (d + 1) p ((List.range (h.num p + 1)).flatMap l)
        ((List.range (h.num p)).map (h.values p) ++ (List.range (h.num p + 1)).flatMap ss)

/-- The entries of the leaves `l`, from left to right. -/
def contents (h : Heap K V) (l : List Nat) : List (K × V) := l.flatMap (fun p => (List.range (h.num p)).map (h.values p))

/-- The tree is well formed: depth `d`, leaves `l`, entries `es`, separators `ss`. -/
structure Holds (t : Tree K V) (d : Nat) (l : List Nat) (es ss : List (K × V)) : Prop where
  /-- all leaves are at depth `d`; every node but the root has `degree-1 … 2*degree-1` values -/
  shape : ∃ p, t.root = some p ∧ Sub t.h t.degree d p l ss ∧ (d ≠ 0 → 1 ≤ t.h.num p)
  /-- no leaf is listed twice -/
  nodup : l.Nodup
  /-- the leaves are linked into a ring, in both directions -/
  ring : ∀ i (_ : i < l.length), t.h.next l[i] = some (l[(i + 1) % l.length]'(Nat.mod_lt _ (by omega))) ∧
    t.h.prev (l[(i + 1) % l.length]'(Nat.mod_lt _ (by omega))) = some l[i]
  /-- `LeftMost` and `RightMost` are the two ends -/
  left : ∃ p, leftMost t = .ok (some p) ∧ l.head? = some p
  right : ∃ p, rightMost t = .ok (some p) ∧ l.getLast? = some p
  /-- what the leaves hold -/
  entries : es = contents t.h l
  /-- the size field is their number -/
  size : t.size = (es.length : Int)
  /-- `Size` answers their number, and `IsEmpty` whether there are any -/
  observers : sizeOf t = (es.length : Int) ∧ (isEmpty t = true ↔ es = [])

/-- Keys never decrease from left to right. -/
def Ascending (cmp : Compare K) (es : List (K × V)) : Prop := es.Pairwise (fun x y => cmp x.1 y.1 ≤ 0)

/-- `ys` is `xs` with the entry `e` put in somewhere. -/
def Added (e : K × V) (xs ys : List (K × V)) : Prop := ∃ P S, xs = P ++ S ∧ ys = P ++ e :: S

/-- `ys` is `xs`, except that at most one entry has been overwritten with a copy of its left neighbour. -/
def Smear (xs ys : List (K × V)) : Prop := ys = xs ∨ ∃ P x y S, xs = P ++ x :: y :: S ∧ ys = P ++ x :: x :: S

/-- `ys` is `xs` without at most one entry, and the key of that entry is equal to `key` or smaller. -/
def Drop1 (cmp : Compare K) (key : K) (xs ys : List (K × V)) : Prop :=
  ys = xs ∨ ∃ P e S, xs = P ++ e :: S ∧ ys = P ++ S ∧ (cmp key e.1 = 0 ∨ cmp e.1 key < 0)

/-- What `Delete` may do to the entries at worst: overwrite one with a copy of its left neighbour, then remove one. -/
def Damage (cmp : Compare K) (key : K) (xs ys : List (K × V)) : Prop := ∃ ms, Smear xs ms ∧ Drop1 cmp key ms ys

variable [Inhabited K] [Inhabited V]

/-- The calls that change a tree. -/
inductive Op (K V : Type) where
  | insertEqual (k : K) (v : V)
  | insertUnique (k : K) (v : V)
  | delete (k : K)
  | deleteEntryByKey (e : K × V)
  | deleteByWholeMapping (k : K) (v : V) (compV : Compare V)
  | deleteAll (ks : List K)
  | clear

/-- What a call answers. -/
inductive Out where
  | bool (b : Bool)
  | num (n : Nat)
  | unit
  deriving DecidableEq

/-- One call. -/
def step (cmp : Compare K) (t : Tree K V) : Op K V → Res (Tree K V × Out)
  | .insertEqual k v => do let (t, b) ← insertEqual cmp t k v; .ok (t, .bool b)
  | .insertUnique k v => do let (t, b) ← insertUnique cmp t k v; .ok (t, .bool b)
  | .delete k => do let (t, b) ← delete cmp t k; .ok (t, .bool b)
  | .deleteEntryByKey e => do let (t, b) ← deleteEntryByKey cmp t e; .ok (t, .bool b)
  | .deleteByWholeMapping k v c => do let (t, b) ← deleteByWholeMapping cmp t k v c; .ok (t, .bool b)
  | .deleteAll ks => do let (t, n) ← deleteAll cmp t 0 ks; .ok (t, .num n)
  | .clear => .ok (clear t, .unit)

/-- A history of calls: the tree and all answers. -/
def run (cmp : Compare K) (t : Tree K V) : List (Op K V) → Res (Tree K V × List Out)
  | [] => .ok (t, [])
  | op :: ops => do
    let (t, o) ← step cmp t op
    let (t, os) ← run cmp t ops
    .ok (t, o :: os)

/-- Deleting the keys one after the other; `n` of them were there. -/
inductive DelAll (cmp : Compare K) : List K → Nat → List (K × V) → List (K × V) → Prop
  | nil (es : List (K × V)) : DelAll cmp [] 0 es es
  | hit {k : K} {ks : List K} {n : Nat} {e : K × V} {es es1 es2 : List (K × V)} : cmp k e.1 = 0 → es.Perm (e :: es1) →
      DelAll cmp ks n es1 es2 → DelAll cmp (k :: ks) (n + 1) es es2
  | miss {k : K} {ks : List K} {n : Nat} {es es2 : List (K × V)} : (∀ e ∈ es, cmp k e.1 ≠ 0) →
      DelAll cmp ks n es es2 → DelAll cmp (k :: ks) n es es2

/-- What a call should answer and do to the entries of a sorted multimap. -/
def Effect (cmp : Compare K) : Op K V → Out → List (K × V) → List (K × V) → Prop
  | .insertEqual k v, o, es, es' => o = .bool true ∧ es'.Perm ((k, v) :: es)
  | .insertUnique k v, o, es, es' => (o = .bool true ∧ (∀ e ∈ es, cmp k e.1 ≠ 0) ∧ es'.Perm ((k, v) :: es)) ∨
      (o = .bool false ∧ (∃ e ∈ es, cmp k e.1 = 0) ∧ es' = es)
  | .delete k, o, es, es' => (o = .bool true ∧ ∃ e, cmp k e.1 = 0 ∧ es.Perm (e :: es')) ∨
      (o = .bool false ∧ (∀ e ∈ es, cmp k e.1 ≠ 0) ∧ es' = es)
  | .deleteEntryByKey x, o, es, es' => (o = .bool true ∧ ∃ e, cmp x.1 e.1 = 0 ∧ es.Perm (e :: es')) ∨
      (o = .bool false ∧ (∀ e ∈ es, cmp x.1 e.1 ≠ 0) ∧ es' = es)
  | .deleteByWholeMapping k v c, o, es, es' => (o = .bool true ∧ ∃ e, cmp k e.1 = 0 ∧ c e.2 v = 0 ∧ es.Perm (e :: es')) ∨
      (o = .bool false ∧ (∀ e ∈ es, ¬ (cmp k e.1 = 0 ∧ c e.2 v = 0)) ∧ es' = es)
  | .deleteAll ks, o, es, es' => ∃ n, o = .num n ∧ DelAll cmp ks n es es'
  | .clear, o, _, es' => o = .unit ∧ es' = []

/-- A history of calls on a sorted multimap. -/
inductive Trace (cmp : Compare K) : List (K × V) → List (Op K V) → List Out → List (K × V) → Prop
  | nil (es : List (K × V)) : Trace cmp es [] [] es
  | cons {op : Op K V} {ops : List (Op K V)} {o : Out} {os : List Out} {es es1 es2 : List (K × V)} : Effect cmp op o es es1 →
      Trace cmp es1 ops os es2 → Trace cmp es (op :: ops) (o :: os) es2

/-- Deleting the keys one after the other, at worst; `n` of the calls answered true. -/
inductive WorstAll (cmp : Compare K) : List K → Nat → List (K × V) → List (K × V) → Prop
  | nil (es : List (K × V)) : WorstAll cmp [] 0 es es
  | hit {k : K} {ks : List K} {n : Nat} {es es1 es2 : List (K × V)} : (∃ e ∈ es, cmp k e.1 = 0) → Damage cmp k es es1 →
      WorstAll cmp ks n es1 es2 → WorstAll cmp (k :: ks) (n + 1) es es2
  | miss {k : K} {ks : List K} {n : Nat} {es es2 : List (K × V)} : WorstAll cmp ks n es es2 → WorstAll cmp (k :: ks) n es es2

/-- What a call does to the entries at worst.  Answering false changes nothing. -/
def Worst (cmp : Compare K) : Op K V → Out → List (K × V) → List (K × V) → Prop
  | .insertEqual k v, o, es, es' => o = .bool true ∧ Added (k, v) es es'
  | .insertUnique k v, o, es, es' => (o = .bool true ∧ Added (k, v) es es') ∨ (o = .bool false ∧ (∃ e ∈ es, cmp k e.1 = 0) ∧ es' = es)
  | .delete k, o, es, es' => (o = .bool true ∧ (∃ e ∈ es, cmp k e.1 = 0) ∧ Damage cmp k es es') ∨ (o = .bool false ∧ es' = es)
  | .deleteEntryByKey x, o, es, es' => (o = .bool true ∧ (∃ e ∈ es, cmp x.1 e.1 = 0) ∧ Damage cmp x.1 es es') ∨ (o = .bool false ∧ es' = es)
  | .deleteByWholeMapping k v c, o, es, es' =>
      (o = .bool true ∧ (∃ e ∈ es, cmp k e.1 = 0 ∧ c e.2 v < 0) ∧ Damage cmp k es es') ∨ (o = .bool false ∧ es' = es)
  | .deleteAll ks, o, es, es' => ∃ n, o = .num n ∧ WorstAll cmp ks n es es'
  | .clear, o, _, es' => o = .unit ∧ es' = []

/-- A history of calls, at worst. -/
inductive WorstTrace (cmp : Compare K) : List (K × V) → List (Op K V) → List Out → List (K × V) → Prop
  | nil (es : List (K × V)) : WorstTrace cmp es [] [] es
  | cons {op : Op K V} {ops : List (Op K V)} {o : Out} {os : List Out} {es es1 es2 : List (K × V)} : Worst cmp op o es es1 →
      WorstTrace cmp es1 ops os es2 → WorstTrace cmp es (op :: ops) (o :: os) es2

/-- The entries handed to the insertions of a history. -/
def offered : List (Op K V) → List (K × V)
  | [] => []
  | .insertEqual k v :: ops => (k, v) :: offered ops
  | .insertUnique k v :: ops => (k, v) :: offered ops
  | _ :: ops => offered ops

/-- How many deletions answered true in one call. -/
def hits : Op K V → Out → Nat
  | .delete _, .bool true => 1
  | .deleteEntryByKey _, .bool true => 1
  | .deleteByWholeMapping _ _ _, .bool true => 1
  | .deleteAll _, .num n => n
  | _, _ => 0

/-- How many deletions answered true in a history. -/
def totalHits : List (Op K V) → List Out → Nat
  | op :: ops, o :: os => hits op o + totalHits ops os
  | _, _ => 0

/-- A history on a new map. -/
def runNew (cmp : Compare K) (M : Nat) (ops : List (Op K V)) : Res (Tree K V × List Out) := do
  let t ← newMap M
  run cmp t ops

end Gds.BPlus
