import Verif.LockFree.Model

/-!
What the lock-free skip list is supposed to be, in terms of the bottom level of the list only: the elements are the
unmarked nodes one meets when following the bottom pointers from the head.
-/

namespace Gds.LockFree
variable {T : Type _}

/-- The bottom pointer of `a` goes to `b` (marked or not). -/
def Nx (m : Mem T) (a b : Nat) : Prop := (m.next a 0).addr = some b
/-- The bottom pointer of `a` is marked: the node is deleted. -/
def Mk (m : Mem T) (a : Nat) : Prop := (m.next a 0).mark = true

/-- Following bottom pointers from `a` leads to `b`. -/
inductive Path (m : Mem T) : Nat → Nat → Prop where
  | refl (a : Nat) : Path m a a
  | step {a b c : Nat} : Nx m a b → Path m b c → Path m a c

/-- Node `a` holds an element of the set. -/
structure Live (m : Mem T) (a : Nat) : Prop where
  ne_head : a ≠ headA
  ne_tail : a ≠ tailA
  path : Path m headA a
  unmarked : ¬ Mk m a

/-- The set contains (a value equal to) `v`. -/
def Contains (cmp : Compare T) (m : Mem T) (v : T) : Prop := ∃ a, Live m a ∧ cmp (m.val a) v = 0

/-- Node `a` is before the place of `v`: the head is, the tail is not. -/
def Below (cmp : Compare T) (m : Mem T) (a : Nat) (v : T) : Prop :=
  a = headA ∨ (a ≠ tailA ∧ cmp (m.val a) v < 0)

/-- Node `a` is before node `b`: the head is first, the tail last, elements are ordered by value. -/
def Nlt (cmp : Compare T) (m : Mem T) (a b : Nat) : Prop :=
  a ≠ tailA ∧ b ≠ headA ∧ (a = headA ∨ b = tailA ∨ cmp (m.val a) (m.val b) < 0)

/-- `c` is the least element not below `v`, or the tail if there is none. -/
structure Ceil (cmp : Compare T) (m : Mem T) (v : T) (c : Nat) : Prop where
  elem : c = tailA ∨ Live m c
  ge : ¬ Below cmp m c v
  least : ∀ d, Live m d → ¬ Below cmp m d v → d ≠ c → Nlt cmp m c d

/-- The effect of a successful `Add(v)` on the set. -/
def Adds (cmp : Compare T) (m m' : Mem T) (v : T) : Prop :=
  ¬ Contains cmp m v ∧ ∀ w, Contains cmp m' w ↔ Contains cmp m w ∨ cmp v w = 0

/-- The effect of a successful `Del(v)` on the set. -/
def Removes (cmp : Compare T) (m m' : Mem T) (v : T) : Prop :=
  Contains cmp m v ∧ ∀ w, Contains cmp m' w ↔ Contains cmp m w ∧ cmp v w ≠ 0

/-- The set is the same before and after. -/
def Keeps (cmp : Compare T) (m m' : Mem T) : Prop := ∀ w, Contains cmp m' w ↔ Contains cmp m w

/-- The elements of the set in increasing order. -/
structure Elements (cmp : Compare T) (m : Mem T) (l : List T) : Prop where
  sorted : l.Pairwise fun a b => cmp a b < 0
  mem : ∀ v, Contains cmp m v ↔ ∃ w ∈ l, cmp w v = 0

/-- Following the pointers of level `l` from `a` leads through the nodes `P` to `b`. -/
def Walk (m : Mem T) (l : Nat) : Nat → List Nat → Nat → Prop
  | a, [], b => (m.next a l).addr = some b
  | a, c :: P, b => (m.next a l).addr = some c ∧ Walk m l c P b

/-! ### Results of calls in a run

`tr j` is the state at instant `j`, `lab j` the step from instant `j` to instant `j + 1`; the call considered has been
running since instant `i`, and now is instant `k`. -/

/-- No step of `t` between `i` and `k` changed the set. -/
def Unch (cmp : Compare T) (tr : Nat → St T) (lab : Nat → Label T) (t i k : Nat) : Prop :=
  ∀ j, i ≤ j → j < k → (lab j).tid = t → Keeps cmp (tr j).mem (tr (j + 1)).mem

/-- Exactly one step of `t` between `i` and `k` changed the set, as described by `E`. -/
def Lin (cmp : Compare T) (tr : Nat → St T) (lab : Nat → Label T) (t i k : Nat) (E : Mem T → Mem T → Prop) : Prop :=
  ∃ j, i ≤ j ∧ j < k ∧ (lab j).tid = t ∧ E (tr j).mem (tr (j + 1)).mem ∧
    ∀ j', i ≤ j' → j' < k → j' ≠ j → (lab j').tid = t → Keeps cmp (tr j').mem (tr (j' + 1)).mem

/-- What a result means: `t`'s call has been running since instant `i`, now is instant `k`. -/
def RetOK (cmp : Compare T) (tr : Nat → St T) (lab : Nat → Label T) (t i k : Nat) : Op T → Out T → Prop
  | .add v, .bool true => Lin cmp tr lab t i k (fun m m' => Adds cmp m m' v)
  | .add v, .bool false => Unch cmp tr lab t i k ∧ ∃ j, i ≤ j ∧ j ≤ k ∧ Contains cmp (tr j).mem v
  | .del v, .bool true => Lin cmp tr lab t i k (fun m m' => Removes cmp m m' v)
  | .del v, .bool false => Unch cmp tr lab t i k ∧ ∃ j, i ≤ j ∧ j ≤ k ∧ ¬ Contains cmp (tr j).mem v
  | .has v, .bool b => Unch cmp tr lab t i k ∧ ∃ j, i ≤ j ∧ j ≤ k ∧ (b = true ↔ Contains cmp (tr j).mem v)
  | .get v, .val w => Unch cmp tr lab t i k ∧ ∃ j c, i ≤ j ∧ j ≤ k ∧ Ceil cmp (tr j).mem v c ∧ w = (tr j).mem.val c
  | .rank _, .num _ => Unch cmp tr lab t i k
  | .len, .num n => Unch cmp tr lab t i k ∧ ∃ j, i ≤ j ∧ j ≤ k ∧ n = (tr j).mem.size.toInt
  | _, _ => False

/-! ### Linearizability -/

/-- The sequential object: a set `s` of values (closed under "compares equal").  `Rank` and `Len` are not part of it. -/
def SeqStep (cmp : Compare T) (zero : T) (s : T → Prop) : Op T → Out T → (T → Prop) → Prop
  | .add v, .bool true, s' => ¬ s v ∧ ∀ w, s' w ↔ s w ∨ cmp v w = 0
  | .add v, .bool false, s' => s v ∧ ∀ w, s' w ↔ s w
  | .del v, .bool true, s' => s v ∧ ∀ w, s' w ↔ s w ∧ cmp v w ≠ 0
  | .del v, .bool false, s' => ¬ s v ∧ ∀ w, s' w ↔ s w
  | .has v, .bool b, s' => (b = true ↔ s v) ∧ ∀ w, s' w ↔ s w
  | .get v, .val w, s' => ((s w ∧ 0 ≤ cmp w v ∧ ∀ x, s x → 0 ≤ cmp x v → cmp w x ≤ 0) ∨ ((∀ x, s x → cmp x v < 0) ∧ w = zero)) ∧
      ∀ w, s' w ↔ s w
  | _, _, _ => False

/-- A sequential history of the set object from `s` to `s'`. -/
def Legal (cmp : Compare T) (zero : T) : (T → Prop) → List (Op T × Out T) → (T → Prop) → Prop
  | s, [], s' => ∀ w, s' w ↔ s w
  | s, (op, o) :: l, s' => ∃ s1, SeqStep cmp zero s op o s1 ∧ Legal cmp zero s1 l s'

/-- The methods of the sequential object. -/
def Op.isSet : Op T → Prop
  | .add _ | .del _ | .has _ | .get _ => True
  | .rank _ | .len => False

/-- The call made at step `i` by `t` returns `o` at step `r` of the first `n` steps. -/
structure Returned (lab : Nat → Label T) (n i t : Nat) (o : Out T) (r : Nat) : Prop where
  lt : i < r
  le : r < n
  ret : lab r = .ret t o
  first : ∀ x, i < x → x < r → ∀ o', lab x ≠ .ret t o'

/-- The call of `op` made by `t` at step `i` is in progress at instant `k`. -/
structure InProgress (lab : Nat → Label T) (k i t : Nat) (op : Op T) : Prop where
  lt : i < k
  call : lab i = .call t op
  open_ : ∀ x, i < x → x < k → ∀ o, lab x ≠ .ret t o

/-- The method changes the set. -/
def Op.isWrite : Op T → Prop
  | .add _ | .del _ => True
  | _ => False

/-- A call placed in a sequential history: the step that made it, the method, the result. -/
structure Entry (T : Type _) where
  call : Nat
  op : Op T
  out : Out T

/-- Herlihy and Wing's definition: the `n` steps can be explained by one sequential history that contains every call
    that has returned (with the result it returned) and possibly some calls still in progress, each once, and in which a call that
    returned before another was made does not come after it. -/
structure Linearization (cmp : Compare T) (zero : T) (lab : Nat → Label T) (n : Nat) (L : List (Entry T)) (s : T → Prop) : Prop where
  calls : ∀ e ∈ L, e.call < n ∧ ∃ t, lab e.call = .call t e.op ∧ ∀ o r, Returned lab n e.call t o r → e.out = o
  once : (L.map Entry.call).Nodup
  all : ∀ i t op o r, lab i = .call t op → op.isSet → Returned lab n i t o r → ⟨i, op, o⟩ ∈ L
  order : L.Pairwise fun e e' => ∀ t o r, lab e'.call = .call t e'.op → Returned lab n e'.call t o r → ¬ r < e.call
  legal : Legal cmp zero (fun _ => False) (L.map fun e => (e.op, e.out)) s

end Gds.LockFree
