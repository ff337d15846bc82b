import Verif.LinkedList.Inv
import Verif.Iter.Props

namespace Gds.LinkedList
variable {T : Type _} {s : St T} {a : Abs T}

theorem putBefore_split {m x : Nat} {xs ys : List Nat} (hm : m ∉ xs) :
    putBefore m x (xs ++ m :: ys) = xs ++ x :: m :: ys := by
  induction xs with
  | nil => simp [putBefore]
  | cons y xs ih =>
    simp only [List.mem_cons, not_or] at hm
    simp [putBefore, Ne.symm hm.1, ih hm.2]

theorem putAfter_split {m x : Nat} {xs ys : List Nat} (hm : m ∉ xs) :
    putAfter m x (xs ++ m :: ys) = xs ++ m :: x :: ys := by
  induction xs with
  | nil => simp [putAfter]
  | cons y xs ih =>
    simp only [List.mem_cons, not_or] at hm
    simp [putAfter, Ne.symm hm.1, ih hm.2]

theorem following_split {e : Nat} {xs ys : List Nat} (hm : e ∉ xs) :
    following e (xs ++ e :: ys) = ys.head? := by
  induction xs with
  | nil => simp [following]
  | cons y xs ih =>
    simp only [List.mem_cons, not_or] at hm
    simp [following, Ne.symm hm.1, ih hm.2]

theorem preceding_split {e : Nat} {xs ys : List Nat} (hm : e ∉ ys) :
    preceding e (xs ++ e :: ys) = xs.getLast? := by
  unfold preceding
  rw [show (xs ++ e :: ys).reverse = ys.reverse ++ e :: xs.reverse by simp]
  rw [following_split (by simpa using hm), List.head?_reverse]

/-- Splitting a duplicate-free sequence at a member. -/
theorem split_at {xs : List Nat} {e : Nat} (hnd : xs.Nodup) (he : e ∈ xs) :
    ∃ p q, xs = p ++ e :: q ∧ e ∉ p ∧ e ∉ q ∧ xs.erase e = p ++ q := by
  obtain ⟨p, q, rfl⟩ := List.append_of_mem he
  rw [List.nodup_middle, List.nodup_cons] at hnd
  simp only [List.mem_append, not_or] at hnd
  refine ⟨p, q, rfl, hnd.1.1, hnd.1.2, ?_⟩
  rw [List.erase_append_right _ hnd.1.1]; simp

theorem inv_owner (h : Inv s a) {l e : Nat} (he : e ∈ a.seq l) : a.owner e = some l := by
  unfold Abs.owner
  have hl := (h.lst l (h.mem l e he).1).1
  cases hf : (List.range a.fresh).find? (fun l => decide (e ∈ a.seq l)) with
  | none =>
    rw [List.find?_eq_none] at hf
    exact absurd he (by simpa using hf l (by simpa using hl))
  | some l' =>
    have := List.find?_some hf
    simp only [decide_eq_true_eq] at this
    have h1 := (h.mem l e he).2.2.2.2
    have h2 := (h.mem l' e this).2.2.2.2
    rw [h1] at h2; simp at h2; rw [h2]

theorem inv_not_owner (h : Inv s a) {e : Nat} (he : ∀ l, e ∉ a.seq l) : a.owner e = none := by
  unfold Abs.owner
  rw [List.find?_eq_none]
  intro l _
  simpa using he l

theorem touch_eq (h : a.inited l = true) : a.touch l = a := by
  unfold Abs.touch
  congr 1
  funext k; split
  · next e => subst e; exact h.symm
  · rfl

theorem inv_addList (h : Inv s a) (z : T) :
    Inv (new s z).1 (a.addList z false) := by
  have hal := h.alloc
  have hnew : ∀ k, k ≠ a.fresh → (new s z).1.heap k = s.heap k := by
    intro k hk; simp only [new]; rw [if_neg (by omega)]
  have hnewf : (new s z).1.heap a.fresh = { next := none, prev := none, list := none, value := z } := by
    simp [new, hal]
  have hlt : ∀ l, a.isList l = true → l ≠ a.fresh := fun l hl => by have := (h.lst l hl).1; omega
  have hseqf : a.seq a.fresh = [] := by
    cases hs : a.seq a.fresh with
    | nil => rfl
    | cons x xs =>
      have := (h.mem a.fresh x (by rw [hs]; simp)).1
      exact absurd rfl (hlt _ this)
  refine ⟨?_, ?_, ?_, ?_, ?_, h.nodup, ?_, ?_, ?_⟩
  · simp [new, Abs.addList, Abs.alloc, hal]
  · intro k
    by_cases hk : k = a.fresh
    · subst hk; rw [hnewf]; simp [Abs.addList, Abs.alloc]
    · rw [hnew k hk, h.val k]
      simp only [Abs.addList, Abs.alloc]
      rw [dif_neg (by simp; omega)]
  · intro l hl
    simp only [Abs.addList, Abs.alloc] at hl ⊢
    by_cases hk : l = a.fresh
    · subst hk; rw [hnewf, hseqf]; simp [new, hal]
    · simp only [hk, if_false] at hl
      obtain ⟨h1, h2, h3⟩ := h.lst l hl
      rw [hnew l hk]
      refine ⟨by simp; omega, h2, ?_⟩
      simp only [new]; rw [if_neg (by omega)]; exact h3
  · intro l hl hi
    simp only [Abs.addList, Abs.alloc] at hl hi ⊢
    by_cases hk : l = a.fresh
    · simp [hk] at hi
    · simp only [hk, if_false] at hl hi
      have key : ∀ j ∈ l :: a.seq l, (new s z).1.heap j = s.heap j := by
        intro j hj
        apply hnew
        rcases List.mem_cons.1 hj with rfl | hj
        · exact hk
        · have := (h.mem l j hj).2.1; omega
      exact ring_congr (fun j hj => by rw [key j hj]) (fun j hj => by rw [key j hj]) (h.ring l hl hi)
  · intro l hl hi
    simp only [Abs.addList, Abs.alloc] at hl hi ⊢
    by_cases hk : l = a.fresh
    · subst hk; rw [hnewf]; exact ⟨rfl, hseqf⟩
    · simp only [hk, if_false] at hl hi
      rw [hnew l hk]; exact h.raw l hl hi
  · intro l e he
    have he' : e ∈ a.seq l := he
    obtain ⟨h1, h2, h3, h4, h5⟩ := h.mem l e he'
    have hne : e ≠ a.fresh := by omega
    rw [hnew e hne]
    simp only [Abs.addList, Abs.alloc, if_neg hne, if_neg (hlt l h1)]
    exact ⟨h1, by simp; omega, h3, h4, h5⟩
  · intro e l hl
    by_cases hk : e = a.fresh
    · subst hk; rw [hnewf] at hl; simp at hl
    · rw [hnew e hk] at hl; exact h.own e l hl
  · intro e he
    have := h.stl e he
    have hne : e ≠ a.fresh := by omega
    simp only [Abs.addList, Abs.alloc, if_neg hne]
    exact ⟨by simp; omega, this.2⟩

theorem inv_clear (h : Inv s a) {l : Nat} (hl : a.isList l = true) :
    Inv (clear s l) { a.setSeq l [] with stale := fun e => a.stale e || decide (e ∈ a.seq l)
                                         inited := fun k => if k = l then false else a.inited k } := by
  have hval : ∀ k, ((clear s l).heap k).value = (s.heap k).value ∧ ((clear s l).heap k).list = (s.heap k).list ∧
      ((clear s l).heap k).prev = (s.heap k).prev ∧
      ((clear s l).heap k).next = if k = l then none else (s.heap k).next := by
    intro k; simp only [clear, St.setNext, St.setLen]; grind
  refine ⟨h.alloc, ?_, ?_, ?_, ?_, ?_, ?_, ?_, ?_⟩
  · intro k; rw [(hval k).1]; exact h.val k
  · intro k hk
    have hk' : a.isList k = true := hk
    obtain ⟨h1, h2, h3⟩ := h.lst k hk'
    refine ⟨h1, by rw [(hval k).2.1]; exact h2, ?_⟩
    simp only [clear, St.setNext, St.setLen, Abs.setSeq]
    by_cases e : k = l
    · simp [e]
    · simp [e, h3]
  · intro k hk hi
    have hk' : a.isList k = true := hk
    by_cases e : k = l
    · simp [e] at hi
    · simp only [e, if_false] at hi
      have hr := h.ring k hk' hi
      simp only [Abs.setSeq, e, if_false]
      refine ring_congr (fun j hj => ?_) (fun j hj => (hval j).2.2.1) hr
      rw [(hval j).2.2.2]
      rw [if_neg]
      rintro rfl
      rcases List.mem_cons.1 hj with rfl | hj
      · exact e rfl
      · have := (h.mem k j hj).2.2.1; simp [hl] at this
  · intro k hk hi
    have hk' : a.isList k = true := hk
    by_cases e : k = l
    · subst e; simp [Abs.setSeq, (hval k).2.2.2]
    · simp only [e, if_false] at hi
      simp only [Abs.setSeq, e, if_false, (hval k).2.2.2]
      exact h.raw k hk' hi
  · intro k
    simp only [Abs.setSeq]; split
    · exact List.nodup_nil
    · exact h.nodup k
  · intro k e he
    simp only [Abs.setSeq] at he
    split at he
    · simp at he
    · next hne =>
      obtain ⟨h1, h2, h3, h4, h5⟩ := h.mem k e he
      refine ⟨h1, h2, h3, ?_, by rw [(hval e).2.1]; exact h5⟩
      simp only [h4, Bool.false_or, decide_eq_false_iff_not]
      intro hm
      have := (h.mem l e hm).2.2.2.2
      rw [h5] at this; simp at this; exact hne this
  · intro e k he
    rw [(hval e).2.1] at he
    rcases h.own e k he with h1 | h1
    · by_cases ek : k = l
      · subst ek; right; simp [h1]
      · left; simpa [Abs.setSeq, ek] using h1
    · right; simp [h1]
  · intro e he
    simp only [Bool.or_eq_true, decide_eq_true_eq] at he
    rcases he with he | he
    · exact h.stl e he
    · have := h.mem l e he; exact ⟨this.2.1, this.2.2.1⟩

theorem inv_init (h : Inv s a) {l : Nat} (hl : a.isList l = true) :
    Inv (init s l) { a.setSeq l [] with stale := fun e => a.stale e || decide (e ∈ a.seq l)
                                        inited := fun k => if k = l then true else a.inited k } := by
  have h1 := inv_lazyInit (inv_clear h hl) (l := l) hl
  have e1 : lazyInit (clear s l) l = init s l := by
    rw [lazyInit, if_pos (by simp [clear, St.setNext, St.setLen])]
    simp only [init, clear, St.setNext, St.setPrev, St.setLen, St.mk.injEq, and_true]
    constructor
    · funext k; grind
    · funext k; grind
  rw [e1] at h1
  convert h1 using 2
  simp only [Abs.touch, Abs.mk.injEq, true_and]
  funext k; grind

theorem inv_setValue (h : Inv s a) (e : Nat) (v : T) :
    Inv (s.setValue e v) { a with value := fun k => if k = e then v else a.value k } := by
  have hv : ∀ k, ((s.setValue e v).heap k).next = (s.heap k).next ∧ ((s.setValue e v).heap k).prev = (s.heap k).prev ∧
      ((s.setValue e v).heap k).list = (s.heap k).list ∧ ((s.setValue e v).heap k).value = if k = e then v else (s.heap k).value := by
    intro k; simp only [St.setValue]; grind
  refine ⟨h.alloc, fun k => ?_, fun k hk => ?_, fun k hk hi => ?_, fun k hk hi => ?_, h.nodup, fun k x hx => ?_, fun x k hx => ?_, h.stl⟩
  · rw [(hv k).2.2.2, h.val k]
  · rw [(hv k).2.2.1]; exact h.lst k hk
  · exact ring_congr (fun j _ => (hv j).1) (fun j _ => (hv j).2.1) (h.ring k hk hi)
  · rw [(hv k).1]; exact h.raw k hk hi
  · rw [(hv x).2.2.1]; exact h.mem k x hx
  · rw [(hv x).2.2.1] at hx; exact h.own x k hx

/-! ### Iteration and ToSlice -/

/-- Pulling along the ring. -/
theorem all_ring (h : Inv s a) {l : Nat} (hl : a.isList l = true) (hi : a.inited l = true) :
    ∀ (ys xs : List Nat) (x : Nat) (acc : List T), a.seq l = xs ++ ys → (l :: xs).getLast? = some x →
      Iter.all (iter s l) (fun t (sl : List T) => (true, sl ++ [t])) (some x) acc =
        .ok (some l, acc ++ ys.map a.value) := by
  intro ys
  induction ys with
  | nil =>
    intro xs x acc hs hx
    have hr := h.ring l hl hi
    rw [hs] at hr
    have := ((ring_cut hr).2.2 x l hx (by simp)).1
    rw [Iter.all]
    simp [iter, deref, this]
  | cons y ys ih =>
    intro xs x acc hs hx
    have hr := h.ring l hl hi
    rw [hs] at hr
    have hlk := ((ring_cut hr).2.2 x y hx (by simp)).1
    have hne : y ≠ l := by
      rintro rfl
      have := (h.mem y y (by rw [hs]; simp)).2.2.1
      simp [hl] at this
    rw [Iter.all]
    simp only [iter, deref, hlk, Res.bind_ok, Res.pure_eq, ne_eq, Option.some.injEq, hne, not_false_eq_true, if_true]
    have := ih (xs ++ [y]) y (acc ++ [a.value y]) (by simp [hs])
      (by rw [show l :: (xs ++ [y]) = (l :: xs) ++ [y] by simp, List.getLast?_append]; simp)
    rw [h.val y]
    simpa using this

theorem inv_toSlice (h : Inv s a) {l : Nat} (hl : a.isList l = true) (hi : a.inited l = true) :
    toSlice s l = .ok ((a.seq l).map a.value) := by
  unfold toSlice
  have := (h.lst l hl).2.2
  rw [this]
  rw [if_neg (by omega)]
  rw [all_ring h hl hi (a.seq l) [] l [] (by simp) (by simp)]
  simp

/-! ### Copying lists -/

theorem alloc_alloc (a : Abs T) (vs ws : List T) : (a.alloc vs).alloc ws = a.alloc (vs ++ ws) := by
  unfold Abs.alloc
  simp only [Abs.mk.injEq, List.length_append, true_and, and_true]
  refine ⟨by omega, ?_⟩
  funext k
  grind

theorem setSeq_setSeq (a : Abs T) (l : Nat) (xs ys : List Nat) : (a.setSeq l xs).setSeq l ys = a.setSeq l ys := by
  unfold Abs.setSeq
  congr 1
  funext k; simp only []; split <;> rfl

/-- The abstract effect of appending copies of `vs`. -/
def appendAll (a : Abs T) (l : Nat) (vs : List T) : Abs T :=
  ((a.alloc vs).setSeq l (a.seq l ++ a.ids vs.length)).touch l

def prependAll (a : Abs T) (l : Nat) (vs : List T) : Abs T :=
  ((a.alloc vs).setSeq l ((a.ids vs.length).reverse ++ a.seq l)).touch l

theorem appendAll_cons (a : Abs T) (l : Nat) (v : T) (vs : List T) (b : Abs T)
    (hb : b = ((a.alloc [v]).setSeq l (a.seq l ++ [a.fresh])).touch l) :
    appendAll b l vs = appendAll a l (v :: vs) := by
  subst hb
  have h1 := alloc_alloc a [v] vs
  simp only [List.singleton_append] at h1
  have hi : (a.ids (vs.length + 1)) = a.fresh :: (a.alloc [v]).ids vs.length := by
    simp only [Abs.ids, List.range_succ_eq_map, List.map_cons, List.map_map, Abs.alloc, List.length_singleton]
    congr 1
    apply List.map_congr_left
    intro k _; simp; omega
  unfold appendAll
  have e1 : (((a.alloc [v]).setSeq l (a.seq l ++ [a.fresh])).touch l).seq l = a.seq l ++ [a.fresh] := by
    simp [Abs.touch, Abs.setSeq]
  have e2 : ∀ n, (((a.alloc [v]).setSeq l (a.seq l ++ [a.fresh])).touch l).ids n = (a.alloc [v]).ids n := fun n => rfl
  rw [e1, e2, List.length_cons, hi, ← h1]
  simp only [Abs.touch, Abs.setSeq, Abs.alloc, Abs.mk.injEq, true_and, and_true]
  refine ⟨?_, rfl, ?_⟩
  · funext k; split <;> simp
  · funext k; split <;> simp

theorem prependAll_cons (a : Abs T) (l : Nat) (v : T) (vs : List T) (b : Abs T)
    (hb : b = ((a.alloc [v]).setSeq l (a.fresh :: a.seq l)).touch l) :
    prependAll b l vs = prependAll a l (v :: vs) := by
  subst hb
  have h1 := alloc_alloc a [v] vs
  simp only [List.singleton_append] at h1
  have hi : (a.ids (vs.length + 1)) = a.fresh :: (a.alloc [v]).ids vs.length := by
    simp only [Abs.ids, List.range_succ_eq_map, List.map_cons, List.map_map, Abs.alloc, List.length_singleton]
    congr 1
    apply List.map_congr_left
    intro k _; simp; omega
  unfold prependAll
  have e1 : (((a.alloc [v]).setSeq l (a.fresh :: a.seq l)).touch l).seq l = a.fresh :: a.seq l := by
    simp [Abs.touch, Abs.setSeq]
  have e2 : ∀ n, (((a.alloc [v]).setSeq l (a.fresh :: a.seq l)).touch l).ids n = (a.alloc [v]).ids n := fun n => rfl
  rw [e1, e2, List.length_cons, hi, ← h1]
  simp only [Abs.touch, Abs.setSeq, Abs.alloc, Abs.mk.injEq, true_and, and_true]
  refine ⟨?_, rfl, ?_⟩
  · funext k; split <;> simp
  · funext k; split <;> simp

theorem value_alloc_old (a : Abs T) (vs : List T) {k : Nat} (hk : k < a.fresh) : (a.alloc vs).value k = a.value k := by
  simp only [Abs.alloc]; rw [dif_neg (by omega)]

theorem inv_pushBackLoop {l o : Nat} : ∀ (rem pre extra : List Nat) (s : St T) (a : Abs T), Inv s a →
    a.isList l = true → a.inited l = true → a.seq o = pre ++ rem ++ extra → (o ≠ l → extra = []) →
    ∃ s', pushBackLoop l rem.length rem.head? s = .ok s' ∧ Inv s' (appendAll a l (rem.map a.value)) := by
  intro rem
  induction rem with
  | nil =>
    intro pre extra s a h hl hi hs hx
    refine ⟨s, rfl, ?_⟩
    have : appendAll a l ([] : List T) = a := by
      unfold appendAll
      have h1 : a.alloc [] = a := by
        unfold Abs.alloc; simp
      have h2 : a.setSeq l (a.seq l) = a := by
        unfold Abs.setSeq; congr 1; funext k; split
        · next e => subst e; rfl
        · rfl
      simp only [List.length_nil, Abs.ids, List.range_zero, List.map_nil, List.append_nil, h1, h2]
      exact touch_eq hi
    simpa [this] using h
  | cons x rem ih =>
    intro pre extra s a h hl hi hs hx
    have hxm : x ∈ a.seq o := by rw [hs]; simp
    have hxlt := (h.mem o x hxm).2.1
    obtain ⟨y, -, hy, -⟩ := cut_ends l (a.seq l) []
    have hroot := (ring_root (h.ring l hl hi)).2
    rw [hy] at hroot
    obtain ⟨s1, e1, h1⟩ := inv_insertValue (xs := a.seq l) (ys := []) h (a.value x) hl hi (by simp) hy
    generalize hb : (((a.alloc [a.value x]).setSeq l (a.seq l ++ [a.fresh])).touch l) = b at h1
    have hbseq : b.seq = fun k => if k = l then a.seq l ++ [a.fresh] else a.seq k := by rw [← hb]; rfl
    have hbval : ∀ k, k < a.fresh → b.value k = a.value k := by
      intro k hk; rw [← hb]; exact value_alloc_old a _ hk
    have hso : ∃ extra', b.seq o = (pre ++ [x]) ++ rem ++ extra' ∧ (o ≠ l → extra' = []) := by
      by_cases e : o = l
      · subst e
        refine ⟨extra ++ [a.fresh], ?_, fun hc => absurd rfl hc⟩
        rw [hbseq]; simp [hs]
      · refine ⟨extra, ?_, fun _ => hx e⟩
        rw [hbseq]; simp [e, hs]
    obtain ⟨extra', hso, hx'⟩ := hso
    have hnext : rem ≠ [] → next s1 x = rem.head? := by
      intro hne
      have := (inv_next h1 (l := o) (e := x) (xs := pre) (ys := rem ++ extra') (by rw [hso]; simp)).1
      rw [this]
      cases rem with
      | nil => exact absurd rfl hne
      | cons r rem => simp
    obtain ⟨s', e2, h2⟩ := ih (pre ++ [x]) extra' s1 b h1 (by rw [← hb]; exact hl)
      (by rw [← hb]; simp [Abs.touch]) hso hx'
    refine ⟨s', ?_, ?_⟩
    · simp only [List.length_cons, List.head?_cons, pushBackLoop, deref, Res.bind_ok, hroot, h.val x, e1]
      by_cases hne : rem = []
      · subst hne
        have hn : ∀ p, pushBackLoop l ([] : List Nat).length p s1 = .ok s1 := fun _ => rfl
        rw [hn]; rw [hn] at e2; exact e2
      · rw [hnext hne]; exact e2
    · rw [appendAll_cons a l (a.value x) _ b hb.symm] at h2
      have : rem.map b.value = rem.map a.value := by
        apply List.map_congr_left
        intro k hk
        exact hbval k (h.mem o k (by rw [hs]; simp [hk])).2.1
      rw [this] at h2
      simpa using h2

theorem inv_pushFrontLoop {l o : Nat} : ∀ (rem pre extra : List Nat) (s : St T) (a : Abs T), Inv s a →
    a.isList l = true → a.inited l = true → a.seq o = extra ++ rem.reverse ++ pre → (o ≠ l → extra = []) →
    ∃ s', pushFrontLoop l rem.length rem.head? s = .ok s' ∧ Inv s' (prependAll a l (rem.map a.value)) := by
  intro rem
  induction rem with
  | nil =>
    intro pre extra s a h hl hi hs hx
    refine ⟨s, rfl, ?_⟩
    have : prependAll a l ([] : List T) = a := by
      unfold prependAll
      have h1 : a.alloc [] = a := by
        unfold Abs.alloc; simp
      have h2 : a.setSeq l (a.seq l) = a := by
        unfold Abs.setSeq; congr 1; funext k; split
        · next e => subst e; rfl
        · rfl
      simp only [List.length_nil, Abs.ids, List.range_zero, List.map_nil, List.reverse_nil, List.nil_append, h1, h2]
      exact touch_eq hi
    simpa [this] using h
  | cons x rem ih =>
    intro pre extra s a h hl hi hs hx
    have hxm : x ∈ a.seq o := by rw [hs]; simp
    have hxlt := (h.mem o x hxm).2.1
    obtain ⟨s1, e1, h1⟩ := inv_insertValue (xs := []) (ys := a.seq l) (x := l) h (a.value x) hl hi (by simp) (by simp)
    simp only [List.nil_append] at h1
    generalize hb : (((a.alloc [a.value x]).setSeq l (a.fresh :: a.seq l)).touch l) = b at h1
    have hbseq : b.seq = fun k => if k = l then a.fresh :: a.seq l else a.seq k := by rw [← hb]; rfl
    have hbval : ∀ k, k < a.fresh → b.value k = a.value k := by
      intro k hk; rw [← hb]; exact value_alloc_old a _ hk
    have hso : ∃ extra', b.seq o = extra' ++ rem.reverse ++ (x :: pre) ∧ (o ≠ l → extra' = []) := by
      by_cases e : o = l
      · subst e
        refine ⟨a.fresh :: extra, ?_, fun hc => absurd rfl hc⟩
        rw [hbseq]; simp [hs]
      · refine ⟨extra, ?_, fun _ => hx e⟩
        rw [hbseq]; simp [e, hs]
    obtain ⟨extra', hso, hx'⟩ := hso
    have hnext : rem ≠ [] → prev s1 x = rem.head? := by
      intro hne
      have := (inv_next h1 (l := o) (e := x) (xs := extra' ++ rem.reverse) (ys := pre) (by rw [hso])).2
      rw [this]
      cases rem with
      | nil => exact absurd rfl hne
      | cons r rem => simp
    obtain ⟨s', e2, h2⟩ := ih (x :: pre) extra' s1 b h1 (by rw [← hb]; exact hl)
      (by rw [← hb]; simp [Abs.touch]) hso hx'
    refine ⟨s', ?_, ?_⟩
    · simp only [List.length_cons, List.head?_cons, pushFrontLoop, deref, Res.bind_ok, h.val x, e1]
      by_cases hne : rem = []
      · subst hne
        have hn : ∀ p, pushFrontLoop l ([] : List Nat).length p s1 = .ok s1 := fun _ => rfl
        rw [hn]; rw [hn] at e2; exact e2
      · rw [hnext hne]; exact e2
    · rw [prependAll_cons a l (a.value x) _ b hb.symm] at h2
      have : rem.map b.value = rem.map a.value := by
        apply List.map_congr_left
        intro k hk
        exact hbval k (h.mem o k (by rw [hs]; simp [hk])).2.1
      rw [this] at h2
      simpa using h2

/-! ### One operation -/

theorem step_refines (z : T) (h : Inv s a) (op : Op T) (hl : Legal a op) :
    ∃ s', step z s op = .ok (s', (specStep z a op).2) ∧ Inv s' (specStep z a op).1 := by
  cases op with
  | newList =>
    have h1 := inv_addList h z
    have h2 := inv_lazyInit h1 (l := a.fresh) (by simp [Abs.addList])
    have hal := h.alloc
    have e1 : lazyInit (new s z).1 a.fresh = init (new s z).1 a.fresh := by
      unfold lazyInit; rw [if_pos]; simp [new, hal]
    have e2 : (a.addList z false).touch a.fresh = a.addList z true := by
      simp only [Abs.touch, Abs.addList, Abs.mk.injEq, true_and]
      funext k; split <;> simp_all
    rw [e1, e2] at h2
    refine ⟨_, ?_, h2⟩
    simp [step, newList, specStep, new, hal]
  | zeroList =>
    have hal := h.alloc
    refine ⟨_, ?_, inv_addList h z⟩
    simp [step, specStep, new, hal]
  | pushFront l v =>
    have h0 := inv_lazyInit h (l := l) hl
    obtain ⟨s', e1, h1⟩ := inv_insertValue (xs := []) (ys := a.seq l) (x := l) h0 v hl (by simp [Abs.touch]) rfl (by simp)
    refine ⟨s', ?_, ?_⟩
    · simp only [step, pushFront, e1]; rfl
    · have : ((((a.touch l).alloc [v]).setSeq l ([] ++ (a.touch l).fresh :: a.seq l)).touch l) = (specStep z a (.pushFront l v)).1 := by
        simp only [specStep, Abs.touch, Abs.setSeq, Abs.alloc, List.nil_append, Abs.mk.injEq, true_and]
        refine ⟨by first | rfl | (funext k; simp), ?_⟩
        funext k; split <;> simp
      rw [← this]; exact h1
  | pushBack l v =>
    have h0 := inv_lazyInit h (l := l) hl
    obtain ⟨y, -, hy, -⟩ := cut_ends l (a.seq l) []
    have hroot := (ring_root (h0.ring l hl (by simp [Abs.touch]))).2
    have hroot' : ((lazyInit s l).heap l).prev = some y := by rw [hroot]; exact hy
    obtain ⟨s', e1, h1⟩ := inv_insertValue (xs := a.seq l) (ys := []) (x := y) h0 v hl (by simp [Abs.touch]) (by simp [Abs.touch]) hy
    refine ⟨s', ?_, ?_⟩
    · simp only [step, pushBack, hroot', e1]; rfl
    · have : ((((a.touch l).alloc [v]).setSeq l (a.seq l ++ [(a.touch l).fresh])).touch l) = (specStep z a (.pushBack l v)).1 := by
        simp only [specStep, Abs.touch, Abs.setSeq, Abs.alloc, Abs.mk.injEq, true_and]
        refine ⟨by first | rfl | (funext k; simp), ?_⟩
        funext k; split <;> simp
      rw [← this]; exact h1
  | insertBefore l v m =>
    obtain ⟨hl1, hm1, hm2, hm3⟩ := hl
    by_cases hm : m ∈ a.seq l
    · obtain ⟨p, q, hs, hp, hq, -⟩ := split_at (h.nodup l) hm
      have hi := h.init_of_mem hm
      obtain ⟨x, -, hx, -⟩ := cut_ends l p []
      have hr := h.ring l hl1 hi
      rw [hs] at hr
      have hprev := (ring_mem hr).1
      rw [hx] at hprev
      obtain ⟨s', e1, h1⟩ := inv_insertValue (xs := p) (ys := m :: q) (x := x) h v hl1 hi hs hx
      refine ⟨s', ?_, ?_⟩
      · simp only [step, insertBefore, (h.list_iff hm3).2 hm, ne_eq, not_true_eq_false, if_false, hprev, e1, specStep, if_pos hm]; rfl
      · simp only [specStep, if_pos hm]
        rw [hs, putBefore_split hp]
        have : ((a.alloc [v]).setSeq l (p ++ a.fresh :: m :: q)).touch l = (a.alloc [v]).setSeq l (p ++ a.fresh :: m :: q) := touch_eq hi
        rw [← this]; exact h1
    · refine ⟨s, ?_, ?_⟩
      · have : (s.heap m).list ≠ some l := fun e => hm ((h.list_iff hm3).1 e)
        simp only [step, insertBefore, this, ne_eq, not_false_eq_true, if_true, specStep, if_neg hm]; rfl
      · simp only [specStep, if_neg hm]; exact h
  | insertAfter l v m =>
    obtain ⟨hl1, hm1, hm2, hm3⟩ := hl
    by_cases hm : m ∈ a.seq l
    · obtain ⟨p, q, hs, hp, hq, -⟩ := split_at (h.nodup l) hm
      have hi := h.init_of_mem hm
      obtain ⟨s', e1, h1⟩ := inv_insertValue (xs := p ++ [m]) (ys := q) (x := m) h v hl1 hi (by simp [hs])
        (by rw [show l :: (p ++ [m]) = (l :: p) ++ [m] by simp, List.getLast?_append]; simp)
      refine ⟨s', ?_, ?_⟩
      · simp only [step, insertAfter, (h.list_iff hm3).2 hm, ne_eq, not_true_eq_false, if_false, e1, specStep, if_pos hm]; rfl
      · simp only [specStep, if_pos hm]
        rw [hs, putAfter_split hp]
        have : ((a.alloc [v]).setSeq l (p ++ m :: a.fresh :: q)).touch l = (a.alloc [v]).setSeq l (p ++ m :: a.fresh :: q) := touch_eq hi
        rw [← this]
        simpa using h1
    · refine ⟨s, ?_, ?_⟩
      · have : (s.heap m).list ≠ some l := fun e => hm ((h.list_iff hm3).1 e)
        simp only [step, insertAfter, this, ne_eq, not_false_eq_true, if_true, specStep, if_neg hm]; rfl
      · simp only [specStep, if_neg hm]; exact h
  | remove l e =>
    obtain ⟨hl1, he1, he2, he3⟩ := hl
    by_cases he : e ∈ a.seq l
    · obtain ⟨p, q, hs, hp, hq, her⟩ := split_at (h.nodup l) he
      obtain ⟨s', e1, h1⟩ := inv_remove h hs
      refine ⟨s', ?_, ?_⟩
      · simp only [step, removeElem, (h.list_iff he3).2 he, if_true, e1, specStep]
        simp [h1.val e, Abs.setSeq]
      · simp only [specStep]; rw [her]; exact h1
    · refine ⟨s, ?_, ?_⟩
      · have : (s.heap e).list ≠ some l := fun e' => he ((h.list_iff he3).1 e')
        simp [step, removeElem, this, specStep, h.val e]
      · simp only [specStep]
        rw [List.erase_of_not_mem he]
        have : a.setSeq l (a.seq l) = a := by
          unfold Abs.setSeq; congr 1; funext k; split
          · next e => subst e; rfl
          · rfl
        rw [this]; exact h
  | moveToFront l e =>
    obtain ⟨hl1, he1, he2, he3⟩ := hl
    by_cases he : e ∈ a.seq l
    · obtain ⟨p, q, hs, hp, hq, her⟩ := split_at (h.nodup l) he
      have hi := h.init_of_mem he
      have hroot := (ring_root (h.ring l hl1 hi)).1
      simp only [specStep, if_pos he, her]
      by_cases hf : (s.heap l).next = some e
      · have hp0 : p = [] := by
          rw [hroot, hs] at hf
          cases p with
          | nil => rfl
          | cons y p => simp at hf; subst hf; simp at hp
        subst hp0
        refine ⟨s, ?_, ?_⟩
        · simp [step, moveToFront, hf]
        · have : a.setSeq l (e :: ([] ++ q)) = a := by
            rw [show e :: ([] ++ q) = a.seq l by simp [hs]]
            unfold Abs.setSeq; congr 1; funext k; split
            · next e => subst e; rfl
            · rfl
          rw [this]; exact h
      · obtain ⟨s', e1, h1⟩ := inv_move (us := []) (vs := p ++ q) (b := l) h hs (by simp) (by simp)
        refine ⟨s', ?_, h1⟩
        simp [step, moveToFront, hf, (h.list_iff he3).2 he, e1]
    · refine ⟨s, ?_, ?_⟩
      · have : (s.heap e).list ≠ some l := fun e' => he ((h.list_iff he3).1 e')
        simp [step, moveToFront, this, specStep]
      · simp only [specStep, if_neg he]; exact h
  | moveToBack l e =>
    obtain ⟨hl1, he1, he2, he3⟩ := hl
    by_cases he : e ∈ a.seq l
    · obtain ⟨p, q, hs, hp, hq, her⟩ := split_at (h.nodup l) he
      have hi := h.init_of_mem he
      have hroot := (ring_root (h.ring l hl1 hi)).2
      simp only [specStep, if_pos he, her]
      by_cases hf : (s.heap l).prev = some e
      · have hq0 : q = [] := by
          rw [hroot, hs] at hf
          rcases List.eq_nil_or_concat q with rfl | ⟨q, y, rfl⟩
          · rfl
          · simp only [List.concat_eq_append] at *
            rw [show l :: (p ++ e :: (q ++ [y])) = (l :: p ++ e :: q) ++ [y] by simp, List.getLast?_append] at hf
            simp at hf; subst hf; simp at hq
        subst hq0
        refine ⟨s, ?_, ?_⟩
        · simp [step, moveToBack, hf]
        · have : a.setSeq l (p ++ [] ++ [e]) = a := by
            rw [show p ++ [] ++ [e] = a.seq l by simp [hs]]
            unfold Abs.setSeq; congr 1; funext k; split
            · next e => subst e; rfl
            · rfl
          rw [this]; exact h
      · obtain ⟨b, -, hb, -⟩ := cut_ends l (a.seq l) []
        have hb' : (l :: (p ++ q)).getLast? = some b := by
          rw [hs] at hb
          rcases List.eq_nil_or_concat q with rfl | ⟨q, y, rfl⟩
          · exfalso
            apply hf
            rw [hroot, hs]
            rw [show l :: (p ++ [e]) = (l :: p) ++ [e] by simp, List.getLast?_append]; simp
          · simp only [List.concat_eq_append] at *
            rw [show l :: (p ++ e :: (q ++ [y])) = (l :: p ++ e :: q) ++ [y] by simp, List.getLast?_append] at hb
            rw [show l :: (p ++ (q ++ [y])) = (l :: p ++ q) ++ [y] by simp, List.getLast?_append]
            simpa using hb
        rw [hb] at hroot
        obtain ⟨s', e1, h1⟩ := inv_move (us := p ++ q) (vs := []) (b := b) h hs (by simp) hb'
        refine ⟨s', ?_, h1⟩
        have hbe : b ≠ e := by rintro rfl; exact hf hroot
        simp [step, moveToBack, hroot, hbe, (h.list_iff he3).2 he, e1]
    · refine ⟨s, ?_, ?_⟩
      · have : (s.heap e).list ≠ some l := fun e' => he ((h.list_iff he3).1 e')
        simp [step, moveToBack, this, specStep]
      · simp only [specStep, if_neg he]; exact h
  | moveBefore l e m =>
    obtain ⟨hl1, ⟨he1, he2, he3⟩, hm1, hm2, hm3⟩ := hl
    by_cases hc : e ∈ a.seq l ∧ m ∈ a.seq l ∧ e ≠ m
    · obtain ⟨he, hm, hne⟩ := hc
      obtain ⟨p, q, hs, hp, hq, her⟩ := split_at (h.nodup l) he
      have hi := h.init_of_mem he
      have hmem : m ∈ (a.seq l).erase e := (List.mem_erase_of_ne hne.symm).2 hm
      obtain ⟨us, vs, hs2, hu, hv, -⟩ := split_at ((h.nodup l).erase e) hmem
      simp only [specStep, if_pos (show e ∈ a.seq l ∧ m ∈ a.seq l ∧ e ≠ m from ⟨he, hm, hne⟩)]
      -- the element before mark, before e is unlinked
      obtain ⟨p', q', hs', hp', hq', -⟩ := split_at (h.nodup l) hm
      have hr := h.ring l hl1 hi
      rw [hs'] at hr
      have hprev := (ring_mem hr).1
      have hpu : p'.erase e = us := by
        have h1 : (a.seq l).erase e = us ++ m :: vs := hs2
        rw [hs'] at h1
        by_cases hep : e ∈ p'
        · rw [List.erase_append_left _ hep] at h1
          have hd := List.append_inj_left' (s₁ := p'.erase e) (s₂ := us) (t₁ := m :: q') (t₂ := m :: vs) h1
          -- lengths: split at the unique m
          have hmp : m ∉ p'.erase e := fun hx => hp' (List.mem_of_mem_erase hx)
          have key := following_split (ys := q') hmp
          clear key hd
          have := congrArg (List.takeWhile (fun y => decide (y ≠ m))) h1
          rw [List.takeWhile_append_of_pos (by intro y hy; simp; rintro rfl; exact hmp hy),
            List.takeWhile_append_of_pos (by intro y hy; simp; rintro rfl; exact hu hy)] at this
          simpa using this
        · rw [List.erase_append_right _ hep] at h1
          rw [List.erase_cons_tail (by simpa using hne.symm)] at h1
          have := congrArg (List.takeWhile (fun y => decide (y ≠ m))) h1
          rw [List.takeWhile_append_of_pos (by intro y hy; simp; rintro rfl; exact hp' hy),
            List.takeWhile_append_of_pos (by intro y hy; simp; rintro rfl; exact hu hy)] at this
          rw [List.erase_of_not_mem hep]
          simpa using this
      obtain ⟨b, -, hb, -⟩ := cut_ends l p' []
      rw [hb] at hprev
      by_cases hbe : e = b
      · -- e is already right before mark
        subst hbe
        refine ⟨s, ?_, ?_⟩
        · simp [step, moveBefore, hne, (h.list_iff he3).2 he, (h.list_iff hm3).2 hm, hprev, move]
        · have hlast : ∃ p'', p' = p'' ++ [e] := by
            rcases List.eq_nil_or_concat p' with rfl | ⟨p'', y, rfl⟩
            · simp at hb; subst hb
              have := h.ndl hl1; rw [List.nodup_cons] at this; exact absurd he this.1
            · simp only [List.concat_eq_append] at *
              rw [show l :: (p'' ++ [y]) = (l :: p'') ++ [y] by simp, List.getLast?_append] at hb
              simp at hb; subst hb; exact ⟨p'', rfl⟩
          obtain ⟨p'', rfl⟩ := hlast
          have hnd := h.nodup l
          rw [hs'] at hnd
          have hep : e ∉ p'' := by
            intro hx
            rw [List.nodup_append] at hnd
            have := hnd.1
            rw [List.nodup_append] at this
            exact this.2.2 _ hx _ (by simp) rfl
          have : putBefore m e ((a.seq l).erase e) = a.seq l := by
            rw [hs']
            rw [show p'' ++ [e] ++ m :: q' = p'' ++ e :: (m :: q') by simp, List.erase_append_right _ hep]
            simp only [List.erase_cons_head]
            rw [putBefore_split (by intro hx; exact hp' (by simp [hx]))]
          rw [this]
          have : a.setSeq l (a.seq l) = a := by
            unfold Abs.setSeq; congr 1; funext k; split
            · next e => subst e; rfl
            · rfl
          rw [this]; exact h
      · have hb' : (l :: us).getLast? = some b := by
          rw [← hpu]
          rcases List.eq_nil_or_concat p' with rfl | ⟨p'', y, rfl⟩
          · simpa using hb
          · simp only [List.concat_eq_append] at *
            rw [show l :: (p'' ++ [y]) = (l :: p'') ++ [y] by simp, List.getLast?_append] at hb
            simp at hb; subst hb
            have hd : (p'' ++ [y]).erase e = p''.erase e ++ [y] := by
              by_cases hx : e ∈ p''
              · rw [List.erase_append_left _ hx]
              · rw [List.erase_append_right _ hx, List.erase_of_not_mem hx]
                rw [List.erase_of_not_mem (by simpa using hbe)]
            rw [hd, show l :: (p''.erase e ++ [y]) = (l :: p''.erase e) ++ [y] by simp, List.getLast?_append]
            simp
        obtain ⟨s', e1, h1⟩ := inv_move (us := us) (vs := m :: vs) (b := b) h hs (by rw [← her, hs2]) hb'
        refine ⟨s', ?_, ?_⟩
        · simp [step, moveBefore, hne, (h.list_iff he3).2 he, (h.list_iff hm3).2 hm, hprev, e1]
        · rw [hs2, putBefore_split hu]; exact h1
    · refine ⟨s, ?_, ?_⟩
      · have : (s.heap e).list ≠ some l ∨ e = m ∨ (s.heap m).list ≠ some l := by
          by_contra hx
          simp only [not_or, not_not] at hx
          exact hc ⟨(h.list_iff he3).1 hx.1, (h.list_iff hm3).1 hx.2.2, hx.2.1⟩
        simp only [step, moveBefore, if_pos this, specStep]; rfl
      · simp only [specStep, if_neg hc]; exact h
  | moveAfter l e m =>
    obtain ⟨hl1, ⟨he1, he2, he3⟩, hm1, hm2, hm3⟩ := hl
    by_cases hc : e ∈ a.seq l ∧ m ∈ a.seq l ∧ e ≠ m
    · obtain ⟨he, hm, hne⟩ := hc
      obtain ⟨p, q, hs, hp, hq, her⟩ := split_at (h.nodup l) he
      have hmem : m ∈ (a.seq l).erase e := (List.mem_erase_of_ne hne.symm).2 hm
      obtain ⟨us, vs, hs2, hu, hv, -⟩ := split_at ((h.nodup l).erase e) hmem
      simp only [specStep, if_pos (show e ∈ a.seq l ∧ m ∈ a.seq l ∧ e ≠ m from ⟨he, hm, hne⟩)]
      obtain ⟨s', e1, h1⟩ := inv_move (us := us ++ [m]) (vs := vs) (b := m) h hs (by rw [← her, hs2]; simp)
        (by rw [show l :: (us ++ [m]) = (l :: us) ++ [m] by simp, List.getLast?_append]; simp)
      refine ⟨s', ?_, ?_⟩
      · simp [step, moveAfter, hne, (h.list_iff he3).2 he, (h.list_iff hm3).2 hm, e1]
      · rw [hs2, putAfter_split hu]; simpa using h1
    · refine ⟨s, ?_, ?_⟩
      · have : (s.heap e).list ≠ some l ∨ e = m ∨ (s.heap m).list ≠ some l := by
          by_contra hx
          simp only [not_or, not_not] at hx
          exact hc ⟨(h.list_iff he3).1 hx.1, (h.list_iff hm3).1 hx.2.2, hx.2.1⟩
        simp only [step, moveAfter, if_pos this, specStep]; rfl
      · simp only [specStep, if_neg hc]; exact h
  | pushBackList l o =>
    obtain ⟨hl1, ho⟩ := hl
    have h0 := inv_lazyInit h (l := l) hl1
    have hfr := (inv_front h0 (l := o) ho).1
    have hln := (h0.lst o ho).2.2
    obtain ⟨s', e1, h1⟩ := inv_pushBackLoop (l := l) (o := o) (a.seq o) [] [] _ _ h0 hl1 (by simp [Abs.touch]) (by simp [Abs.touch]) (fun _ => rfl)
    refine ⟨s', ?_, ?_⟩
    · simp only [step, pushBackList, len, hln, hfr]
      have e2 : (((a.touch l).seq o).length : Int).toNat = (a.seq o).length := by simp [Abs.touch]
      rw [e2, show (a.touch l).seq o = a.seq o from rfl, e1]; rfl
    · have : appendAll (a.touch l) l ((a.seq o).map (a.touch l).value) = (specStep z a (.pushBackList l o)).1 := by
        simp only [specStep, appendAll, Abs.touch, Abs.setSeq, Abs.alloc, Abs.ids, List.length_map, Abs.mk.injEq, true_and]
        refine ⟨by first | rfl | (funext k; simp), ?_⟩
        funext k; split <;> simp
      rw [← this]; exact h1
  | pushFrontList l o =>
    obtain ⟨hl1, ho⟩ := hl
    have h0 := inv_lazyInit h (l := l) hl1
    have hfr := (inv_front h0 (l := o) ho).2
    have hln := (h0.lst o ho).2.2
    obtain ⟨s', e1, h1⟩ := inv_pushFrontLoop (l := l) (o := o) (a.seq o).reverse [] [] _ _ h0 hl1 (by simp [Abs.touch]) (by simp [Abs.touch]) (fun _ => rfl)
    refine ⟨s', ?_, ?_⟩
    · simp only [step, pushFrontList, len, hln, hfr]
      have e2 : (((a.touch l).seq o).length : Int).toNat = (a.seq o).reverse.length := by simp [Abs.touch]
      rw [e2, show (a.touch l).seq o = a.seq o from rfl, ← List.head?_reverse, e1]; rfl
    · have : prependAll (a.touch l) l ((a.seq o).reverse.map (a.touch l).value) = (specStep z a (.pushFrontList l o)).1 := by
        simp only [specStep, prependAll, Abs.touch, Abs.setSeq, Abs.alloc, Abs.ids, List.length_map, List.length_reverse, List.map_reverse, Abs.mk.injEq, true_and]
        funext k; split <;> simp
      rw [← this]; exact h1
  | init l => exact ⟨_, rfl, inv_init h hl⟩
  | setValue e v => exact ⟨_, rfl, inv_setValue h e v⟩
  | clear l => exact ⟨_, rfl, inv_clear h hl⟩
  | len l =>
    refine ⟨s, ?_, h⟩
    simp [step, specStep, len, (h.lst l hl).2.2]
  | front l => exact ⟨s, by simp [step, specStep, (inv_front h hl).1], h⟩
  | back l => exact ⟨s, by simp [step, specStep, (inv_front h hl).2], h⟩
  | next e =>
    refine ⟨s, ?_, h⟩
    obtain ⟨he1, he2, he3⟩ := hl
    by_cases hx : ∃ l, e ∈ a.seq l
    · obtain ⟨l, hx⟩ := hx
      obtain ⟨p, q, hs, hp, hq, -⟩ := split_at (h.nodup l) hx
      simp only [step, specStep, inv_owner h hx, Option.bind_some]
      rw [(inv_next h hs).1, hs, following_split hp]
    · have hx' : ∀ l, e ∉ a.seq l := fun l hl => hx ⟨l, hl⟩
      simp only [step, specStep, inv_not_owner h hx', Option.bind_none]
      have : (s.heap e).list = none := by
        cases hc : (s.heap e).list with
        | none => rfl
        | some l => exact absurd ((h.list_iff he3).1 hc) (hx' l)
      simp [next, this]
  | prev e =>
    refine ⟨s, ?_, h⟩
    obtain ⟨he1, he2, he3⟩ := hl
    by_cases hx : ∃ l, e ∈ a.seq l
    · obtain ⟨l, hx⟩ := hx
      obtain ⟨p, q, hs, hp, hq, -⟩ := split_at (h.nodup l) hx
      simp only [step, specStep, inv_owner h hx, Option.bind_some]
      rw [(inv_next h hs).2, hs, preceding_split hq]
    · have hx' : ∀ l, e ∉ a.seq l := fun l hl => hx ⟨l, hl⟩
      simp only [step, specStep, inv_not_owner h hx', Option.bind_none]
      have : (s.heap e).list = none := by
        cases hc : (s.heap e).list with
        | none => rfl
        | some l => exact absurd ((h.list_iff he3).1 hc) (hx' l)
      simp [prev, this]
  | value e => exact ⟨s, by simp [step, specStep, h.val e], h⟩
  | toSlice l =>
    refine ⟨s, ?_, h⟩
    simp [step, specStep, inv_toSlice h hl.1 hl.2]

end Gds.LinkedList
