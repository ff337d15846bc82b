import Verif.LinkedList.Lemmas
import Verif.LinkedList.Spec

namespace Gds.LinkedList
variable {T : Type _}

/-- The heap represents the abstract sequences. -/
structure Inv (s : St T) (a : Abs T) : Prop where
  alloc : s.alloc = a.fresh
  val : ∀ k, (s.heap k).value = a.value k
  lst : ∀ l, a.isList l = true → l < a.fresh ∧ (s.heap l).list = none ∧ s.len l = (a.seq l).length
  ring : ∀ l, a.isList l = true → a.inited l = true → Ring s.heap l (a.seq l)
  raw : ∀ l, a.isList l = true → a.inited l = false → (s.heap l).next = none ∧ a.seq l = []
  nodup : ∀ l, (a.seq l).Nodup
  mem : ∀ l e, e ∈ a.seq l → a.isList l = true ∧ e < a.fresh ∧ a.isList e = false ∧ a.stale e = false ∧
    (s.heap e).list = some l
  own : ∀ e l, (s.heap e).list = some l → e ∈ a.seq l ∨ a.stale e = true
  stl : ∀ e, a.stale e = true → e < a.fresh ∧ a.isList e = false

theorem inv_empty (z : T) : Inv (St.empty z) (Abs.empty z) := by
  constructor <;> simp [St.empty, Abs.empty]

variable {s : St T} {a : Abs T}

theorem Inv.ndl (h : Inv s a) {l : Nat} (hl : a.isList l = true) : (l :: a.seq l).Nodup := by
  rw [List.nodup_cons]
  refine ⟨fun hm => ?_, h.nodup l⟩
  have := (h.mem l l hm).2.2.1
  simp [hl] at this

theorem Inv.init_of_mem (h : Inv s a) {l e : Nat} (he : e ∈ a.seq l) : a.inited l = true := by
  by_contra hc
  have := (h.raw l (h.mem l e he).1 (by simpa using hc)).2
  simp [this] at he

/-- For a legal element argument, `e.list == l` says exactly that `e` is in `l`. -/
theorem Inv.list_iff (h : Inv s a) {l e : Nat} (hs : a.stale e = false) : (s.heap e).list = some l ↔ e ∈ a.seq l := by
  constructor
  · intro e1
    rcases h.own e l e1 with h1 | h1
    · exact h1
    · simp [hs] at h1
  · intro e1; exact (h.mem l e e1).2.2.2.2

/-- Replacing the sequence of one list. -/
theorem inv_update {s' : St T} {a' : Abs T} (h : Inv s a) {l n : Nat} (hl : a.isList l = true)
    (xs' : List Nat)
    (hfresh : a'.fresh = a.fresh + n) (hisl : a'.isList = a.isList) (hst : a'.stale = a.stale)
    (hini : a'.inited = fun k => if k = l then true else a.inited k)
    (hseq : a'.seq = fun k => if k = l then xs' else a.seq k)
    (halloc : s'.alloc = s.alloc + n)
    (hval : ∀ k, (s'.heap k).value = a'.value k)
    (hlen : ∀ k, a.isList k = true → s'.len k = if k = l then (xs'.length : Int) else s.len k)
    (hring : Ring s'.heap l xs')
    (hfr : ∀ k, k < a.fresh → k ∉ l :: a.seq l → s'.heap k = s.heap k)
    (hlist : ∀ k, (s'.heap k).list = if k ∈ xs' then some l else if k ∈ a.seq l then none else
      if k < a.fresh then (s.heap k).list else none)
    (hnd : xs'.Nodup)
    (hsub : ∀ e ∈ xs', e ∈ a.seq l ∨ (a.fresh ≤ e ∧ e < a.fresh + n)) : Inv s' a' := by
  have hnl : ∀ k, a.fresh ≤ k → a.isList k = false := by
    intro k hk
    by_contra hc
    have := (h.lst k (by simpa using hc)).1; omega
  have hns : ∀ k, a.fresh ≤ k → a.stale k = false := by
    intro k hk
    by_contra hc
    have := (h.stl k (by simpa using hc)).1; omega
  have hxs : ∀ e ∈ xs', e < a.fresh + n ∧ a.isList e = false ∧ a.stale e = false := by
    intro e he
    rcases hsub e he with h1 | h1
    · have := h.mem l e h1; exact ⟨by omega, this.2.2.1, this.2.2.2.1⟩
    · exact ⟨h1.2, hnl e h1.1, hns e h1.1⟩
  refine ⟨by rw [halloc, hfresh, h.alloc], hval, ?_, ?_, ?_, ?_, ?_, ?_, ?_⟩
  · intro k hk
    rw [hisl] at hk
    obtain ⟨h1, h2, h3⟩ := h.lst k hk
    refine ⟨by rw [hfresh]; omega, ?_, ?_⟩
    · rw [hlist k]
      have e1 : k ∉ xs' := by intro hm; have := (hxs k hm).2.1; simp [hk] at this
      simp only [e1, if_false, h1, if_true, h2, ite_self]
    · rw [hlen k hk, hseq]
      by_cases e : k = l
      · subst e; simp
      · simp [e, h3]
  · intro k hk hi
    rw [hisl] at hk
    rw [hini] at hi
    by_cases e : k = l
    · subst e; rw [hseq]; simpa using hring
    · simp only [e, if_false] at hi
      have hr := h.ring k hk hi
      rw [hseq]; simp only [e, if_false]
      have key : ∀ j ∈ k :: a.seq k, s'.heap j = s.heap j := by
        intro j hj
        apply hfr
        · rcases List.mem_cons.1 hj with rfl | hj
          · exact (h.lst j hk).1
          · exact (h.mem k j hj).2.1
        · intro hm
          rcases List.mem_cons.1 hj with rfl | hj
          · rcases List.mem_cons.1 hm with rfl | hm
            · exact e rfl
            · have := (h.mem l j hm).2.2.1; simp [hk] at this
          · rcases List.mem_cons.1 hm with rfl | hm
            · have := (h.mem k j hj).2.2.1; simp [hl] at this
            · have h1 := (h.mem k j hj).2.2.2.2
              have h2 := (h.mem l j hm).2.2.2.2
              rw [h1] at h2; simp at h2; exact e h2
      exact ring_congr (fun j hj => by rw [key j hj]) (fun j hj => by rw [key j hj]) hr
  · intro k hk hi
    rw [hisl] at hk
    rw [hini] at hi
    by_cases e : k = l
    · subst e; simp at hi
    · simp only [e, if_false] at hi
      obtain ⟨h1, h2⟩ := h.raw k hk hi
      rw [hseq]; simp only [e, if_false]
      refine ⟨?_, h2⟩
      rw [hfr k (h.lst k hk).1]
      · exact h1
      · intro hm
        rcases List.mem_cons.1 hm with rfl | hm
        · exact e rfl
        · have := (h.mem l k hm).2.2.1; simp [hk] at this
  · intro k
    rw [hseq]
    by_cases e : k = l
    · simp [e, hnd]
    · simp [e, h.nodup k]
  · intro k e he
    rw [hseq] at he
    by_cases ek : k = l
    · subst ek
      simp only [if_true] at he
      have := hxs e he
      rw [hfresh, hisl, hst]
      refine ⟨hl, this.1, this.2.1, this.2.2, ?_⟩
      rw [hlist e, if_pos he]
    · simp only [ek, if_false] at he
      obtain ⟨h1, h2, h3, h4, h5⟩ := h.mem k e he
      rw [hfresh, hisl, hst]
      refine ⟨h1, by omega, h3, h4, ?_⟩
      rw [hlist e]
      have e1 : e ∉ a.seq l := by
        intro hm
        have := (h.mem l e hm).2.2.2.2
        rw [h5] at this; simp at this; exact ek this
      have e2 : e ∉ xs' := by
        intro hm
        rcases hsub e hm with h6 | h6
        · exact e1 h6
        · omega
      simp [e1, e2, h2, h5]
  · intro e k he
    rw [hlist e] at he
    rw [hst]
    split at he
    · next hm => simp at he; subst he; left; rw [hseq]; simpa using hm
    · next hm =>
      split at he
      · simp at he
      · next hm2 =>
        split at he
        · rcases h.own e k he with h1 | h1
          · left; rw [hseq]
            by_cases ek : k = l
            · subst ek; exact absurd h1 hm2
            · simpa [ek] using h1
          · exact Or.inr h1
        · simp at he
  · intro e he
    rw [hst] at he
    rw [hisl, hfresh]
    have := h.stl e he
    exact ⟨by omega, this.2⟩

/-! ### Reading -/

theorem inv_next (h : Inv s a) {l e : Nat} {xs ys : List Nat} (hs : a.seq l = xs ++ e :: ys) :
    next s e = ys.head? ∧ prev s e = xs.getLast? := by
  have he : e ∈ a.seq l := by rw [hs]; simp
  have hm := h.mem l e he
  have hr := h.ring l hm.1 (h.init_of_mem he)
  rw [hs] at hr
  obtain ⟨h1, h2⟩ := ring_mem hr
  have hndl := h.ndl hm.1
  rw [hs] at hndl
  unfold next prev
  rw [hm.2.2.2.2, h1, h2]
  constructor
  · cases ys with
    | nil => simp
    | cons y ys =>
      have : y ≠ l := by rintro rfl; simp at hndl
      simp [this]
  · rcases List.eq_nil_or_concat xs with rfl | ⟨xs, x, rfl⟩
    · simp
    · have : x ≠ l := by rintro rfl; simp at hndl
      have e1 : (l :: (xs ++ [x])).getLast? = some x := by
        rw [show l :: (xs ++ [x]) = (l :: xs) ++ [x] by simp, List.getLast?_append]; simp
      simp only [List.concat_eq_append] at *
      rw [e1]
      simp [this]

theorem inv_front (h : Inv s a) {l : Nat} (hl : a.isList l = true) :
    front s l = (a.seq l).head? ∧ back s l = (a.seq l).getLast? := by
  have h3 := (h.lst l hl).2.2
  unfold front back
  rw [h3]
  cases hs : a.seq l with
  | nil => simp
  | cons x xs =>
    have he : x ∈ a.seq l := by rw [hs]; simp
    have hr := h.ring l hl (h.init_of_mem he)
    rw [hs] at hr
    obtain ⟨h1, h2⟩ := ring_root hr
    have : ((x :: xs).length : Int) ≠ 0 := by simp; omega
    simp only [this, if_false]
    rw [h1, h2]
    refine ⟨by simp, by simp [List.getLast?_cons_cons]⟩

/-! ### Writing -/

theorem inv_lazyInit (h : Inv s a) {l : Nat} (hl : a.isList l = true) :
    Inv (lazyInit s l) (a.touch l) := by
  by_cases hi : a.inited l = true
  · have hr := h.ring l hl hi
    have hn : (s.heap l).next ≠ none := by
      rw [(ring_root hr).1]; cases a.seq l <;> simp
    have e1 : lazyInit s l = s := by unfold lazyInit; rw [if_neg hn]
    have e2 : a.touch l = a := by
      unfold Abs.touch
      congr 1
      funext k; split
      · next e => subst e; exact hi.symm
      · rfl
    rw [e1, e2]; exact h
  · have hi' : a.inited l = false := by simpa using hi
    obtain ⟨h1, h2⟩ := h.raw l hl hi'
    have e1 : lazyInit s l = init s l := by unfold lazyInit; rw [if_pos h1]
    rw [e1]
    refine inv_update h hl (n := 0) [] rfl rfl rfl rfl ?_ rfl ?_ ?_ ?_ ?_ ?_ List.nodup_nil (by simp)
    · funext k; simp only [Abs.touch]; split
      · next e => subst e; exact h2
      · rfl
    · intro k
      rw [show (a.touch l).value k = a.value k from rfl, ← h.val k]
      simp only [init, St.setNext, St.setPrev, St.setLen]; grind
    · intro k _; simp only [init, St.setNext, St.setPrev, St.setLen]; simp
    · apply ring_nil <;> simp [init, St.setNext, St.setPrev, St.setLen]
    · intro k _ hk
      simp only [List.mem_cons, not_or] at hk
      simp only [init, St.setNext, St.setPrev, St.setLen, hk.1, if_false]
    · intro k
      have hle : ∀ k, a.fresh ≤ k → (s.heap k).list = none := by
        intro k hk
        cases hc : (s.heap k).list with
        | none => rfl
        | some l' =>
          rcases h.own k l' hc with h4 | h4
          · have := (h.mem _ _ h4).2.1; omega
          · have := (h.stl _ h4).1; omega
      have : ((init s l).heap k).list = (s.heap k).list := by
        simp only [init, St.setNext, St.setPrev, St.setLen]; grind
      rw [this, h2]
      simp
      intro hk; exact hle k hk

theorem Inv.list_ge (h : Inv s a) (k : Nat) (hk : a.fresh ≤ k) : (s.heap k).list = none := by
  cases hc : (s.heap k).list with
  | none => rfl
  | some l' =>
    rcases h.own k l' hc with h4 | h4
    · have := (h.mem _ _ h4).2.1; omega
    · have := (h.stl _ h4).1; omega

/-- Inserting a new value at a cut of list `l`. -/
theorem inv_insertValue (h : Inv s a) {l x : Nat} {xs ys : List Nat} (v : T) (hl : a.isList l = true)
    (hi : a.inited l = true) (hs : a.seq l = xs ++ ys) (hx : (l :: xs).getLast? = some x) :
    ∃ s', insertValue s l v (some x) = .ok (s', a.fresh) ∧
      Inv s' (((a.alloc [v]).setSeq l (xs ++ a.fresh :: ys)).touch l) := by
  obtain ⟨-, n, -, hn⟩ := cut_ends l xs ys
  have hr := h.ring l hl hi
  have hnd := h.ndl hl
  rw [hs] at hr hnd
  have hlink := (ring_cut hr).2.2 x n hx hn
  have hlt : ∀ k ∈ l :: (xs ++ ys), k < a.fresh := by
    intro k hk
    rcases List.mem_cons.1 hk with rfl | hk
    · exact (h.lst k hl).1
    · rw [← hs] at hk; exact (h.mem l k hk).2.1
  have hxm : x ∈ l :: (xs ++ ys) := by
    have := List.mem_of_mem_getLast? hx; simp at this ⊢; tauto
  have hnm : n ∈ l :: (xs ++ ys) := by
    have := List.mem_of_mem_head? hn; simp at this ⊢; tauto
  have hxlt := hlt x hxm
  have hnlt := hlt n hnm
  have hal := h.alloc
  have hnew : ∀ k, k ≠ a.fresh → (new s v).1.heap k = s.heap k := by
    intro k hk; simp only [new]; rw [if_neg (by omega)]
  have hnewf : (new s v).1.heap a.fresh = { next := none, prev := none, list := none, value := v } := by
    simp [new, hal]
  obtain ⟨s', e1, e2, e3, e4, e5, e6, e7⟩ := insert_eq (s := (new s v).1) (l := l) (e := a.fresh) (a := x) (n := n)
    (by rw [hnew x (by omega)]; exact hlink.1) (by omega) (by omega)
  have hfn : a.fresh ∉ l :: (xs ++ ys) := fun hm => by have := hlt _ hm; omega
  have hlne : l ≠ a.fresh := by have := hlt l (by simp); omega
  refine ⟨s', ?_, ?_⟩
  · simp only [insertValue]
    rw [show (new s v).2 = a.fresh from hal, e1]
    rfl
  · refine inv_update h hl (n := 1) (xs ++ a.fresh :: ys) rfl rfl rfl rfl rfl ?_ ?_ ?_ ?_ ?_ ?_ ?_ ?_
    · rw [e2]; rfl
    · intro k
      rw [e4 k]
      simp only [Abs.touch, Abs.setSeq, Abs.alloc]
      by_cases hk : k = a.fresh
      · subst hk; rw [hnewf]; simp
      · rw [hnew k hk, h.val k]
        have : ¬ (a.fresh ≤ k ∧ k - a.fresh < [v].length) := by simp; omega
        rw [dif_neg this]
    · intro k hk
      rw [e3]
      have := (h.lst l hl).2.2
      have hkne : k ≠ s.alloc := by have := (h.lst k hk).1; omega
      simp only [new]
      by_cases e : k = l
      · subst e; simp [hkne, this, hs]; omega
      · simp [e, hkne]
    · refine ring_link (h := (new s v).1.heap) ?_ hnd hx hn hfn ?_ ?_ ?_ ?_ ?_ ?_
      · exact ring_congr (fun k hk => by rw [hnew k (by have := hlt k hk; omega)])
          (fun k hk => by rw [hnew k (by have := hlt k hk; omega)]) hr
      · rw [e6]; simp
      · rw [e7]; simp; omega
      · rw [e6]; simp; omega
      · rw [e7]; simp
      · intro k h1 h2; rw [e6]; simp [h1, h2]
      · intro k h1 h2; rw [e7]; simp [h1, h2]
    · intro k hk hkm
      rw [hs] at hkm
      have n1 : k ≠ a.fresh := by omega
      have n2 : k ≠ x := by rintro rfl; exact hkm hxm
      have n3 : k ≠ n := by rintro rfl; exact hkm hnm
      have g1 := e4 k; have g2 := e5 k; have g3 := e6 k; have g4 := e7 k
      rw [hnew k n1] at g1 g2 g3 g4
      simp only [n1, n2, n3, if_false] at g2 g3 g4
      cases hA : s'.heap k; cases hB : s.heap k
      rw [hA, hB] at g1 g2 g3 g4
      simp only at g1 g2 g3 g4
      subst g1 g2 g3 g4; rfl
    · intro k
      rw [e5 k]
      by_cases hk : k = a.fresh
      · subst hk; simp
      · rw [hnew k hk, hs]
        simp only [hk, if_false, List.mem_append, List.mem_cons, false_or]
        by_cases hm : k ∈ xs ∨ k ∈ ys
        · simp only [hm, if_true]
          exact (h.mem l k (by rw [hs]; simpa using hm)).2.2.2.2
        · simp only [hm, if_false]
          by_cases hlt' : k < a.fresh
          · simp [hlt']
          · simp only [hlt', if_false]; exact h.list_ge k (by omega)
    · rw [List.nodup_cons] at hnd
      rw [List.nodup_middle, List.nodup_cons]
      exact ⟨fun hm => hfn (by simp at hm ⊢; tauto), hnd.2⟩
    · intro e he
      rw [hs]
      simp only [List.mem_append, List.mem_cons] at he ⊢
      rcases he with h1 | h1 | h1
      · left; left; exact h1
      · right; omega
      · left; right; exact h1

/-- Removing a member. -/
theorem inv_remove (h : Inv s a) {l e : Nat} {xs ys : List Nat} (hs : a.seq l = xs ++ e :: ys) :
    ∃ s', remove s l e = .ok s' ∧ Inv s' (a.setSeq l (xs ++ ys)) := by
  have he : e ∈ a.seq l := by rw [hs]; simp
  have hm := h.mem l e he
  have hl := hm.1
  have hi := h.init_of_mem he
  have hr := h.ring l hl hi
  have hnd := h.ndl hl
  rw [hs] at hr hnd
  obtain ⟨x, n, hx, hn⟩ := cut_ends l xs ys
  obtain ⟨hp, hnx⟩ := ring_mem hr
  rw [hx] at hp; rw [hn] at hnx
  have hsplit : (l :: (xs ++ ys)).Nodup ∧ e ∉ l :: (xs ++ ys) := by
    have := hnd
    rw [show l :: (xs ++ e :: ys) = (l :: xs) ++ e :: ys by simp, List.nodup_middle, List.nodup_cons] at this
    exact ⟨by simpa using this.2, by simpa using this.1⟩
  have hxm : x ∈ l :: (xs ++ ys) := by
    have := List.mem_of_mem_getLast? hx; simp at this ⊢; tauto
  have hnm : n ∈ l :: (xs ++ ys) := by
    have := List.mem_of_mem_head? hn; simp at this ⊢; tauto
  have hex : e ≠ x := by rintro rfl; exact hsplit.2 hxm
  have hen : e ≠ n := by rintro rfl; exact hsplit.2 hnm
  obtain ⟨s', e1, e2, e3, e4, e5, e6, e7⟩ := remove_eq (s := s) (l := l) hp hnx hex hen
  refine ⟨s', e1, ?_⟩
  refine inv_update h hl (n := 0) (xs ++ ys) rfl rfl rfl ?_ rfl (by rw [e2]; rfl) ?_ ?_ ?_ ?_ ?_ ?_ ?_
  · funext k; simp only [Abs.setSeq]; split
    · next e => subst e; exact hi
    · rfl
  · intro k; rw [e4 k]; exact h.val k
  · intro k _
    rw [e3]
    have := (h.lst l hl).2.2
    by_cases e : k = l
    · subst e; simp [this, hs]; omega
    · simp [e]
  · refine ring_unlink hr hnd hx hn ?_ ?_ ?_ ?_
    · rw [e6]; simp [hex.symm]
    · rw [e7]; simp [hen.symm]
    · intro k h1 h2; rw [e6]; simp [h1, h2]
    · intro k h1 h2; rw [e7]; simp [h1, h2]
  · intro k hk hkm
    rw [hs] at hkm
    have n1 : k ≠ e := by rintro rfl; simp at hkm
    have n2 : k ≠ x := by rintro rfl; simp at hkm hxm; tauto
    have n3 : k ≠ n := by rintro rfl; simp at hkm hnm; tauto
    have g1 := e4 k; have g2 := e5 k; have g3 := e6 k; have g4 := e7 k
    simp only [n1, n2, n3, if_false] at g2 g3 g4
    cases hA : s'.heap k; cases hB : s.heap k
    rw [hA, hB] at g1 g2 g3 g4
    simp only at g1 g2 g3 g4
    subst g1 g2 g3 g4; rfl
  · intro k
    rw [e5 k, hs]
    by_cases hk : k = e
    · subst hk
      have : k ∉ xs ++ ys := fun hm => hsplit.2 (by simp at hm ⊢; tauto)
      simp only [this, if_false, if_true]; simp
    · simp only [hk, if_false, List.mem_append, List.mem_cons, false_or]
      by_cases hmm : k ∈ xs ∨ k ∈ ys
      · simp only [hmm, if_true]
        exact (h.mem l k (by rw [hs]; simp; tauto)).2.2.2.2
      · simp only [hmm, if_false]
        by_cases hlt' : k < a.fresh
        · simp [hlt']
        · simp only [hlt', if_false]; exact h.list_ge k (by omega)
  · rw [List.nodup_cons] at hsplit; exact hsplit.1.2
  · intro k hk; left; rw [hs]; simp at hk ⊢; tauto

/-- Moving a member to another place of the same list. -/
theorem inv_move (h : Inv s a) {l e b : Nat} {xs ys us vs : List Nat} (hs : a.seq l = xs ++ e :: ys)
    (he' : xs ++ ys = us ++ vs) (hb : (l :: us).getLast? = some b) :
    ∃ s', move s e (some b) = .ok s' ∧ Inv s' (a.setSeq l (us ++ e :: vs)) := by
  have he : e ∈ a.seq l := by rw [hs]; simp
  have hm := h.mem l e he
  have hl := hm.1
  have hi := h.init_of_mem he
  have hr := h.ring l hl hi
  have hnd := h.ndl hl
  rw [hs] at hr hnd
  obtain ⟨x, n, hx, hn⟩ := cut_ends l xs ys
  obtain ⟨-, m, -, hmm⟩ := cut_ends l us vs
  obtain ⟨hp, hnx⟩ := ring_mem hr
  rw [hx] at hp; rw [hn] at hnx
  have hsplit : (l :: (xs ++ ys)).Nodup ∧ e ∉ l :: (xs ++ ys) := by
    have := hnd
    rw [show l :: (xs ++ e :: ys) = (l :: xs) ++ e :: ys by simp, List.nodup_middle, List.nodup_cons] at this
    exact ⟨by simpa using this.2, by simpa using this.1⟩
  have hxm : x ∈ l :: (xs ++ ys) := by
    have := List.mem_of_mem_getLast? hx; simp at this ⊢; tauto
  have hnm : n ∈ l :: (xs ++ ys) := by
    have := List.mem_of_mem_head? hn; simp at this ⊢; tauto
  have hbm : b ∈ l :: (us ++ vs) := by
    have := List.mem_of_mem_getLast? hb; simp at this ⊢; tauto
  have hmm' : m ∈ l :: (us ++ vs) := by
    have := List.mem_of_mem_head? hmm; simp at this ⊢; tauto
  have hex : e ≠ x := by rintro rfl; exact hsplit.2 hxm
  have hen : e ≠ n := by rintro rfl; exact hsplit.2 hnm
  have heb : e ≠ b := by rintro rfl; rw [he'] at hsplit; exact hsplit.2 hbm
  have hem : e ≠ m := by rintro rfl; rw [he'] at hsplit; exact hsplit.2 hmm'
  -- the ring after unlinking
  let h1 : Nat → Elem T := fun k => { s.heap k with next := if k = x then some n else (s.heap k).next, prev := if k = n then some x else (s.heap k).prev }
  have hr1 : Ring h1 l (us ++ vs) := by
    rw [← he']
    refine ring_unlink hr hnd hx hn (by simp [h1]) (by simp [h1]) ?_ ?_
    · intro k _ h2; simp [h1, h2]
    · intro k _ h2; simp [h1, h2]
  have hlk := (ring_cut hr1).2.2 b m hb hmm
  obtain ⟨s', e1, e2, e3, e4, e5, e6, e7⟩ := move_eq (s := s) (b := b) (m := m) hp hnx hex hen heb hem (by
    have := hlk.1; simpa [h1] using this)
  refine ⟨s', e1, ?_⟩
  rw [he'] at hsplit hxm hnm
  refine inv_update h hl (n := 0) (us ++ e :: vs) rfl rfl rfl ?_ rfl (by rw [e2]; rfl) ?_ ?_ ?_ ?_ ?_ ?_ ?_
  · funext k; simp only [Abs.setSeq]; split
    · next e => subst e; exact hi
    · rfl
  · intro k; rw [e4 k]; exact h.val k
  · intro k _
    rw [e3]
    have := (h.lst l hl).2.2
    have hlen : xs.length + ys.length = us.length + vs.length := by
      have := congrArg List.length he'; simpa using this
    by_cases e : k = l
    · subst e; simp [this, hs]; omega
    · simp [e]
  · refine ring_link hr1 hsplit.1 hb hmm hsplit.2 ?_ ?_ ?_ ?_ ?_ ?_
    · rw [e6]; simp
    · rw [e7]; simp [hem]
    · rw [e6]; simp [heb.symm]
    · rw [e7]; simp
    · intro k g1 g2; rw [e6]; simp [h1, g1, g2]
    · intro k g1 g2; rw [e7]; simp [h1, g1, g2]
  · intro k hk hkm
    rw [hs] at hkm
    have hkm' : k ∉ l :: (us ++ vs) ∧ k ≠ e := by
      rw [← he']; simp at hkm ⊢; tauto
    have n1 : k ≠ e := hkm'.2
    have n2 : k ≠ x := by rintro rfl; exact hkm'.1 hxm
    have n3 : k ≠ n := by rintro rfl; exact hkm'.1 hnm
    have n4 : k ≠ b := by rintro rfl; exact hkm'.1 hbm
    have n5 : k ≠ m := by rintro rfl; exact hkm'.1 hmm'
    have g1 := e4 k; have g2 := e5 k; have g3 := e6 k; have g4 := e7 k
    simp only [n1, n2, n3, n4, n5, if_false] at g2 g3 g4
    cases hA : s'.heap k; cases hB : s.heap k
    rw [hA, hB] at g1 g2 g3 g4
    simp only at g1 g2 g3 g4
    subst g1 g2 g3 g4; rfl
  · intro k
    rw [e5 k]
    have hiff : k ∈ us ++ e :: vs ↔ k ∈ a.seq l := by
      rw [hs]
      have : k ∈ xs ++ ys ↔ k ∈ us ++ vs := by rw [he']
      simp only [List.mem_append, List.mem_cons] at this ⊢; tauto
    simp only [hiff]
    by_cases hk : k ∈ a.seq l
    · simp only [hk, if_true]; exact (h.mem l k hk).2.2.2.2
    · simp only [hk, if_false]
      by_cases hlt' : k < a.fresh
      · simp [hlt']
      · simp only [hlt', if_false]; exact h.list_ge k (by omega)
  · have h2 := hsplit
    rw [List.nodup_cons] at h2
    rw [List.nodup_middle, List.nodup_cons]
    exact ⟨fun hm => h2.2 (by simp at hm ⊢; tauto), h2.1.2⟩
  · intro k hk; left
    rw [hs]
    have : k ∈ xs ++ ys ↔ k ∈ us ++ vs := by rw [he']
    simp only [List.mem_append, List.mem_cons] at this hk ⊢; tauto

end Gds.LinkedList
