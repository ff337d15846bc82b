import Verif.LinkedList.Model
import Mathlib.Data.List.Chain
import Mathlib.Data.List.Nodup

namespace Gds.LinkedList
variable {T : Type _}

/-- `u` and `v` are neighbours in both directions. -/
def Lk (h : Nat → Elem T) (u v : Nat) : Prop := (h u).next = some v ∧ (h v).prev = some u

/-- The root `l` and the elements `xs` form a ring. -/
def Ring (h : Nat → Elem T) (l : Nat) (xs : List Nat) : Prop := List.IsChain (Lk h) ((l :: xs) ++ [l])

theorem chain_congr {R S : Nat → Nat → Prop} {c : List Nat}
    (H : ∀ u v, u ∈ c.dropLast → v ∈ c.tail → R u v → S u v) (h : List.IsChain R c) : List.IsChain S c := by
  induction c with
  | nil => exact List.isChain_nil
  | cons a c ih =>
    cases c with
    | nil => exact List.isChain_singleton _
    | cons b c =>
      rw [List.isChain_cons_cons] at h ⊢
      refine ⟨H a b (by simp) (by simp) h.1, ih (fun u v hu hv => H u v ?_ ?_) h.2⟩
      · simp only [List.dropLast_cons₂, List.mem_cons]; exact Or.inr hu
      · simp only [List.tail_cons] at hv ⊢; exact List.mem_cons_of_mem _ hv

theorem ring_congr {h h' : Nat → Elem T} {l : Nat} {xs : List Nat}
    (hn : ∀ k ∈ l :: xs, (h' k).next = (h k).next) (hp : ∀ k ∈ l :: xs, (h' k).prev = (h k).prev)
    (hr : Ring h l xs) : Ring h' l xs := by
  refine chain_congr (fun u v hu hv huv => ?_) hr
  have hu' : u ∈ l :: xs := by rw [List.dropLast_concat] at hu; exact hu
  have hv' : v ∈ l :: xs := by
    simp only [List.cons_append, List.tail_cons, List.mem_append, List.mem_singleton] at hv
    simp; tauto
  exact ⟨by rw [hn u hu']; exact huv.1, by rw [hp v hv']; exact huv.2⟩

/-- Cutting a ring in two: the neighbours at the cut. -/
theorem ring_cut {h : Nat → Elem T} {l : Nat} {xs ys : List Nat} (hr : Ring h l (xs ++ ys)) :
    List.IsChain (Lk h) (l :: xs) ∧ List.IsChain (Lk h) (ys ++ [l]) ∧
    ∀ a n, (l :: xs).getLast? = some a → (ys ++ [l]).head? = some n → Lk h a n := by
  unfold Ring at hr
  have e : (l :: (xs ++ ys)) ++ [l] = (l :: xs) ++ (ys ++ [l]) := by simp
  rw [e, List.isChain_append] at hr
  refine ⟨hr.1, hr.2.1, fun a n ha hn => hr.2.2 a (by simp [ha]) n (by simp [hn])⟩

theorem ring_of_cut {h : Nat → Elem T} {l a n : Nat} {xs ys : List Nat}
    (h1 : List.IsChain (Lk h) (l :: xs)) (h2 : List.IsChain (Lk h) (ys ++ [l]))
    (ha : (l :: xs).getLast? = some a) (hn : (ys ++ [l]).head? = some n) (h3 : Lk h a n) :
    Ring h l (xs ++ ys) := by
  unfold Ring
  have e : (l :: (xs ++ ys)) ++ [l] = (l :: xs) ++ (ys ++ [l]) := by simp
  rw [e, List.isChain_append]
  refine ⟨h1, h2, fun a' ha' n' hn' => ?_⟩
  simp only [Option.mem_def] at ha' hn'
  rw [ha] at ha'; rw [hn] at hn'
  cases ha'; cases hn'; exact h3

/-- The last element before a cut and the first one after it always exist. -/
theorem cut_ends (l : Nat) (xs ys : List Nat) :
    ∃ a n, (l :: xs).getLast? = some a ∧ (ys ++ [l]).head? = some n := by
  refine ⟨(l :: xs).getLast (by simp), (ys ++ [l]).head (by simp), ?_, ?_⟩
  · rw [List.getLast?_eq_some_getLast]
  · rw [List.head?_eq_some_head]

theorem getLast_not_dropLast {c : List Nat} {a u : Nat} (hnd : c.Nodup) (ha : c.getLast? = some a)
    (hu : u ∈ c.dropLast) : u ≠ a := by
  rintro rfl
  obtain ⟨hne, rfl⟩ : ∃ hne, u = c.getLast hne := by
    cases c with
    | nil => simp at ha
    | cons x c => refine ⟨by simp, ?_⟩; rw [List.getLast?_eq_some_getLast (by simp)] at ha; simpa using ha.symm
  have := hnd
  rw [← List.dropLast_append_getLast hne] at this
  rw [List.nodup_append] at this
  exact this.2.2 _ hu _ (by simp) rfl

/-- Both halves survive a change of the links at the cut. -/
theorem halves_congr {h h' : Nat → Elem T} {l a n : Nat} {xs ys : List Nat}
    (hnd : (l :: (xs ++ ys)).Nodup)
    (ha : (l :: xs).getLast? = some a) (hn : (ys ++ [l]).head? = some n)
    (hnx : ∀ k ∈ l :: (xs ++ ys), k ≠ a → (h' k).next = (h k).next)
    (hpv : ∀ k ∈ l :: (xs ++ ys), k ≠ n → (h' k).prev = (h k).prev) :
    (List.IsChain (Lk h) (l :: xs) → List.IsChain (Lk h') (l :: xs)) ∧
    (List.IsChain (Lk h) (ys ++ [l]) → List.IsChain (Lk h') (ys ++ [l])) := by
  have hnd1 : (l :: xs).Nodup := by
    refine hnd.sublist ?_
    simp
  have hmem_a : a ∈ l :: xs := List.mem_of_mem_getLast? ha
  have hnx' : ∀ v ∈ xs, v ≠ n := by
    rintro v hv rfl
    cases ys with
    | nil => simp at hn; subst hn; simp at hnd; exact hnd.1 hv
    | cons y ys =>
      simp at hn; subst hn
      rw [List.nodup_cons, List.nodup_append] at hnd
      exact hnd.2.2.2 _ hv _ (by simp) rfl
  have hays : ∀ u ∈ ys, u ≠ a := by
    rintro u hu rfl
    simp only [List.mem_cons] at hmem_a
    rcases hmem_a with rfl | hm
    · simp at hnd; tauto
    · rw [List.nodup_cons, List.nodup_append] at hnd
      exact hnd.2.2.2 _ hm _ hu rfl
  constructor
  · refine chain_congr fun u v hu hv huv => ?_
    have hu2 := (List.dropLast_sublist _).subset hu
    simp only [List.tail_cons] at hv
    refine ⟨?_, ?_⟩
    · rw [hnx u (by simp at hu2 ⊢; tauto) (getLast_not_dropLast hnd1 ha hu)]; exact huv.1
    · rw [hpv v (by simp; tauto) (hnx' v hv)]; exact huv.2
  · refine chain_congr fun u v hu hv huv => ?_
    simp only [List.dropLast_concat] at hu
    refine ⟨?_, ?_⟩
    · rw [hnx u (by simp; tauto) (hays u hu)]; exact huv.1
    · have hv1 : v ∈ l :: (xs ++ ys) := by
        have := List.mem_of_mem_tail hv; simp at this ⊢; tauto
      have hv2 : v ≠ n := by
        rintro rfl
        cases ys with
        | nil => simp at hv
        | cons y ys =>
          simp at hn hv
          subst hn
          rcases hv with hv | rfl
          · rw [List.nodup_cons, List.nodup_append] at hnd
            have := hnd.2.2.1
            simp at this; exact this.1 hv
          · simp at hnd
      rw [hpv v hv1 hv2]; exact huv.2

/-- Linking a new element in at a cut. -/
theorem ring_link {h h' : Nat → Elem T} {l e a n : Nat} {xs ys : List Nat}
    (hr : Ring h l (xs ++ ys)) (hnd : (l :: (xs ++ ys)).Nodup)
    (ha : (l :: xs).getLast? = some a) (hn : (ys ++ [l]).head? = some n)
    (he : e ∉ l :: (xs ++ ys))
    (hen : (h' e).next = some n) (hep : (h' e).prev = some a) (han : (h' a).next = some e) (hnp : (h' n).prev = some e)
    (hnx : ∀ k, k ≠ e → k ≠ a → (h' k).next = (h k).next)
    (hpv : ∀ k, k ≠ e → k ≠ n → (h' k).prev = (h k).prev) :
    Ring h' l (xs ++ e :: ys) := by
  obtain ⟨c1, c2, -⟩ := ring_cut hr
  obtain ⟨k1, k2⟩ := halves_congr (h' := h') hnd ha hn
    (fun k hk => hnx k (by rintro rfl; exact he hk)) (fun k hk => hpv k (by rintro rfl; exact he hk))
  refine ring_of_cut (a := a) (n := e) (k1 c1) ?_ ha (by simp) ⟨han, hep⟩
  rw [List.cons_append, List.isChain_cons]
  refine ⟨fun y hy => ?_, k2 c2⟩
  simp only [Option.mem_def] at hy
  rw [hn] at hy; cases hy
  exact ⟨hen, hnp⟩

/-- Unlinking an element. -/
theorem ring_unlink {h h' : Nat → Elem T} {l e a n : Nat} {xs ys : List Nat}
    (hr : Ring h l (xs ++ e :: ys)) (hnd : (l :: (xs ++ e :: ys)).Nodup)
    (ha : (l :: xs).getLast? = some a) (hn : (ys ++ [l]).head? = some n)
    (han : (h' a).next = some n) (hnp : (h' n).prev = some a)
    (hnx : ∀ k, k ≠ e → k ≠ a → (h' k).next = (h k).next)
    (hpv : ∀ k, k ≠ e → k ≠ n → (h' k).prev = (h k).prev) :
    Ring h' l (xs ++ ys) := by
  obtain ⟨c1, c2, -⟩ := ring_cut hr
  have hnd' : (l :: (xs ++ ys)).Nodup := by
    refine hnd.sublist ?_
    simp
  have he : e ∉ l :: (xs ++ ys) := by
    have := hnd
    rw [show l :: (xs ++ e :: ys) = (l :: xs) ++ e :: ys by simp] at this
    have := (List.nodup_middle.1 this)
    rw [List.nodup_cons] at this
    simpa using this.1
  obtain ⟨k1, k2⟩ := halves_congr (h := h) (h' := h') hnd' ha hn
    (fun k hk => hnx k (by rintro rfl; exact he hk)) (fun k hk => hpv k (by rintro rfl; exact he hk))
  rw [List.cons_append, List.isChain_cons] at c2
  exact ring_of_cut (k1 c1) (k2 c2.2) ha hn ⟨han, hnp⟩

/-- Neighbours of a member. -/
theorem ring_mem {h : Nat → Elem T} {l e : Nat} {xs ys : List Nat} (hr : Ring h l (xs ++ e :: ys)) :
    (h e).prev = (l :: xs).getLast? ∧ (h e).next = (ys ++ [l]).head? := by
  obtain ⟨a, n, ha, hn⟩ := cut_ends l xs ys
  obtain ⟨-, c2, c3⟩ := ring_cut hr
  refine ⟨?_, ?_⟩
  · rw [ha]; exact (c3 a e ha (by simp)).2
  · rw [List.cons_append, List.isChain_cons] at c2
    rw [hn]; exact (c2.1 n (by simp [hn])).1

theorem ring_root {h : Nat → Elem T} {l : Nat} {xs : List Nat} (hr : Ring h l xs) :
    (h l).next = (xs ++ [l]).head? ∧ (h l).prev = (l :: xs).getLast? := by
  obtain ⟨a, n, ha, hn⟩ := cut_ends l xs xs
  refine ⟨?_, ?_⟩
  · have := (ring_cut (xs := []) (ys := xs) hr).2.2 l n (by simp) hn
    rw [hn]; exact this.1
  · have hr' : Ring h l (xs ++ []) := by simpa using hr
    have := (ring_cut hr').2.2 a l ha (by simp)
    rw [ha]; exact this.2

theorem ring_nil (h : Nat → Elem T) (l : Nat) (h1 : (h l).next = some l) (h2 : (h l).prev = some l) : Ring h l [] := by
  simp [Ring, Lk, h1, h2]

/-! ### Effects of the primitive operations -/

theorem insert_eq {s : St T} {l e a n : Nat} (hn : (s.heap a).next = some n) (hea : e ≠ a) (hen : e ≠ n) :
    ∃ s', insert s l e (some a) = .ok s' ∧ s'.alloc = s.alloc ∧
      s'.len = (fun k => if k = l then s.len l + 1 else s.len k) ∧
      (∀ k, (s'.heap k).value = (s.heap k).value) ∧
      (∀ k, (s'.heap k).list = if k = e then some l else (s.heap k).list) ∧
      (∀ k, (s'.heap k).next = if k = e then some n else if k = a then some e else (s.heap k).next) ∧
      (∀ k, (s'.heap k).prev = if k = n then some e else if k = e then some a else (s.heap k).prev) := by
  have hea' : a ≠ e := hea.symm
  simp only [insert, St.setPrev, St.setNext, St.setList, St.setLen, deref, Res.bind_ok, if_pos, if_neg hea', hn,
    Res.pure_eq, if_neg hea]
  refine ⟨_, rfl, rfl, rfl, ?_, ?_, ?_, ?_⟩ <;> intro k <;> grind

theorem remove_eq {s : St T} {l e a n : Nat} (hp : (s.heap e).prev = some a) (hn : (s.heap e).next = some n)
    (hea : e ≠ a) (hen : e ≠ n) :
    ∃ s', remove s l e = .ok s' ∧ s'.alloc = s.alloc ∧
      s'.len = (fun k => if k = l then s.len l - 1 else s.len k) ∧
      (∀ k, (s'.heap k).value = (s.heap k).value) ∧
      (∀ k, (s'.heap k).list = if k = e then none else (s.heap k).list) ∧
      (∀ k, (s'.heap k).next = if k = e then none else if k = a then some n else (s.heap k).next) ∧
      (∀ k, (s'.heap k).prev = if k = e then none else if k = n then some a else (s.heap k).prev) := by
  simp only [remove, St.setPrev, St.setNext, St.setList, St.setLen, deref, Res.bind_ok, if_neg hea, if_neg hen, hp, hn,
    Res.pure_eq]
  refine ⟨_, rfl, rfl, rfl, ?_, ?_, ?_, ?_⟩ <;> intro k <;> grind

/-- `move` unlinks `e` (neighbours `a`, `n`) and links it in after `b` (whose successor is then `m`). -/
theorem move_eq {s : St T} {e a n b m : Nat} (hp : (s.heap e).prev = some a) (hn : (s.heap e).next = some n)
    (hea : e ≠ a) (hen : e ≠ n) (heb : e ≠ b) (hem : e ≠ m)
    (hm : (if b = a then some n else (s.heap b).next) = some m) :
    ∃ s', move s e (some b) = .ok s' ∧ s'.alloc = s.alloc ∧ s'.len = s.len ∧
      (∀ k, (s'.heap k).value = (s.heap k).value) ∧
      (∀ k, (s'.heap k).list = (s.heap k).list) ∧
      (∀ k, (s'.heap k).next = if k = e then some m else if k = b then some e else
        if k = a then some n else (s.heap k).next) ∧
      (∀ k, (s'.heap k).prev = if k = m then some e else if k = e then some b else
        if k = n then some a else (s.heap k).prev) := by
  have hne : ¬ (some e = some b) := by simpa using heb
  have hbe : b ≠ e := heb.symm
  simp only [move, if_neg hne, St.setPrev, St.setNext, deref, Res.bind_ok, if_neg hea, if_neg hen, if_neg heb,
    if_neg hbe, hp, hn, Res.pure_eq, if_pos]
  by_cases hba : b = a
  · subst hba
    simp only [if_pos] at hm
    cases hm
    by_cases hbn : b = n
    · simp only [hbn, if_pos, if_neg hen, Res.bind_ok]
      refine ⟨_, rfl, rfl, rfl, ?_, ?_, ?_, ?_⟩ <;> intro k <;> grind
    · simp only [if_neg hbn, if_pos, Res.bind_ok, if_neg heb]
      refine ⟨_, rfl, rfl, rfl, ?_, ?_, ?_, ?_⟩ <;> intro k <;> grind
  · simp only [if_neg hba] at hm
    by_cases hbn : b = n
    · simp only [hbn, if_pos] at hm ⊢
      have hna : ¬ n = a := by rintro rfl; exact hba hbn
      simp only [if_neg hna, hm, Res.bind_ok, if_neg hen, if_neg hen.symm]
      refine ⟨_, rfl, rfl, rfl, ?_, ?_, ?_, ?_⟩ <;> intro k <;> grind
    · simp only [if_neg hbn, if_neg hba, if_neg hbe, if_neg heb, hm, Res.bind_ok]
      refine ⟨_, rfl, rfl, rfl, ?_, ?_, ?_, ?_⟩ <;> intro k <;> grind

end Gds.LinkedList
