import Verif.LinkedList.Props

/-! C92: iterators over a linked list that is edited between the pulls. -/

namespace Gds.LinkedList
variable {T : Type}

/-! ### Histories with pulls -/

/-- A call made by the goroutine that iterates: an operation on any list, or a pull of the iterator. -/
inductive Item (T : Type) where
  | op (o : Op T)
  | pull

/-- The results of the pulls of `it := l.Iter()` (linkedlist.go:74-82; the captured variable is `n`) while operations run between
    them; `iter` reads the heap as it is at the pull. -/
def live (z : T) (l : Nat) : St T → Option Nat → List (Item T) → Res (List (Option T))
  | _, _, [] => .ok []
  | s, n, .op o :: items => do
    let r ← step z s o
    live z l r.1 n items
  | s, n, .pull :: items => do
    let r ← iter s l n
    let rs ← live z l s r.2 items
    pure (r.1 :: rs)

/-! ### Specification -/

/-- The element after `cur`; the first one if `cur` is the list itself (nothing delivered yet, or the end reported). -/
def follow (l cur : Nat) (xs : List Nat) : Option Nat := if cur = l then xs.head? else following cur xs

/-- The elements and values delivered: each pull delivers the element that follows the last delivered one in the list as it is then. -/
def specLive (z : T) (l : Nat) : Abs T → Nat → List (Item T) → List (Option (Nat × T))
  | _, _, [] => []
  | a, cur, .op o :: items => specLive z l (specStep z a o).1 cur items
  | a, cur, .pull :: items =>
    match follow l cur (a.seq l) with
    | some x => some (x, a.value x) :: specLive z l a x items
    | none => none :: specLive z l a l items

/-- The operations are legal, the list is initialised when the iterator is pulled, and the element delivered last is always in the
    list. -/
def LegalLive (z : T) (l : Nat) : Abs T → Nat → List (Item T) → Prop
  | a, cur, [] => cur = l ∨ cur ∈ a.seq l
  | a, cur, .op o :: items => (cur = l ∨ cur ∈ a.seq l) ∧ Legal a o ∧ LegalLive z l (specStep z a o).1 cur items
  | a, cur, .pull :: items => (cur = l ∨ cur ∈ a.seq l) ∧ a.inited l = true ∧ LegalLive z l a ((follow l cur (a.seq l)).getD l) items

/-- `e` is in the list all the time. -/
def Stays (z : T) (l e : Nat) : Abs T → List (Item T) → Prop
  | a, [] => e ∈ a.seq l
  | a, .op o :: items => e ∈ a.seq l ∧ Stays z l e (specStep z a o).1 items
  | a, .pull :: items => e ∈ a.seq l ∧ Stays z l e a items

/-- The operation moves an element within `l`. -/
def moves (l : Nat) : Op T → Bool
  | .moveToFront k _ | .moveToBack k _ | .moveBefore k _ _ | .moveAfter k _ _ => k == l
  | _ => false

/-! ### One pull -/

/-- Where the iterator stands. -/
theorem follow_split {s : St T} {a : Abs T} (h : Inv s a) {l : Nat} (hl : a.isList l = true) {cur : Nat} (hc : cur = l ∨ cur ∈ a.seq l) :
    ∃ pre post, a.seq l = pre ++ post ∧ (l :: pre).getLast? = some cur ∧ follow l cur (a.seq l) = post.head? ∧
      (cur = l → pre = []) ∧ (cur ≠ l → ∃ p0, pre = p0 ++ [cur] ∧ cur ∉ p0) := by
  rcases hc with rfl | hc
  · exact ⟨[], _, rfl, rfl, by simp [follow], fun _ => rfl, fun hn => absurd rfl hn⟩
  · have hne : cur ≠ l := by
      rintro rfl
      have := (h.mem cur cur hc).2.2.1
      simp [hl] at this
    obtain ⟨p0, post, e⟩ := List.append_of_mem hc
    have hn := h.nodup l
    rw [e, List.nodup_append] at hn
    have hp0 : cur ∉ p0 := fun hx => hn.2.2 cur hx cur (by simp) rfl
    refine ⟨p0 ++ [cur], post, by simp [e], ?_, ?_, fun e => absurd e hne, fun _ => ⟨p0, rfl, hp0⟩⟩
    · rw [show l :: (p0 ++ [cur]) = (l :: p0) ++ [cur] by simp, List.getLast?_append]; simp
    · rw [follow, if_neg hne, e, following_split hp0]

theorem pull_live {s : St T} {a : Abs T} (h : Inv s a) {l : Nat} (hl : a.isList l = true) (hin : a.inited l = true) {cur : Nat}
    (hc : cur = l ∨ cur ∈ a.seq l) :
    iter s l (some cur) = match follow l cur (a.seq l) with
      | some x => .ok (some (a.value x), some x)
      | none => .ok (none, some l) := by
  obtain ⟨pre, post, e1, e2, e3, -⟩ := follow_split h hl hc
  rw [e3]
  have hr := h.ring l hl hin
  rw [e1] at hr
  cases post with
  | nil =>
    have := ((ring_cut hr).2.2 cur l e2 (by simp)).1
    simp [iter, deref, this]
  | cons y post =>
    have := ((ring_cut hr).2.2 cur y e2 (by simp)).1
    have hne : y ≠ l := by
      rintro rfl
      have := (h.mem y y (by rw [e1]; simp)).2.2.1
      simp [hl] at this
    simp [iter, deref, this, hne, h.val y]

theorem isList_step {z : T} {a : Abs T} {l : Nat} (hl : a.isList l = true) (o : Op T) : (specStep z a o).1.isList l = true := by
  cases o <;> simp only [specStep] <;> (try split) <;> simp_all [Abs.addList, Abs.alloc, Abs.setSeq, Abs.touch]

theorem live_refines_inv (z : T) (l : Nat) : ∀ (items : List (Item T)) (s : St T) (a : Abs T) (cur : Nat), Inv s a → a.isList l = true →
    LegalLive z l a cur items → live z l s (some cur) items = .ok ((specLive z l a cur items).map (Option.map Prod.snd)) := by
  intro items
  induction items with
  | nil => intro s a cur _ _ _; rfl
  | cons i items ih =>
    intro s a cur h hl hL
    cases i with
    | op o =>
      obtain ⟨-, h2, h3⟩ := hL
      obtain ⟨s', e, h'⟩ := step_refines z h o h2
      simp only [live, e, Res.bind_ok, specLive]
      exact ih s' _ cur h' (isList_step hl o) h3
    | pull =>
      obtain ⟨h1, h2, h3⟩ := hL
      have hp := pull_live h hl h2 h1
      simp only [live, hp, specLive]
      cases hf : follow l cur (a.seq l) with
      | none =>
        rw [hf] at h3
        simp [ih s a l h hl h3]
      | some x =>
        rw [hf] at h3
        simp [ih s a x h hl h3]

/-! ### What an operation does to the sequence -/

theorem sublist_filter_eq {xs ys : List Nat} (h : ys.Sublist xs) (hn : xs.Nodup) : xs.filter (fun x => decide (x ∈ ys)) = ys := by
  induction h with
  | slnil => rfl
  | @cons ys xs x h ih =>
    rw [List.nodup_cons] at hn
    rw [List.filter_cons, if_neg (by simpa using fun hx => hn.1 (h.subset hx)), ih hn.2]
  | @cons_cons ys xs x h ih =>
    rw [List.nodup_cons] at hn
    rw [List.filter_cons, if_pos (by simp)]
    congr 1
    rw [← ih hn.2]
    refine List.filter_congr fun y hy => ?_
    have : y ≠ x := fun e => hn.1 (e ▸ hy)
    simp [this, ih hn.2]

theorem sublist_of_subset {xs ys ps : List Nat} (h : ys.Sublist xs) (hp : ps.Sublist xs) (hn : xs.Nodup) (hs : ∀ p ∈ ps, p ∈ ys) : ps.Sublist ys := by
  have := hp.filter (fun x => decide (x ∈ ys))
  rwa [sublist_filter_eq h hn, List.filter_eq_self.2 (by simpa using hs)] at this

theorem sublist_after {c : Nat} {ps xs ys : List Nat} (h : (c :: ps).Sublist (xs ++ c :: ys)) (hc : c ∉ xs) : ps.Sublist ys := by
  induction xs with
  | nil => simpa using h
  | cons x xs ih =>
    simp only [List.mem_cons, not_or] at hc
    rw [List.cons_append] at h
    cases h with
    | cons _ h => exact ih h hc.2
    | cons_cons => exact absurd rfl hc.1

theorem putBefore_filter {m x f : Nat} (hx : f ≤ x) : ∀ xs : List Nat, ((putBefore m x xs).filter (fun k => decide (k < f))).Sublist xs
  | [] => by simp [putBefore]
  | y :: ys => by
    rw [putBefore]
    split
    · rw [List.filter_cons_of_neg (by simpa using hx)]
      exact List.filter_sublist
    · rw [List.filter_cons]
      split
      · exact (putBefore_filter hx ys).cons_cons _
      · exact (putBefore_filter hx ys).cons _

theorem putAfter_filter {m x f : Nat} (hx : f ≤ x) : ∀ xs : List Nat, ((putAfter m x xs).filter (fun k => decide (k < f))).Sublist xs
  | [] => by simp [putAfter]
  | y :: ys => by
    rw [putAfter]
    split
    · rw [List.filter_cons]
      split
      · rw [List.filter_cons_of_neg (by simpa using hx)]
        exact (List.filter_sublist).cons_cons _
      · rw [List.filter_cons_of_neg (by simpa using hx)]
        exact (List.filter_sublist).cons _
    · rw [List.filter_cons]
      split
      · exact (putAfter_filter hx ys).cons_cons _
      · exact (putAfter_filter hx ys).cons _

theorem ids_filter (a : Abs T) (n : Nat) : (a.ids n).filter (fun k => decide (k < a.fresh)) = [] := by
  simp [Abs.ids, List.filter_eq_nil_iff]

theorem alloc_fresh (a : Abs T) (vs : List T) : (a.alloc vs).fresh = a.fresh + vs.length := rfl

/-- An operation that moves nothing within `l` keeps the order of the old elements of `l`. -/
theorem step_sublist (z : T) (a : Abs T) (l : Nat) (o : Op T) (hm : moves l o = false) :
    (((specStep z a o).1.seq l).filter (fun k => decide (k < a.fresh))).Sublist (a.seq l) ∧ a.fresh ≤ (specStep z a o).1.fresh := by
  have F : ((a.seq l).filter (fun k => decide (k < a.fresh))).Sublist (a.seq l) := List.filter_sublist
  cases o with
  | newList => exact ⟨by simpa [specStep, Abs.addList, Abs.alloc] using F, by simp [specStep, Abs.addList, Abs.alloc]⟩
  | zeroList => exact ⟨by simpa [specStep, Abs.addList, Abs.alloc] using F, by simp [specStep, Abs.addList, Abs.alloc]⟩
  | pushFront k v =>
    refine ⟨?_, by simp [specStep, Abs.touch, Abs.setSeq, Abs.alloc]⟩
    simp only [specStep, Abs.touch, Abs.setSeq, Abs.alloc]
    split
    · subst_vars; simpa using F
    · exact F
  | pushBack k v =>
    refine ⟨?_, by simp [specStep, Abs.touch, Abs.setSeq, Abs.alloc]⟩
    simp only [specStep, Abs.touch, Abs.setSeq, Abs.alloc]
    split
    · subst_vars; simpa using F
    · exact F
  | insertBefore k v m =>
    simp only [specStep]
    split
    · refine ⟨?_, by simp [Abs.setSeq, Abs.alloc]⟩
      simp only [Abs.setSeq, Abs.alloc]
      split
      · subst_vars; exact putBefore_filter (Nat.le_refl _) _
      · exact F
    · exact ⟨F, Nat.le_refl _⟩
  | insertAfter k v m =>
    simp only [specStep]
    split
    · refine ⟨?_, by simp [Abs.setSeq, Abs.alloc]⟩
      simp only [Abs.setSeq, Abs.alloc]
      split
      · subst_vars; exact putAfter_filter (Nat.le_refl _) _
      · exact F
    · exact ⟨F, Nat.le_refl _⟩
  | remove k e =>
    refine ⟨?_, by simp [specStep, Abs.setSeq]⟩
    simp only [specStep, Abs.setSeq]
    split
    · subst_vars; exact List.filter_sublist.trans List.erase_sublist
    · exact F
  | moveToFront k e =>
    have : l ≠ k := by intro e; simp [moves, e] at hm
    simp only [specStep]
    split
    · exact ⟨by simpa [Abs.setSeq, this] using F, by simp [Abs.setSeq]⟩
    · exact ⟨F, Nat.le_refl _⟩
  | moveToBack k e =>
    have : l ≠ k := by intro e; simp [moves, e] at hm
    simp only [specStep]
    split
    · exact ⟨by simpa [Abs.setSeq, this] using F, by simp [Abs.setSeq]⟩
    · exact ⟨F, Nat.le_refl _⟩
  | moveBefore k e m =>
    have : l ≠ k := by intro e; simp [moves, e] at hm
    simp only [specStep]
    split
    · exact ⟨by simpa [Abs.setSeq, this] using F, by simp [Abs.setSeq]⟩
    · exact ⟨F, Nat.le_refl _⟩
  | moveAfter k e m =>
    have : l ≠ k := by intro e; simp [moves, e] at hm
    simp only [specStep]
    split
    · exact ⟨by simpa [Abs.setSeq, this] using F, by simp [Abs.setSeq]⟩
    · exact ⟨F, Nat.le_refl _⟩
  | pushBackList k o =>
    refine ⟨?_, by simp [specStep, Abs.touch, Abs.setSeq, Abs.alloc]⟩
    simp only [specStep, Abs.touch, Abs.setSeq, Abs.alloc]
    split
    · subst_vars; rw [List.filter_append, ids_filter, List.append_nil]; exact F
    · exact F
  | pushFrontList k o =>
    refine ⟨?_, by simp [specStep, Abs.touch, Abs.setSeq, Abs.alloc]⟩
    simp only [specStep, Abs.touch, Abs.setSeq, Abs.alloc]
    split
    · subst_vars; rw [List.filter_append, List.filter_reverse, ids_filter, List.reverse_nil, List.nil_append]; exact F
    · exact F
  | clear k | init k =>
    refine ⟨?_, by simp [specStep, Abs.setSeq]⟩
    simp only [specStep, Abs.setSeq]
    split
    · simp
    · exact F
  | setValue | len | front | back | next | prev | value | toSlice => exact ⟨F, Nat.le_refl _⟩

/-! ### C92 -/

theorem live_once (z : T) (l : Nat) : ∀ (items : List (Item T)) (s : St T) (a : Abs T) (cur : Nat), Inv s a → a.isList l = true →
    LegalLive z l a cur items → (∀ o, .op o ∈ items → moves l o = false) → ∀ pre post, a.seq l = pre ++ post → (l :: pre).getLast? = some cur →
    ∀ ds : List (Nat × T), specLive z l a cur items = ds.map some ++ [none] → (ds.map (·.1)).Nodup ∧ (∀ d ∈ ds, d.1 ∈ post ∨ a.fresh ≤ d.1) ∧
      ∀ ps : List Nat, ps.Sublist post → (∀ e ∈ ps, Stays z l e a items) → ps.Sublist (ds.map (·.1)) := by
  intro items
  induction items with
  | nil => intro s a cur _ _ _ _ pre post _ _ ds hd; simp [specLive] at hd
  | cons i items ih =>
    intro s a cur h hl hL hm pre post hs hcur ds hd
    have hn := h.nodup l
    -- the split at `cur` is unique
    have key : ∀ {s : St T} {a : Abs T} {cur : Nat} (h : Inv s a) (hl : a.isList l = true) (pre post : List Nat), a.seq l = pre ++ post → (l :: pre).getLast? = some cur →
        follow l cur (a.seq l) = post.head? ∧ (cur = l → pre = []) ∧ (cur ≠ l → ∃ p0, pre = p0 ++ [cur] ∧ cur ∉ p0) := by
      intro s a cur h hl pre post hs hcur
      have hndl := h.ndl hl
      rcases List.eq_nil_or_concat pre with rfl | ⟨p0, c, rfl⟩
      · simp at hcur; subst hcur; simp [follow, hs]
      · have : c = cur := by
          rw [show l :: (p0.concat c) = (l :: p0) ++ [c] by simp, List.getLast?_append] at hcur; simpa using hcur
        subst this
        have hne : c ≠ l := by
          rintro rfl; rw [hs] at hndl; simp at hndl
        have hp0 : c ∉ p0 := by
          rw [hs] at hndl
          intro hx
          have := (List.nodup_cons.1 hndl).2
          simp only [List.concat_eq_append, List.append_assoc, List.nodup_append] at this
          exact this.2.2 c hx c (by simp) rfl
        refine ⟨?_, fun e => absurd e hne, fun _ => ⟨p0, by simp, hp0⟩⟩
        rw [follow, if_neg hne, hs]
        simp only [List.concat_eq_append, List.append_assoc, List.singleton_append]
        exact following_split hp0
    obtain ⟨k1, k2, k3⟩ := key h hl pre post hs hcur
    cases i with
    | op o =>
      obtain ⟨hc, h2, h3⟩ := hL
      obtain ⟨s', e, h'⟩ := step_refines z h o h2
      have hl' := isList_step (z := z) hl o
      have hc' : cur = l ∨ cur ∈ (specStep z a o).1.seq l := by
        cases items with
        | nil => exact h3
        | cons i _ => cases i <;> exact h3.1
      obtain ⟨pre', post', hs', hcur', -, k2', k3'⟩ := follow_split h' hl' hc'
      obtain ⟨S, hf⟩ := step_sublist z a l o (hm o (by simp))
      have tr : ∀ ps : List Nat, ps.Sublist post → (∀ e ∈ ps, e ∈ (specStep z a o).1.seq l) → ps.Sublist post' := by
        intro ps hp hin
        have hold : ∀ e ∈ a.seq l, e < a.fresh := fun e he => (h.mem l e he).2.1
        by_cases hcl : cur = l
        · rw [k2' hcl, List.nil_append] at hs'
          rw [k2 hcl, List.nil_append] at hs
          rw [hs] at S hold hn
          exact (sublist_of_subset S hp hn fun e he => List.mem_filter.2 ⟨hin e he, by simpa using hold e (hp.subset he)⟩).trans
            (hs' ▸ List.filter_sublist)
        · obtain ⟨p0, rfl, -⟩ := k3 hcl
          obtain ⟨p0', rfl, hp0'⟩ := k3' hcl
          have h1 : (cur :: ps).Sublist (a.seq l) := by
            rw [hs, List.append_assoc, List.singleton_append]
            exact (hp.cons_cons cur).trans (List.sublist_append_right _ _)
          have h2 := sublist_of_subset S h1 hn fun e he => List.mem_filter.2 ⟨by
            rcases List.mem_cons.1 he with rfl | he
            · exact hc'.resolve_left hcl
            · exact hin e he, by simpa using hold e (h1.subset he)⟩
          have h3 := h2.trans List.filter_sublist
          rw [hs', List.append_assoc, List.singleton_append] at h3
          exact sublist_after h3 hp0'
      have back : ∀ x ∈ post', x < a.fresh → x ∈ post := by
        intro x hx hlt
        by_cases hcl : cur = l
        · rw [k2' hcl, List.nil_append] at hs'
          rw [k2 hcl, List.nil_append] at hs
          have := S.subset (List.mem_filter.2 ⟨hs' ▸ hx, by simpa using hlt⟩)
          rwa [hs] at this
        · obtain ⟨p0, rfl, hp0⟩ := k3 hcl
          obtain ⟨p0', rfl, -⟩ := k3' hcl
          have hcf : cur < a.fresh := (h.mem l cur (by rw [hs]; simp)).2.1
          have h1 : [cur, x].Sublist ((specStep z a o).1.seq l) := by
            rw [hs', List.append_assoc, List.singleton_append]
            exact ((List.singleton_sublist.2 hx).cons_cons cur).trans (List.sublist_append_right _ _)
          have h2 := (h1.filter (fun k => decide (k < a.fresh)))
          rw [List.filter_eq_self.2 (by simp [hcf, hlt])] at h2
          have h3 := h2.trans S
          rw [hs, List.append_assoc, List.singleton_append] at h3
          exact List.singleton_sublist.1 (sublist_after h3 hp0)
      obtain ⟨r1, r2, r3⟩ := ih s' _ cur h' hl' h3 (fun o ho => hm o (by simp [ho])) pre' post' hs' hcur' ds hd
      refine ⟨r1, fun d hdd => ?_, fun ps hp hst => r3 ps (tr ps hp fun e he => ?_) fun e he => (hst e he).2⟩
      · rcases r2 d hdd with hx | hx
        · by_cases hlt : d.1 < a.fresh
          · exact Or.inl (back _ hx hlt)
          · exact Or.inr (by omega)
        · exact Or.inr (by omega)
      · have := (hst e he).2
        cases items with
        | nil => exact this
        | cons i _ => cases i <;> exact this.1
    | pull =>
      obtain ⟨hc, h2, h3⟩ := hL
      rw [specLive] at hd
      rw [k1] at hd h3
      cases post with
      | nil =>
        simp only [List.head?_nil] at hd
        cases ds with
        | nil => exact ⟨by simp, by simp, fun ps hp _ => by simpa using hp⟩
        | cons d ds => simp at hd
      | cons x post =>
        simp only [List.head?_cons] at hd h3
        cases ds with
        | nil => simp at hd
        | cons d ds =>
          simp only [List.map_cons, List.cons_append, List.cons.injEq, Option.some.injEq] at hd
          obtain ⟨rfl, hd⟩ := hd
          obtain ⟨r1, r2, r3⟩ := ih s a x h hl h3 (fun o ho => hm o (by simp [ho])) (pre ++ [x]) post (by simp [hs])
            (by rw [show l :: (pre ++ [x]) = (l :: pre) ++ [x] by simp, List.getLast?_append]; simp) ds hd
          have hx : x < a.fresh := (h.mem l x (by rw [hs]; simp)).2.1
          have hxp : x ∉ post := by
            rw [hs, List.nodup_append] at hn
            exact (List.nodup_cons.1 hn.2.1).1
          refine ⟨?_, ?_, ?_⟩
          · rw [List.map_cons, List.nodup_cons]
            refine ⟨fun hmem => ?_, r1⟩
            obtain ⟨d, hd1, hd2⟩ := List.mem_map.1 hmem
            rcases r2 d hd1 with h5 | h5
            · simp only at hd2; rw [hd2] at h5; exact hxp h5
            · simp only at hd2; omega
          · intro d hdd
            rcases List.mem_cons.1 hdd with rfl | hdd
            · simp
            · rcases r2 d hdd with h5 | h5
              · exact Or.inl (by simp [h5])
              · exact Or.inr h5
          · intro ps hp hst
            rw [List.map_cons]
            cases hp with
            | cons _ hp => exact (r3 ps hp fun e he => (hst e he).2).cons _
            | cons_cons _ hp => exact (r3 _ hp fun e he => (hst e (by simp [he])).2).cons_cons _

/-- C92: in every history of calls and pulls, as long as the element delivered last stays in the list, each pull delivers the element
    that follows it in the list as it is at that moment (edited or not), and reports the end when there is none. -/
theorem live_iter_refines {z : T} {ops : List (Op T)} {s : St T} {a : Abs T} (h : After z ops s a) {l : Nat} (hl : a.isList l = true)
    (items : List (Item T)) (hL : LegalLive z l a l items) :
    live z l s (some l) items = .ok ((specLive z l a l items).map (Option.map Prod.snd)) :=
  live_refines_inv z l items s a l h.inv hl hL

/-- C92: while the list is edited by anything but moves within it, an iteration up to the first report of the end delivers every
    element that is in the list all the time, in list order, and delivers no element twice. -/
theorem live_iter_once {z : T} {ops : List (Op T)} {s : St T} {a : Abs T} (h : After z ops s a) {l : Nat} (hl : a.isList l = true)
    (items : List (Item T)) (hL : LegalLive z l a l items) (hm : ∀ o, .op o ∈ items → moves l o = false) (ds : List (Nat × T))
    (hd : specLive z l a l items = ds.map some ++ [none]) :
    live z l s (some l) items = .ok (ds.map (fun d => some d.2) ++ [none]) ∧ (ds.map (·.1)).Nodup ∧
    ∀ ps : List Nat, ps.Sublist (a.seq l) → (∀ e ∈ ps, Stays z l e a items) → ps.Sublist (ds.map (·.1)) := by
  obtain ⟨r1, -, r3⟩ := live_once z l items s a l h.inv hl hL hm [] (a.seq l) rfl rfl ds hd
  refine ⟨?_, r1, r3⟩
  rw [live_iter_refines h hl items hL, hd]
  simp [Function.comp_def]

/-- C92 is false when the element delivered last is removed: the next pull panics (nil dereference), on every list. -/
theorem live_iter_removed_refuted {z : T} {ops : List (Op T)} {s : St T} {a : Abs T} (h : After z ops s a) {l e : Nat}
    (hl : a.isList l = true) (he : e ∈ a.seq l) (items : List (Item T)) :
    live z l s (some e) (.op (.remove l e) :: .pull :: items) = .panic .nilDeref := by
  have hi := h.inv
  have hin := hi.init_of_mem he
  obtain ⟨xs, ys, es⟩ := List.append_of_mem he
  have hr := hi.ring l hl hin
  have hnd := hi.ndl hl
  have hr1 := hr
  rw [es] at hr hnd hr1
  rw [show xs ++ e :: ys = (xs ++ [e]) ++ ys by simp] at hr1
  obtain ⟨p, hp⟩ : ∃ p, (l :: xs).getLast? = some p := by
    cases h : (l :: xs).getLast? with
    | none => simp at h
    | some p => exact ⟨p, rfl⟩
  obtain ⟨n, hn⟩ : ∃ n, (ys ++ [l]).head? = some n := by cases ys <;> simp
  have l1 := (ring_cut hr).2.2 p e hp (by simp)
  have l2 := (ring_cut hr1).2.2 e n (by rw [show l :: (xs ++ [e]) = (l :: xs) ++ [e] by simp, List.getLast?_append]; simp) hn
  have hep : e ≠ p := by
    rintro rfl
    have hm := List.mem_of_getLast? hp
    rw [show l :: (xs ++ e :: ys) = (l :: xs) ++ (e :: ys) by simp, List.nodup_append] at hnd
    exact hnd.2.2 e hm e (by simp) rfl
  have hen : e ≠ n := by
    rintro rfl
    have hm := List.mem_of_mem_head? (Option.mem_def.2 hn)
    rw [List.nodup_cons, List.nodup_append] at hnd
    rcases List.mem_append.1 hm with hm | hm
    · exact (List.nodup_cons.1 hnd.2.2.1).1 hm
    · simp at hm; exact hnd.1 (by simp [hm])
  obtain ⟨s', e1, -, -, -, -, e2, -⟩ := remove_eq (s := s) (l := l) l1.2 l2.1 hep hen
  have hlist := (hi.mem l e he).2.2.2.2
  simp [live, step, removeElem, hlist, e1, iter, deref, e2]

/-- The hypotheses of C92 are met: three elements 5, 10, 20; 5 is delivered, 7 is inserted after it and 10 removed; then 7 and 20
    are delivered and the end is reported. -/
example : ∃ s a, After (0 : Int) [.newList, .pushBack 0 10, .pushBack 0 20, .pushFront 0 5] s a ∧
    LegalLive 0 0 a 0 [.pull, .op (.insertAfter 0 7 3), .op (.remove 0 1), .pull, .pull, .pull] ∧
    live 0 0 s (some 0) [.pull, .op (.insertAfter 0 7 3), .op (.remove 0 1), .pull, .pull, .pull] = .ok [some 5, some 7, some 20, none] ∧
    (∀ e ∈ [3, 2], Stays 0 0 e a [.pull, .op (.insertAfter 0 7 3), .op (.remove 0 1), .pull, .pull, .pull]) := by
  have hleg : LegalHist (0 : Int) (Abs.empty 0) [.newList, .pushBack 0 10, .pushBack 0 20, .pushFront 0 5] := by
    simp [LegalHist, Legal, specStep, Abs.empty, Abs.addList, Abs.alloc, Abs.setSeq, Abs.touch]
  obtain ⟨s', e, -⟩ := run_refines 0 _ _ _ (inv_empty 0) hleg
  have hA : After (0 : Int) [.newList, .pushBack 0 10, .pushBack 0 20, .pushFront 0 5] s' _ := ⟨hleg, ⟨_, e⟩, rfl⟩
  have hL : LegalLive 0 0 (specRun 0 (Abs.empty (0 : Int)) [.newList, .pushBack 0 10, .pushBack 0 20, .pushFront 0 5]).1 0
      [.pull, .op (.insertAfter 0 7 3), .op (.remove 0 1), .pull, .pull, .pull] := by
    simp [LegalLive, Legal, specRun, specStep, Abs.empty, Abs.addList, Abs.alloc, Abs.setSeq, Abs.touch, follow, following, putAfter]
  refine ⟨s', _, hA, hL, ?_, ?_⟩
  · rw [live_iter_refines hA rfl _ hL]
    simp [specLive, specRun, specStep, Abs.empty, Abs.addList, Abs.alloc, Abs.setSeq, Abs.touch, follow, following, putAfter]
  · simp [Stays, specRun, specStep, Abs.empty, Abs.addList, Abs.alloc, Abs.setSeq, Abs.touch, putAfter]

end Gds.LinkedList
