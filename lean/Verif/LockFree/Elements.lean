import Verif.LockFree.Progress

/-! The walk along a level and the elements in order. -/

namespace Gds.LockFree
variable {T : Type _} {cmp : Compare T}

theorem mem_walk_of_path {m : Mem T} (h : MInv cmp m) {P : List Nat} : ∀ {a x : Nat}, Walk m 0 a P tailA → Path m a x → x = a ∨ x ∈ P ∨ x = tailA := by
  induction P with
  | nil =>
    intro a x hw hp
    cases hp with
    | refl => exact .inl rfl
    | step h1 h2 =>
      have := Nx.unique h1 hw
      subst this
      cases h2 with
      | refl => exact .inr (.inr rfl)
      | step h3 _ => exact absurd rfl (h.ne_tail_of_nx h3)
  | cons c P ih =>
    intro a x hw hp
    cases hp with
    | refl => exact .inl rfl
    | step h1 h2 =>
      have := Nx.unique h1 hw.1
      subst this
      rcases ih hw.2 h2 with e | e | e
      · exact .inr (.inl (by rw [e]; exact List.mem_cons_self ..))
      · exact .inr (.inl (List.mem_cons_of_mem _ e))
      · exact .inr (.inr e)

theorem path_of_mem_walk {m : Mem T} {P : List Nat} {b : Nat} : ∀ {a x : Nat}, Walk m 0 a P b → x ∈ P → Path m a x := by
  induction P with
  | nil => intro a x _ hx; cases hx
  | cons c P ih =>
    intro a x hw hx
    rcases List.mem_cons.1 hx with e | e
    · subst e; exact .step hw.1 (.refl _)
    · exact .step hw.1 (ih hw.2 e)

/-- Along every level the walk from any node reaches the tail, through nodes in order. -/
theorem walk_exists (hc : cmp.Lawful) {m : Mem T} (h : MInv cmp m) {l : Nat} :
    ∀ r a, a < m.alloc → a ≠ tailA → l < m.lvl a → rk cmp m m.alloc a ≤ r → ∃ P, Walk m l a P tailA ∧ (a :: P).Pairwise (Ord cmp m) ∧
      ∀ x ∈ P, x < m.alloc ∧ x ≠ headA ∧ x ≠ tailA := by
  intro r
  induction r with
  | zero =>
    intro a ha hat hla hr
    obtain ⟨b, hb1, hb2⟩ := h.nxt a l ha hat hla
    have := rk_lt hc hb2.lt hb2.ord
    omega
  | succ r ih =>
    intro a ha hat hla hr
    obtain ⟨b, hb1, hb2⟩ := h.nxt a l ha hat hla
    by_cases e : b = tailA
    · subst e; exact ⟨[], hb1, List.pairwise_singleton _ _, nofun⟩
    · have := rk_lt hc hb2.lt hb2.ord
      obtain ⟨P, h1, h2, h3⟩ := ih b hb2.lt e hb2.lvl (by omega)
      refine ⟨b :: P, ⟨hb1, h1⟩, List.pairwise_cons.2 ⟨fun x hx => ?_, h2⟩, fun x hx => ?_⟩
      · rcases List.mem_cons.1 hx with e | e
        · subst e; exact hb2.ord
        · exact hb2.ord.trans hc ((List.pairwise_cons.1 h2).1 x e)
      · rcases List.mem_cons.1 hx with e' | e'
        · subst e'; exact ⟨hb2.lt, hb2.ne, e⟩
        · exact h3 x e'

theorem walk_head (hc : cmp.Lawful) {m : Mem T} (h : MInv cmp m) {l : Nat} (hl : l < maxLevel) :
    ∃ P, Walk m l headA P tailA ∧ P.Pairwise (Ord cmp m) ∧ ∀ x ∈ P, x < m.alloc ∧ x ≠ headA ∧ x ≠ tailA := by
  obtain ⟨P, h1, h2, h3⟩ := walk_exists hc h (l := l) _ headA h.head_lt (by decide) (by rw [h.lvlH]; exact hl) (Nat.le_refl _)
  exact ⟨P, h1, (List.pairwise_cons.1 h2).2, h3⟩

theorem walk_nlt (hc : cmp.Lawful) {m : Mem T} (h : MInv cmp m) {P : List Nat} : ∀ {a : Nat}, a < m.alloc → Walk m 0 a P tailA →
    (a :: P).Pairwise (Nlt cmp m) := by
  induction P with
  | nil => intro a _ _; exact List.pairwise_singleton _ _
  | cons c P ih =>
    intro a ha hw
    have hn := h.nx_nlt ha hw.1
    have hp := ih (h.nx_lt ha hw.1) hw.2
    refine List.pairwise_cons.2 ⟨fun x hx => ?_, hp⟩
    rcases List.mem_cons.1 hx with e | e
    · subst e; exact hn
    · exact hn.trans hc ((List.pairwise_cons.1 hp).1 x e)

/-- The bottom level. -/
theorem bottom (hc : cmp.Lawful) {m : Mem T} (h : MInv cmp m) :
    ∃ P : List Nat, Walk m 0 headA P tailA ∧ (P.map m.val).Pairwise (fun a b => cmp a b < 0) ∧
      (∀ x, Live m x ↔ x ∈ P ∧ ¬ Mk m x) ∧ P.Nodup := by
  obtain ⟨P, h1, -, h3⟩ := walk_head hc h (l := 0) (by decide)
  have hn := (List.pairwise_cons.1 (walk_nlt hc h h.head_lt h1)).2
  refine ⟨P, h1, ?_, fun x => ⟨fun hl => ⟨?_, hl.unmarked⟩, fun hx => ⟨(h3 x hx.1).2.1, (h3 x hx.1).2.2, path_of_mem_walk h1 hx.1, hx.2⟩⟩, ?_⟩
  · refine List.pairwise_map.2 (hn.imp_of_mem fun {a b} ha hb hab => ?_)
    rcases hab.2.2 with e | e | e
    · exact absurd e (h3 a ha).2.1
    · exact absurd e (h3 b hb).2.2
    · exact e
  · rcases mem_walk_of_path h h1 hl.path with e | e | e
    · exact absurd e hl.ne_head
    · exact e
    · exact absurd e hl.ne_tail
  · exact hn.imp fun {a b} hab e => by subst e; exact hab.irrefl hc

open Classical in
theorem elements_exists (hc : cmp.Lawful) {m : Mem T} (h : MInv cmp m) :
    ∃ L : List Nat, L.Nodup ∧ (∀ x, x ∈ L ↔ Live m x) ∧ Elements cmp m (L.map m.val) := by
  obtain ⟨P, h1, h2, h3, h4⟩ := bottom hc h
  refine ⟨P.filter fun x => decide (¬ Mk m x), h4.filter _, fun x => ?_, ?_, fun v => ?_⟩
  · rw [h3 x, List.mem_filter]; simp
  · exact h2.sublist (List.Sublist.map _ List.filter_sublist)
  · constructor
    · rintro ⟨a, ha, hv⟩
      have := (h3 a).1 ha
      exact ⟨m.val a, List.mem_map.2 ⟨a, List.mem_filter.2 ⟨this.1, by simpa using this.2⟩, rfl⟩, hv⟩
    · rintro ⟨w, hw, hv⟩
      obtain ⟨a, ha, rfl⟩ := List.mem_map.1 hw
      have := List.mem_filter.1 ha
      exact ⟨a, (h3 a).2 ⟨this.1, by simpa using this.2⟩, hv⟩

/-- Two sorted lists that represent the same set are equally long. -/
theorem sorted_length (hc : cmp.Lawful) : ∀ {l l' : List T}, l.Pairwise (fun a b => cmp a b < 0) → l'.Pairwise (fun a b => cmp a b < 0) →
    (∀ v, (∃ w ∈ l, cmp w v = 0) ↔ ∃ w ∈ l', cmp w v = 0) → l.length = l'.length := by
  intro l
  induction l with
  | nil =>
    intro l' _ _ h
    cases l' with
    | nil => rfl
    | cons b l' => obtain ⟨w, hw, -⟩ := (h b).2 ⟨b, List.mem_cons_self .., hc.self b⟩; cases hw
  | cons a l ih =>
    intro l' hs hs' h
    cases l' with
    | nil => obtain ⟨w, hw, -⟩ := (h a).1 ⟨a, List.mem_cons_self .., hc.self a⟩; cases hw
    | cons b l' =>
      obtain ⟨ha, hs⟩ := List.pairwise_cons.1 hs
      obtain ⟨hb, hs'⟩ := List.pairwise_cons.1 hs'
      have hge : ∀ w ∈ a :: l, cmp a w ≤ 0 := by
        intro w hw
        rcases List.mem_cons.1 hw with e | e
        · subst e; rw [hc.self]; exact Int.le_refl _
        · exact Int.le_of_lt (ha w e)
      have hge' : ∀ w ∈ b :: l', cmp b w ≤ 0 := by
        intro w hw
        rcases List.mem_cons.1 hw with e | e
        · subst e; rw [hc.self]; exact Int.le_refl _
        · exact Int.le_of_lt (hb w e)
      have hab : cmp a b ≤ 0 := by
        obtain ⟨w, hw, e⟩ := (h b).2 ⟨b, List.mem_cons_self .., hc.self b⟩
        exact hc.trans _ _ _ (hge w hw) (by omega)
      have hba : cmp b a ≤ 0 := by
        obtain ⟨w, hw, e⟩ := (h a).1 ⟨a, List.mem_cons_self .., hc.self a⟩
        exact hc.trans _ _ _ (hge' w hw) (by omega)
      have hz : cmp a b = 0 := by have := hc.le_iff b a; omega
      rw [List.length_cons, List.length_cons, ih hs hs']
      intro v
      constructor
      · rintro ⟨w, hw, e⟩
        have hlt : cmp b v < 0 := hc.lt_of_le_of_lt hba (hc.lt_of_lt_of_le (ha w hw) (by omega))
        obtain ⟨w', hw', e'⟩ := (h v).1 ⟨w, List.mem_cons_of_mem _ hw, e⟩
        rcases List.mem_cons.1 hw' with e2 | e2
        · subst e2; omega
        · exact ⟨w', e2, e'⟩
      · rintro ⟨w, hw, e⟩
        have hlt : cmp a v < 0 := hc.lt_of_le_of_lt hab (hc.lt_of_lt_of_le (hb w hw) (by omega))
        obtain ⟨w', hw', e'⟩ := (h v).2 ⟨w, List.mem_cons_of_mem _ hw, e⟩
        rcases List.mem_cons.1 hw' with e2 | e2
        · subst e2; omega
        · exact ⟨w', e2, e'⟩

theorem Elements.length (hc : cmp.Lawful) {m : Mem T} {l l' : List T} (h : Elements cmp m l) (h' : Elements cmp m l') : l.length = l'.length :=
  sorted_length hc h.sorted h'.sorted fun v => (h.mem v).symm.trans (h'.mem v)

end Gds.LockFree
