import Verif.LockFree.Props
import Mathlib.Data.List.Perm.Subperm

/-!
What `Rank` does return when it is left alone.  `Rank` counts the nodes its search moves over, and those are some of
the elements below the argument: never more than there are, at least one if there is one, and all of them when every
element has height 1.
-/

namespace Gds.LockFree
variable {T : Type _} {cmp : Compare T}

/-- The nodes `H` the search of an undisturbed `getRank` has moved over; it is at node `a`. -/
structure Hops (cmp : Compare T) (m : Mem T) (f : Frame T) (H : List Nat) (a : Nat) : Prop where
  prev : f.prev = ref a
  rank : f.rank = 1 + H.length
  nodup : H.Nodup
  live : ∀ x ∈ H, Live m x ∧ Below cmp m x f.v
  upto : ∀ x ∈ H, x = a ∨ Nlt cmp m x a
  nil : H = [] ↔ a = headA
  full : (∀ x, Live m x → m.lvl x = 1) → (0 < f.level → a = headA) ∧ ∀ x, Live m x → x = a ∨ Nlt cmp m x a → x ∈ H

/-- What it has moved over when it returns. -/
structure Hopped (cmp : Compare T) (m : Mem T) (v : T) (rank : Int) (H : List Nat) : Prop where
  rank : rank = 1 + H.length
  nodup : H.Nodup
  live : ∀ x ∈ H, Live m x ∧ Below cmp m x v
  some : H = [] → ∀ x, Live m x → ¬ Below cmp m x v
  full : (∀ x, Live m x → m.lvl x = 1) → ∀ x, Live m x → Below cmp m x v → x ∈ H

theorem hops_start (m : Mem T) (v : T) (p n : Nat → Ptr) : Hops cmp m (Frame.enter v p n) [] headA where
  prev := rfl
  rank := rfl
  nodup := List.nodup_nil
  live := nofun
  upto := nofun
  nil := ⟨fun _ => rfl, fun _ => rfl⟩
  full _ := ⟨fun _ => rfl, fun x hx h => by
    rcases h with e | e
    · exact absurd e hx.ne_head
    · exact absurd rfl e.2.1⟩

theorem live_of (hc : cmp.Lawful) {m : Mem T} (h : MInv cmp m) {c l : Nat} (hlt : c < m.alloc) (hl : l < m.lvl c) (hp : Pub m c)
    (hu : (m.next c l).mark = false) (h0 : c ≠ headA) (h1 : c ≠ tailA) : Live m c :=
  ⟨h0, h1, h.path_of_pub hp (h.unmarked_bottom hlt hl hu), h.unmarked_bottom hlt hl hu⟩

/-- No element lies between a node on the list and its successor. -/
theorem between (hc : cmp.Lawful) {m : Mem T} (h : MInv cmp m) {a c x : Nat} (hp : Path m headA a) (hx : Nx m a c) (hl : Live m x) :
    x = a ∨ Nlt cmp m x a ∨ x = c ∨ Nlt cmp m c x := by
  have ha := h.path_lt h.head_lt hp
  rcases h.path_linear hp hl.path with g | g
  · cases g with
    | refl => exact .inl rfl
    | step h1 h2 =>
      have := hx.unique h1
      subst this
      rcases h.path_nlt hc (h.nx_lt ha hx) h2 with e | e
      · exact .inr (.inr (.inl e.symm))
      · exact .inr (.inr (.inr e))
  · rcases h.path_nlt hc (h.live_lt hl) g with e | e
    · exact .inl e
    · exact .inr (.inl e)

theorem hops_step (hc : cmp.Lawful) {m : Mem T} {S : Nat → Prop} {f : Frame T} (h : MInv cmp m) (hx : XInv m) (hf : FInv cmp m S f)
    (hC : ∀ c, Ceil cmp m f.v c → S c) (hfr : FreshF m f) {H : List Nat} {a : Nat} (hh : Hops cmp m f H a) :
    (∀ x, Live (findStep cmp m f).1 x ↔ Live m x) ∧ (∀ x, (findStep cmp m f).1.val x = m.val x) ∧
    (∀ x, (findStep cmp m f).1.lvl x = m.lvl x) ∧
    ((∃ f' H' a', (findStep cmp m f).2 = .cont f' ∧ f'.v = f.v ∧ FreshF (findStep cmp m f).1 f' ∧ Hops cmp (findStep cmp m f).1 f' H' a') ∨
     (∃ f', (findStep cmp m f).2 = .done f' ∧ (findStep cmp m f).1 = m ∧ Hopped cmp m f.v f'.rank H)) := by
  have hlive := (findStep_spec hc h hf hC).live
  refine ⟨hlive, ?_⟩
  revert hlive
  obtain ⟨a', ha, hpre, hcur⟩ := hf.prv
  have haa : a' = a := by have := hh.prev; rw [ha] at this; simpa [ref] using this
  subst haa
  obtain ⟨hfa, a2, ha2, hau, hac⟩ := hfr
  have haa : a2 = a' := by rw [ha] at ha2; simpa [ref] using ha2.symm
  subst haa
  have hat : a2 ≠ tailA := by
    rintro rfl
    rcases hpre.below with e | e
    · cases e
    · exact e.1 rfl
  have hpath : Path m headA a2 := h.path_of_pub hpre.pub (h.unmarked_bottom hpre.lt hpre.lvl hau)
  unfold findStep
  cases hph : f.ph with
  | loadCur =>
    simp only
    rw [ha, loadNext_ref hpre.lvl]
    simp only
    intro hlive
    refine ⟨fun _ => trivial, fun _ => trivial, .inl ⟨_, H, a2, rfl, rfl, ⟨hfa, a2, rfl, hau, fun _ => ?_⟩, ?_⟩⟩
    · obtain ⟨b, hb1, hb2⟩ := h.follow hpre.lt hpre.lvl hat
      show m.next a2 f.level = getUnmarked (m.next a2 f.level)
      unfold getUnmarked
      cases hq : m.next a2 f.level; rw [hq] at hau; simp only at hau; rw [hau]
    · exact ⟨rfl, hh.rank, hh.nodup, hh.live, hh.upto, hh.nil, hh.full⟩
  | loadNext =>
    obtain ⟨c, hc1, hc2, -⟩ := hcur (by rw [hph]; decide)
    have hac := hac (by rw [hph]; decide)
    simp only
    rw [hc1, loadNext_ref hc2.lvl]
    simp only
    by_cases hm : isMarked (m.next c f.level) = true
    · rw [if_pos hm]
      intro hlive
      refine ⟨fun _ => rfl, fun _ => rfl, .inl ⟨_, H, a2, rfl, rfl, ⟨hfa, a2, ha, hau, fun _ => by rw [← hc1]; exact hac⟩, ?_⟩⟩
      exact ⟨ha, hh.rank, hh.nodup, hh.live, hh.upto, hh.nil, hh.full⟩
    · rw [if_neg hm]
      have hu : (m.next c f.level).mark = false := by simpa [isMarked] using hm
      by_cases hl : less cmp m (ref c) f.v = true
      · rw [if_pos hl]
        intro hlive
        have hbc := (less_ref m c f.v).1 hl
        have hct : c ≠ tailA := by
          rintro rfl
          rcases hbc with e | e
          · cases e
          · exact e.1 rfl
        have hcl := live_of hc h hc2.lt hc2.lvl hc2.pub hu hc2.ne hct
        have hnl : Nlt cmp m a2 c := by
          rcases h.path_linear hpath hcl.path with g | g
          · rcases h.path_nlt hc hpre.lt g with e | e
            · subst e; exact absurd hc2.ord (fun e => e.irrefl hc)
            · exact e
          · rcases h.path_nlt hc hc2.lt g with e | e
            · subst e; exact absurd hc2.ord (fun e => e.irrefl hc)
            · exact absurd (hc2.ord.trans hc (.inl e)) (fun e => e.irrefl hc)
        refine ⟨fun _ => rfl, fun _ => rfl, .inl ⟨_, c :: H, c, rfl, rfl, ⟨hfa, c, rfl, hu, fun _ => rfl⟩, ?_⟩⟩
        refine ⟨rfl, ?_, ?_, ?_, ?_, ?_, ?_⟩
        · show f.rank + 1 = _
          rw [hh.rank, List.length_cons]; push_cast; omega
        · refine List.nodup_cons.2 ⟨fun hin => ?_, hh.nodup⟩
          rcases hh.upto c hin with e | e
          · subst e; exact hnl.irrefl hc
          · exact (hnl.trans hc e).irrefl hc
        · intro x hin
          rcases List.mem_cons.1 hin with e | e
          · subst e; exact ⟨hcl, hbc⟩
          · exact hh.live x e
        · intro x hin
          rcases List.mem_cons.1 hin with e | e
          · exact .inl e
          · rcases hh.upto x e with e | e
            · subst e; exact .inr hnl
            · exact .inr (e.trans hc hnl)
        · exact ⟨nofun, fun e => absurd e hc2.ne⟩
        · intro hone
          have hl0 : f.level = 0 := by have := hc2.lvl; rw [hone c hcl] at this; omega
          refine ⟨fun e => ?_, fun x hxl hxx => ?_⟩
          · replace e : 0 < f.level := e
            omega
          · have hnx : Nx m a2 c := by unfold Nx; rw [← hl0, hac, hc1]; rfl
            rcases between hc h hpath hnx hxl with e | e | e | e
            · exact List.mem_cons_of_mem _ ((hh.full hone).2 x hxl (.inl e))
            · exact List.mem_cons_of_mem _ ((hh.full hone).2 x hxl (.inr e))
            · subst e; exact List.mem_cons_self ..
            · exfalso
              rcases hxx with g | g
              · subst g; exact e.irrefl hc
              · exact (e.trans hc g).irrefl hc
      · rw [if_neg hl]
        have hnb : ¬ Below cmp m c f.v := fun e => hl ((less_ref m c f.v).2 e)
        by_cases hl0 : f.level = 0
        · rw [if_pos hl0]
          intro hlive
          refine ⟨fun _ => rfl, fun _ => rfl, .inr ⟨_, rfl, rfl, hh.rank, hh.nodup, hh.live, ?_, ?_⟩⟩
          all_goals have hnx : Nx m a2 c := by unfold Nx; rw [← hl0, hac, hc1]; rfl
          · intro hn x hxl hxb
            have hah := hh.nil.1 hn
            rcases between hc h hpath hnx hxl with e | e | e | e
            · exact hxl.ne_head (e.trans hah)
            · rw [hah] at e; exact e.2.1 rfl
            · subst e; exact hnb hxb
            · exact hnb (hxb.of_nlt hc e)
          · intro hone x hxl hxb
            rcases between hc h hpath hnx hxl with e | e | e | e
            · exact (hh.full hone).2 x hxl (.inl e)
            · exact (hh.full hone).2 x hxl (.inr e)
            · subst e; exact absurd hxb hnb
            · exact absurd (hxb.of_nlt hc e) hnb
        · rw [if_neg hl0]
          intro hlive
          refine ⟨fun _ => rfl, fun _ => rfl, .inl ⟨_, H, a2, rfl, rfl, ⟨fun l hl1 hl2 => ?_, a2, ha, ?_, fun e => absurd rfl e⟩, ?_⟩⟩
          · replace hl1 : f.level - 1 + 1 ≤ l := hl1
            show NextIs m (upd f.prevs f.level f.prev l) l (upd f.nexts f.level (ref c) l)
            unfold upd
            by_cases e : l = f.level
            · rw [if_pos e, if_pos e]; exact ⟨a2, ha, by rw [e, ← hc1]; exact hac⟩
            · rw [if_neg e, if_neg e]; exact hfa l (by omega) hl2
          · show (m.next a2 (f.level - 1)).mark = false
            by_cases e : (m.next a2 (f.level - 1)).mark = true
            · rw [hx.top a2 (f.level - 1) f.level hpre.lt (by omega) hpre.lvl e] at hau; cases hau
            · simpa using e
          · refine ⟨ha, hh.rank, hh.nodup, hh.live, hh.upto, hh.nil, fun hone => ⟨fun e => (hh.full hone).1 ?_, (hh.full hone).2⟩⟩
            omega
  | unlink =>
    obtain ⟨c, hc1, hc2, hc3⟩ := hcur (by rw [hph]; decide)
    have hac := hac (by rw [hph]; decide)
    obtain ⟨hn1, hn2⟩ := hc3 hph
    simp only
    rw [ha, casNext_ref hpre.lvl, if_pos hac]
    simp only
    intro hlive
    have hnext : ∀ x k, (m.setNext a2 f.level (getUnmarked f.next)).next x k = if x = a2 ∧ k = f.level then getUnmarked f.next else m.next x k := fun _ _ => rfl
    refine ⟨fun _ => rfl, fun _ => rfl, .inl ⟨_, H, a2, rfl, rfl, ⟨fun l hl1 hl2 => ?_, a2, rfl, ?_, fun e => absurd rfl e⟩, ?_⟩⟩
    · obtain ⟨b, hb1, hb2⟩ := hfa l hl1 hl2
      replace hl1 : f.level + 1 ≤ l := hl1
      refine ⟨b, hb1, ?_⟩
      rw [hnext, if_neg (by omega)]; exact hb2
    · rw [hnext, if_pos ⟨rfl, rfl⟩]; rfl
    · exact ⟨rfl, hh.rank, hh.nodup, fun x hxin => ⟨(hlive x).2 (hh.live x hxin).1, (hh.live x hxin).2⟩, hh.upto, hh.nil,
        fun hone => ⟨(hh.full fun x hxl => hone x ((hlive x).2 hxl)).1, fun x hxl hxx =>
          (hh.full fun x hxl => hone x ((hlive x).2 hxl)).2 x ((hlive x).1 hxl) hxx⟩⟩

section
variable {tr : Nat → St T} {lab : Nat → Label T} {zero : T} {n : Nat}

/-- Where an undisturbed `Rank(v)` called at instant `i` is, at a later instant with memory `m`. -/
inductive RankAt (cmp : Compare T) (m0 m : Mem T) (v : T) : Ctl T → Prop where
  | len : m = m0 → RankAt cmp m0 m v (.rankLen v)
  | find (f : Frame T) (H : List Nat) (a : Nat) : f.v = v → 1 < m0.size.toInt → FreshF m f → Hops cmp m f H a → RankAt cmp m0 m v (.find f .rank)
  | small : m0.size.toInt ≤ 1 → RankAt cmp m0 m v (.ret (.num m0.size.toInt))
  | done (z : Int) (H : List Nat) : 1 < m0.size.toInt → Hopped cmp m v z H → RankAt cmp m0 m v (.ret (.num z))

theorem rank_at (hc : cmp.Lawful) (hr : IsRun cmp zero tr lab n) {i t : Nat} {v : T} (hi : lab i = .call t (.rank v)) :
    ∀ j, i < j → j ≤ n → (∀ x, i < x → x < j → lab x = .tau t) →
      (∀ x, Live (tr j).mem x ↔ Live (tr i).mem x) ∧ (∀ x, (tr j).mem.val x = (tr i).mem.val x) ∧ (∀ x, (tr j).mem.lvl x = (tr i).mem.lvl x) ∧
      ∃ c, (tr j).pc t = .run (.rank v) c ∧ RankAt cmp (tr i).mem (tr j).mem v c := by
  intro j
  induction j with
  | zero => intro h; omega
  | succ j ih =>
    intro h1 h2 h3
    have hs := hr.step j (by omega)
    by_cases e : j = i
    · subst e
      rw [hi] at hs
      generalize hs2 : tr (j + 1) = s2 at hs
      cases hs with
      | call _ _ hidle => exact ⟨fun _ => Iff.rfl, fun _ => rfl, fun _ => rfl, _, goto_pc_same _ _ _ _, .len rfl⟩
    · obtain ⟨hl, hv, hlv, c, hpc, hat⟩ := ih (by omega) (by omega) (fun x g1 g2 => h3 x g1 (by omega))
      rw [h3 j (by omega) (by omega)] at hs
      have hR := RInv.all hc hr j (by omega)
      have hX := xinv_all hc hr j (by omega)
      have hctl := hR.ctl t _ _ hpc
      have hsl := since_le lab t j
      generalize hs1 : tr j = s1 at hs hl hv hlv hpc hat hX
      generalize hs2 : tr (j + 1) = s2 at hs
      cases hs with
      | tau _ op' c' coin hpc' hr' hp' =>
        rw [hpc] at hpc'
        cases hpc'
        show (∀ x, Live (exec cmp coin s1.mem c).1 x ↔ _) ∧ (∀ x, (exec cmp coin s1.mem c).1.val x = _) ∧
          (∀ x, (exec cmp coin s1.mem c).1.lvl x = _) ∧ ∃ c'', _ ∧ RankAt cmp _ (exec cmp coin s1.mem c).1 v c''
        cases hat with
        | len hm =>
          refine ⟨hl, hv, hlv, _, goto_pc_same _ _ _ _, ?_⟩
          simp only [exec]
          rw [hm]
          split
          · exact .small ‹_›
          · rename_i hgt
            exact .find _ [] headA rfl (by omega) (freshF_start (cmp := cmp) (by rw [← hm, ← hs1]; exact hR.mem) _ rfl rfl rfl) (hops_start _ _ _ _)
        | find f H a hfv hgt hfr hh =>
          obtain ⟨hfi, -⟩ := hctl
          have hmem := hR.mem
          rw [hs1] at hmem hfi
          obtain ⟨g1, g2, g3, g4⟩ := hops_step hc hmem hX hfi (fun c hcl => Seen.now hsl (by rw [hs1]; exact hcl)) hfr hh
          simp only [exec]
          generalize findStep cmp s1.mem f = R at g1 g2 g3 g4 ⊢
          obtain ⟨m', r⟩ := R
          simp only at g1 g2 g3 g4
          rcases g4 with ⟨f', H', a', rfl, e2, e3, e4⟩ | ⟨f', rfl, e2, e3⟩
          · exact ⟨fun x => (g1 x).trans (hl x), fun x => (g2 x).trans (hv x), fun x => (g3 x).trans (hlv x), _, goto_pc_same _ _ _ _,
              .find f' H' a' (e2.trans hfv) hgt e3 e4⟩
          · refine ⟨fun x => (g1 x).trans (hl x), fun x => (g2 x).trans (hv x), fun x => (g3 x).trans (hlv x), _, goto_pc_same _ _ _ _, ?_⟩
            simp only [Cont.resume]
            rw [hfv] at e3; rw [e2]
            exact .done f'.rank H hgt e3
        | small h => exact absurd rfl (hr' _)
        | done z H h h' => exact absurd rfl (hr' _)

/-- The elements below `v`, counted. -/
theorem below_length (hc : cmp.Lawful) {m : Mem T} {l : List T} (hl : Elements cmp m l) {L : List Nat} (hL : Elements cmp m (L.map m.val)) (v : T) :
    (L.filter fun x => decide (cmp (m.val x) v < 0)).length = (l.filter fun w => decide (cmp w v < 0)).length := by
  have e : (L.filter fun x => decide (cmp (m.val x) v < 0)).length = ((L.map m.val).filter fun w => decide (cmp w v < 0)).length := by
    rw [List.filter_map, List.length_map]; rfl
  rw [e]
  refine sorted_length hc (hL.sorted.sublist List.filter_sublist) (hl.sorted.sublist List.filter_sublist) fun u => ?_
  have key : ∀ A B : List T, (∀ u, (∃ w ∈ A, cmp w u = 0) → ∃ w ∈ B, cmp w u = 0) →
      (∃ w ∈ A.filter fun w => decide (cmp w v < 0), cmp w u = 0) → ∃ w ∈ B.filter fun w => decide (cmp w v < 0), cmp w u = 0 := by
    rintro A B hAB ⟨w, hw, hz⟩
    obtain ⟨hw1, hw2⟩ := List.mem_filter.1 hw
    obtain ⟨w', h1, h2⟩ := hAB u ⟨w, hw1, hz⟩
    refine ⟨w', List.mem_filter.2 ⟨h1, ?_⟩, h2⟩
    have hw2 := of_decide_eq_true hw2
    have hz' := hc.zero_symm hz
    have : cmp w' w ≤ 0 := hc.trans _ _ _ (show cmp w' u ≤ 0 by omega) (by omega)
    exact decide_eq_true (hc.lt_of_le_of_lt this hw2)
  exact ⟨key _ _ fun u h => (hl.mem u).1 ((hL.mem u).2 h), key _ _ fun u h => (hL.mem u).1 ((hl.mem u).2 h)⟩

/-- C107: what `Rank(v)` returns when no other goroutine moves between its call and its return; `l` are the elements. -/
theorem rank_alone (hc : cmp.Lawful) (hr : IsRun cmp zero tr lab n) {i t r : Nat} {v : T} {o : Out T}
    (hi : lab i = .call t (.rank v)) (hret : Returned lab n i t o r) (hsolo : ∀ x, i < x → x < r → (lab x).tid = t)
    {l : List T} (hl : Elements cmp (tr i).mem l) :
    ∃ z, o = .num z ∧ ((tr i).mem.size.toInt ≤ 1 → z = (tr i).mem.size.toInt) ∧
      (1 < (tr i).mem.size.toInt → 1 ≤ z ∧ z ≤ 1 + (l.filter fun w => decide (cmp w v < 0)).length ∧ 
        (z = 1 ↔ ∀ w ∈ l, ¬ cmp w v < 0) ∧
        ((∀ x, Live (tr i).mem x → (tr i).mem.lvl x = 1) → z = 1 + (l.filter fun w => decide (cmp w v < 0)).length)) := by
  have hle := hret.le
  have htau : ∀ x, i < x → x < r → lab x = .tau t := by
    intro x h1 h2
    have ht := hsolo x h1 h2
    have hs := hr.step x (by omega)
    obtain ⟨⟨c, hpc⟩, -⟩ := running hr hi x h1 (by omega) fun y g1 g2 => hret.first y g1 (by omega)
    cases hlb : lab x with
    | tau u => rw [hlb] at ht; exact congrArg _ ht
    | ret u o' => rw [hlb] at ht; replace ht : u = t := ht; subst ht; exact absurd hlb (hret.first x h1 h2 o')
    | call u op =>
      rw [hlb] at ht hs; replace ht : u = t := ht; subst ht
      generalize hs2 : tr (x + 1) = s2 at hs
      cases hs with
      | call _ _ hidle => rw [hidle] at hpc; cases hpc
  obtain ⟨g1, g2, -, c, hpc, hat⟩ := rank_at hc hr hi r hret.lt (by omega) htau
  have hs := hr.step r hle
  rw [hret.ret] at hs
  have hco : c = .ret o := by
    generalize hs1 : tr r = s1 at hs hpc
    generalize hs2 : tr (r + 1) = s2 at hs
    cases hs with
    | ret _ op' _ hpc' => rw [hpc] at hpc'; cases hpc'; rfl
  subst hco
  obtain ⟨L, hL1, hL2, hL3⟩ := elements_exists hc (RInv.all hc hr i (by have := hret.lt; omega)).mem
  have hcount := below_length hc hl hL3 v
  cases hat with
  | small h => exact ⟨_, rfl, fun _ => rfl, fun h' => by omega⟩
  | done z H h hH =>
    have hb : ∀ x, Live (tr r).mem x → (Below cmp (tr r).mem x v ↔ cmp ((tr i).mem.val x) v < 0) := by
      intro x hx
      unfold Below
      rw [g2]
      exact ⟨fun e => e.elim (fun e => absurd e hx.ne_head) (·.2), fun e => .inr ⟨hx.ne_tail, e⟩⟩
    have hsub : ∀ x ∈ H, x ∈ L.filter fun x => decide (cmp ((tr i).mem.val x) v < 0) := by
      intro x hx
      obtain ⟨k1, k2⟩ := hH.live x hx
      exact List.mem_filter.2 ⟨(hL2 x).2 ((g1 x).1 k1), decide_eq_true ((hb x k1).1 k2)⟩
    have hlen : H.length ≤ (l.filter fun w => decide (cmp w v < 0)).length := by
      rw [← hcount]
      exact (List.subperm_of_subset hH.nodup hsub).length_le
    have hz := hH.rank
    refine ⟨z, rfl, fun h' => by omega, fun _ => ⟨by omega, by omega, ⟨fun e => ?_, fun e => ?_⟩, fun hone => ?_⟩⟩
    · have hn : H = [] := List.length_eq_zero_iff.1 (by omega)
      intro w hw hwv
      obtain ⟨x, hx, hxw⟩ := (hl.mem w).2 ⟨w, hw, hc.self w⟩
      have hx' := (g1 x).2 hx
      exact hH.some hn x hx' ((hb x hx').2 (hc.lt_of_le_of_lt (by omega) hwv))
    · have : l.filter (fun w => decide (cmp w v < 0)) = [] := List.filter_eq_nil_iff.2 fun w hw => by simpa using e w hw
      rw [this] at hlen
      simp only [List.length_nil] at hlen
      omega
    · have : (L.filter fun x => decide (cmp ((tr i).mem.val x) v < 0)).length ≤ H.length := by
        refine (List.subperm_of_subset (hL1.filter _) fun x hx => ?_).length_le
        obtain ⟨k1, k2⟩ := List.mem_filter.1 hx
        have hx' := (g1 x).2 ((hL2 x).1 k1)
        refine hH.full (fun y hy => ?_) x hx' ((hb x hx').2 (of_decide_eq_true k2))
        have := hone y ((g1 y).1 hy)
        obtain ⟨-, -, g3, -⟩ := rank_at hc hr hi r hret.lt (by omega) htau
        rw [g3]; exact this
      omega

/-- C107: the same, in terms of the number of elements, when no `Add` or `Del` is in progress at the call. -/
theorem rank_quiet (hc : cmp.Lawful) (hr : IsRun cmp zero tr lab n) {i t r : Nat} {v : T} {o : Out T}
    (hi : lab i = .call t (.rank v)) (hret : Returned lab n i t o r) (hsolo : ∀ x, i < x → x < r → (lab x).tid = t)
    (hq : ∀ i' t' op, InProgress lab i i' t' op → ¬ op.isWrite)
    {l : List T} (hl : Elements cmp (tr i).mem l) (hbig : l.length < 2 ^ 31) :
    ∃ z, o = .num z ∧ (l.length ≤ 1 → z = l.length) ∧
      (2 ≤ l.length → 1 ≤ z ∧ z ≤ 1 + (l.filter fun w => decide (cmp w v < 0)).length ∧ (z = 1 ↔ ∀ w ∈ l, ¬ cmp w v < 0)) := by
  have h1 := hret.lt
  have h2 := hret.le
  have := size_bounds hc hr (k := i) (by omega) (LA := []) (LD := []) hl
    (fun i' t' v g => absurd trivial (hq i' t' _ g)) (fun i' t' v g => absurd trivial (hq i' t' _ g)) (by simpa using hbig)
  simp only [List.length_nil] at this
  obtain ⟨z, h3, h4, h5⟩ := rank_alone hc hr hi hret hsolo hl
  refine ⟨z, h3, fun h => ?_, fun h => ?_⟩
  · rw [h4 (by omega)]; omega
  · obtain ⟨k1, k2, k3, -⟩ := h5 (by omega)
    exact ⟨k1, k2, k3⟩

end

end Gds.LockFree
