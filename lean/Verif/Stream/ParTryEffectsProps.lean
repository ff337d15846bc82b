import Verif.Stream.ParTryEffects
import Verif.Stream.ParEffectsProps

/-! Property C133: the parallel TryFold when its callbacks have effects. -/
namespace Gds.Stream
variable {E T R : Type}

namespace Ops

/-- What follows a call of the callback. -/
def uptoCont (e₀ : E) (p : Ops E T R) (F : R → R → E → (R × Bool) × E) (a v : R) (xs : List T) : List (Act E) × Option R :=
  if (F a v e₀).1.2 then p.upto e₀ F (F a v e₀).1.1 xs else ([], none)

/-- What a goroutine still has to do in the middle of an element. -/
def uptoRest (e₀ : E) (p : Ops E T R) (F : R → R → E → (R × Bool) × E) (a : R) : List (Act E) × Option R → List T → List (Act E) × Option R
  | (as, none), xs => (as ++ (p.upto e₀ F a xs).1, (p.upto e₀ F a xs).2)
  | (as, some v), xs => (as ++ (fun e => (F a v e).2) :: (p.uptoCont e₀ F a v xs).1, (p.uptoCont e₀ F a v xs).2)

theorem upto_cons (e₀ : E) (p : Ops E T R) (F : R → R → E → (R × Bool) × E) (a : R) (x : T) (xs : List T) :
    p.upto e₀ F a (x :: xs) = p.uptoRest e₀ F a (p.calls e₀ x) xs := by
  rw [upto]
  rcases p.calls e₀ x with ⟨as, _ | v⟩
  · rfl
  · by_cases h : (F a v e₀).1.2 = true <;> simp [uptoRest, uptoCont, h]

theorem uptoRest_moves {e₀ : E} {p : Ops E T R} {F : R → R → E → (R × Bool) × E} {a : R} {gs cur xs cur' xs'}
    (h : Moves (p.calls e₀) gs cur xs cur' xs') :
    p.uptoRest e₀ F a cur xs = (gs ++ (p.uptoRest e₀ F a cur' xs').1, (p.uptoRest e₀ F a cur' xs').2) := by
  rcases h with ⟨rfl, rfl⟩ | ⟨rfl, x, rfl, hx⟩
  · rcases cur' with ⟨as, _ | v⟩ <;> simp [uptoRest]
  · have : p.uptoRest e₀ F a ([], none) (x :: xs') = p.uptoRest e₀ F a (p.calls e₀ x) xs' := by
      rw [← upto_cons]; simp [uptoRest]
    rw [this, hx]
    rcases cur' with ⟨as, _ | v⟩ <;> simp [uptoRest]

theorem upto_snoc (e₀ : E) (F : R → R → E → (R × Bool) × E) (a : R) (rs : List R) (r acc : R)
    (h : ((source : Ops E R R).upto e₀ F a rs).2 = some acc) :
    (source : Ops E R R).upto e₀ F a (rs ++ [r]) =
      (((source : Ops E R R).upto e₀ F a rs).1 ++ [fun e => (F acc r e).2], if (F acc r e₀).1.2 then some (F acc r e₀).1.1 else none) := by
  induction rs generalizing a with
  | nil =>
    simp only [upto, Option.some.injEq] at h
    subst h
    rw [List.nil_append, upto_cons]
    by_cases hq : (F a r e₀).1.2 = true <;> simp [upto, uptoRest, uptoCont, calls, hq]
  | cons x xs ih =>
    rw [upto_cons] at h
    rw [List.cons_append, upto_cons, upto_cons]
    by_cases hq : (F a x e₀).1.2 = true
    · simp only [uptoRest, uptoCont, calls, hq, if_true, List.nil_append] at h ⊢
      rw [ih _ h]
      simp
    · simp [uptoRest, uptoCont, calls, hq] at h

end Ops

/-- The goroutine would still make the calls `todo.1` and end up with `todo.2`, and has at most `n` steps to go. -/
def TG.Owes {s : Stm E T} {p : Ops E T R} (e₀ : E) (F : R → R → E → (R × Bool) × E) : TG s p → List (Act E) × Option R → Nat → Prop
  | .ask st acc, todo, n => ∃ cur xs m, p.Sus e₀ s st cur xs m ∧ todo = p.uptoRest e₀ F acc cur xs ∧ n = 4 * m + 2
  | .sel v st acc, todo, n => ∃ xs m, p.Sus e₀ s st ([], none) xs m ∧ todo = p.uptoRest e₀ F acc ([], some v) xs ∧ n = 4 * m + 5
  | .call v st acc, todo, n => ∃ xs m, p.Sus e₀ s st ([], none) xs m ∧ todo = p.uptoRest e₀ F acc ([], some v) xs ∧ n = 4 * m + 4
  | .cancel, todo, n => todo = ([], none) ∧ n = 1
  | .send acc, todo, n => todo = ([], some acc) ∧ n = 1
  | .exit, _, n => n = 0

section
variable {s : Stm E T} {p : Ops E T R} {e₀ : E} {F : R → R → E → (R × Bool) × E} {ini z : R} {segs : List (List T)} {k : Nat}
  {tr : List (Nat × Act E)} {sent ns : List Nat} {c c' : TrySt s p}

/-- What the goroutine of segment `i` ends up with. -/
def outOf (p : Ops E T R) (e₀ : E) (F : R → R → E → (R × Bool) × E) (ini : R) (segs : List (List T)) (i : Nat) : Option R := (p.upto e₀ F ini (segs.getD i [])).2

/-- Some callback has refused: in a segment, or on the results `rs` of segments. -/
def Refused (p : Ops E T R) (e₀ : E) (F : R → R → E → (R × Bool) × E) (ini : R) (segs : List (List T)) : Prop :=
  (∃ xs ∈ segs, (p.upto e₀ F ini xs).2 = none) ∨
    ∃ rs : List R, (rs.map some).Subperm (segs.map (fun xs => (p.upto e₀ F ini xs).2)) ∧ ((Ops.source : Ops E R R).upto e₀ F ini rs).2 = none

/-- The goroutines work on the segments `segs`; the calls made are `tr`; those in `sent` have sent their result; goroutine
    `i` has at most `ns[i]` steps to go. -/
structure TInv2 (F : R → R → E → (R × Bool) × E) (ini : R) (e₀ : E) (segs : List (List T))
    (tr : List (Nat × Act E)) (sent ns : List Nat) (ws : List (TG s p)) (cancelled : Bool) (e : E) : Prop where
  started : ws.length ≤ segs.length
  lens : ns.length = ws.length
  each : ∀ i w, ws[i]? = some w → ∃ xs todo n, segs[i]? = some xs ∧ ns[i]? = some n ∧ w.Owes e₀ F todo n ∧
    part i tr ++ todo.1 = (p.upto e₀ F ini xs).1 ∧ ((w ≠ .exit ∨ i ∈ sent) → todo.2 = (p.upto e₀ F ini xs).2) ∧ (i ∈ sent → todo.1 = [])
  quit : ∀ i, ws[i]? = some .exit → i ∈ sent ∨ cancelled = true
  tags : ∀ x ∈ tr, x.1 < ws.length ∨ x.1 = segs.length
  env : e = perform (tr.map (·.2)) e₀
  nodup : sent.Nodup
  ended : ∀ i ∈ sent, ws[i]? = some .exit
  canc : cancelled = true → Refused p e₀ F ini segs

theorem TInv2.start : TInv2 (s := s) (p := p) F ini e₀ segs [] [] [] [] false e₀ where
  started := by simp
  lens := rfl
  each := by simp
  quit := by simp
  tags := by simp
  env := rfl
  nodup := by simp
  ended := by simp
  canc := by simp

variable {ws : List (TG s p)} {ca : Bool} {e : E}

theorem TInv2.spawn (h : TInv2 F ini e₀ segs tr sent ns ws ca e) {st : s.S} {xs : List T} (hs : PureSeg s st xs) (hx : segs[ws.length]? = some xs) :
    TInv2 F ini e₀ segs tr sent (ns ++ [4 * p.scale (xs.length + 1) + 2]) (ws ++ [.ask (p.start s st) ini]) ca e := by
  have hlt := (List.getElem?_eq_some_iff.1 hx).1
  refine ⟨by simp; omega, by simp [h.lens], ?_, ?_, ?_, h.env, h.nodup, ?_, h.canc⟩
  · intro i w hw
    rcases Nat.lt_trichotomy i ws.length with hi | hi | hi
    · rw [List.getElem?_append_left hi] at hw
      obtain ⟨xs', todo, n, h1, h2, h3⟩ := h.each i w hw
      exact ⟨xs', todo, n, h1, by rw [List.getElem?_append_left (by rw [h.lens]; exact hi)]; exact h2, h3⟩
    · subst hi
      simp at hw
      subst hw
      refine ⟨xs, _, _, hx, by rw [← h.lens]; simp, ⟨([], none), xs, _, p.sus_start e₀ s hs, rfl, rfl⟩, ?_, fun _ => by simp [Ops.uptoRest], ?_⟩
      · have : part ws.length tr = [] := by
          simp only [part, List.map_eq_nil_iff, List.filter_eq_nil_iff]
          intro x hx
          have := h.tags x hx
          simp; omega
        rw [this]
        simp [Ops.uptoRest]
      · intro hin
        have := h.ended _ hin
        simp at this
    · rw [List.getElem?_eq_none (by simp; omega)] at hw
      simp at hw
  · intro i hw
    rcases Nat.lt_trichotomy i ws.length with hi | hi | hi
    · rw [List.getElem?_append_left hi] at hw
      exact h.quit i hw
    · subst hi; simp at hw
    · rw [List.getElem?_eq_none (by simp; omega)] at hw
      simp at hw
  · intro x hx
    have := h.tags x hx
    simp; omega
  · intro i hi
    have := h.ended i hi
    rw [List.getElem?_append_left (List.getElem?_eq_some_iff.1 this).1]
    exact this

/-- Goroutine `i` makes the calls `gs` (at most one) and goes on as `w'`. -/
theorem TInv2.step (h : TInv2 F ini e₀ segs tr sent ns ws ca e) {i : Nat} {w w' : TG s p} (hw : ws[i]? = some w) (hne : w ≠ .exit) {ca' : Bool} {e' : E}
    (hca : ca = true → ca' = true) (hca' : ca' = true → Refused p e₀ F ini segs) {sent' : List Nat}
    (hsent : sent' = sent ∨ (sent' = sent ++ [i] ∧ w' = .exit)) (hexit : w' = .exit → i ∈ sent' ∨ ca' = true) {P : List (Act E) → Prop}
    (hs : ∀ todo n, w.Owes e₀ F todo n → ∃ gs todo' n', P gs ∧ e' = perform gs e ∧ w'.Owes e₀ F todo' n' ∧ n' < n ∧ todo.1 = gs ++ todo'.1 ∧
      ((w' ≠ .exit ∨ sent' = sent ++ [i]) → todo'.2 = todo.2) ∧ (sent' = sent ++ [i] → todo'.1 = [])) :
    ∃ (gs : List (Act E)) (ns' : List Nat), P gs ∧ TInv2 F ini e₀ segs (tr ++ gs.map (fun g => (i, g))) sent' ns' (ws.set i w') ca' e' ∧ ns'.sum < ns.sum := by
  obtain ⟨xs, todo, n, h1, h2, h3, h4, h5, h6⟩ := h.each i w hw
  obtain ⟨gs, todo', n', hP, he, ho, hn, h7, h8, h9⟩ := hs todo n h3
  have hi : i < ws.length := (List.getElem?_eq_some_iff.1 hw).1
  have hns : i ∉ sent := fun hin => hne (by have := h.ended i hin; rw [hw] at this; simpa using this)
  have hmem : ∀ j, j ≠ i → (j ∈ sent' ↔ j ∈ sent) := by
    intro j hj
    rcases hsent with rfl | ⟨rfl, -⟩
    · rfl
    · simp [hj]
  have hin : i ∈ sent' → sent' = sent ++ [i] := by
    intro hin
    rcases hsent with rfl | ⟨rfl, -⟩
    · exact absurd hin hns
    · rfl
  refine ⟨gs, ns.set i n', hP, ⟨by simpa using h.started, by simp [h.lens], ?_, ?_, ?_, ?_, ?_, ?_, hca'⟩, sum_set_lt h2 hn⟩
  · intro j v hv
    by_cases hj : j = i
    · subst hj
      rw [List.getElem?_set_self hi] at hv
      cases hv
      refine ⟨xs, todo', n', h1, by rw [List.getElem?_set_self (by rw [h.lens]; exact hi)], ho, ?_, ?_, fun hj => h9 (hin hj)⟩
      · rw [part_append, part_tagged, List.append_assoc, ← h7]; exact h4
      · intro hor
        rw [← h5 (.inl hne)]
        exact h8 (hor.imp_right hin)
    · rw [List.getElem?_set_ne (Ne.symm hj)] at hv
      obtain ⟨xs', todo1, n1, k1, k2, k3, k4, k5, k6⟩ := h.each j v hv
      refine ⟨xs', todo1, n1, k1, by rw [List.getElem?_set_ne (Ne.symm hj)]; exact k2, k3, ?_, ?_, ?_⟩
      · rw [part_append, part_other hj, List.append_nil]
        exact k4
      · rw [hmem j hj]; exact k5
      · rw [hmem j hj]; exact k6
  · intro j hv
    by_cases hj : j = i
    · subst hj
      rw [List.getElem?_set_self hi] at hv
      exact hexit (by simpa using hv)
    · rw [List.getElem?_set_ne (Ne.symm hj)] at hv
      rw [hmem j hj]
      exact (h.quit j hv).imp_right hca
  · intro x hx
    rw [List.mem_append] at hx
    rcases hx with hx | hx
    · simpa using h.tags x hx
    · obtain ⟨g, -, rfl⟩ := List.mem_map.1 hx
      left; simpa using hi
  · rw [he, h.env, List.map_append, perform_append, List.map_map]
    simp [Function.comp_def]
  · rcases hsent with rfl | ⟨rfl, -⟩
    · exact h.nodup
    · simpa [List.nodup_append] using ⟨h.nodup, fun a ha hb => hns (hb ▸ ha)⟩
  · intro j hj
    by_cases hji : j = i
    · subst hji
      rcases hsent with rfl | ⟨rfl, hw'⟩
      · exact absurd hj hns
      · rw [List.getElem?_set_self hi, hw']
    · rw [List.getElem?_set_ne (Ne.symm hji)]
      exact h.ended j ((hmem j hji).1 hj)

/-- The calling goroutine makes a call. -/
theorem TInv2.main (h : TInv2 F ini e₀ segs tr sent ns ws ca e) (g : Act E) {ca' : Bool} (hca : ca = true → ca' = true)
    (hca' : ca' = true → Refused p e₀ F ini segs) : TInv2 F ini e₀ segs (tr ++ [(segs.length, g)]) sent ns ws ca' (g e) := by
  refine ⟨h.started, h.lens, ?_, fun i hi => (h.quit i hi).imp_right hca, ?_, ?_, h.nodup, h.ended, hca'⟩
  · intro i w hw
    obtain ⟨xs, todo, n, h1, h2, h3, h4⟩ := h.each i w hw
    have hi := (List.getElem?_eq_some_iff.1 h1).1
    have : part i [(segs.length, g)] = [] := by
      simp [part]; omega
    exact ⟨xs, todo, n, h1, h2, h3, by rw [part_append, this, List.append_nil]; exact h4⟩
  · intro x hx
    rw [List.mem_append] at hx
    rcases hx with hx | hx
    · exact h.tags x hx
    · right; rw [List.mem_singleton.1 hx]
  · rw [h.env, List.map_append, perform_append]; rfl

theorem TInv2.sent_lt (h : TInv2 F ini e₀ segs tr sent ns ws ca e) : ∀ i ∈ sent, i < ws.length := fun i hi => (List.getElem?_eq_some_iff.1 (h.ended i hi)).1

theorem TInv2.sent_le (h : TInv2 F ini e₀ segs tr sent ns ws ca e) : sent.length ≤ ws.length := by
  have : sent ⊆ List.range ws.length := fun i hi => List.mem_range.2 (h.sent_lt i hi)
  simpa using (h.nodup.subperm this).length_le

theorem outs (p : Ops E T R) (e₀ : E) (F : R → R → E → (R × Bool) × E) (ini : R) (segs : List (List T)) :
    segs.map (fun xs => (p.upto e₀ F ini xs).2) = (List.range segs.length).map (outOf p e₀ F ini segs) := by
  apply List.ext_getElem (by simp)
  intro i h1 h2
  simp at h1
  simp [outOf, List.getD, h1]

/-- Results received are results of different segments. -/
theorem TInv2.received (h : TInv2 F ini e₀ segs tr sent ns ws ca e) (n : Nat) {rs : List R} (hrs : rs.map some = (sent.take n).map (outOf p e₀ F ini segs)) :
    (rs.map some).Subperm (segs.map (fun xs => (p.upto e₀ F ini xs).2)) := by
  rw [hrs, outs]
  have h1 : sent.Subperm (List.range segs.length) :=
    h.nodup.subperm (fun i hi => List.mem_range.2 (Nat.lt_of_lt_of_le (h.sent_lt i hi) h.started))
  obtain ⟨l, hp, hs⟩ := (List.take_sublist n sent).subperm.trans h1
  exact ⟨l.map _, hp.map _, hs.map _⟩

theorem TInv2.out (h : TInv2 F ini e₀ segs tr sent ns ws ca e) {i : Nat} {acc : R} (hw : ws[i]? = some (.send acc)) :
    outOf p e₀ F ini segs i = some acc := by
  obtain ⟨xs, todo, n, h1, -, ⟨rfl, -⟩, -, h5, -⟩ := h.each i _ hw
  have := h5 (.inl (by simp))
  simp [outOf, List.getD, h1, ← this]


/-- Steps for the segments not started yet. -/
def aheadT (p : Ops E T R) (todo : List (List T)) : Nat := (todo.map (fun xs => 4 * p.scale (xs.length + 1) + 3)).sum

/-- Invariant of the parallel TryFold, with a bound on the steps to come. -/
def TryInv (p : Ops E T R) (e₀ : E) (F : R → R → E → (R × Bool) × E) (ini : R) (segs : List (List T)) (k : Nat)
    (tr : List (Nat × Act E)) (c : TrySt s p) (m : Nat) : Prop :=
  ∃ sent ns, TInv2 F ini e₀ segs tr sent ns c.ws c.cancelled c.e ∧ c.chan.length ≤ sent.length ∧
    match c.main with
    | .seg g => SegsOf s g (segs.drop c.ws.length) ∧ part segs.length tr = [] ∧ c.chan.map some = sent.map (outOf p e₀ F ini segs) ∧
        m = aheadT p (segs.drop c.ws.length) + ns.sum + k + 2
    | .recv acc n _ => c.ws.length = segs.length ∧ n ≤ sent.length ∧ n ≤ k ∧ ∃ rs : List R, rs.map some = (sent.take n).map (outOf p e₀ F ini segs) ∧
        (Ops.source : Ops E R R).upto e₀ F ini rs = (part segs.length tr, some acc) ∧ c.chan.map some = (sent.drop n).map (outOf p e₀ F ini segs) ∧
        m = ns.sum + (k - n) + 1
    | .ret res true => c.ws.length = segs.length ∧ sent.length = k ∧ (∃ rs : List R, rs.map some = sent.map (outOf p e₀ F ini segs) ∧
        (Ops.source : Ops E R R).upto e₀ F ini rs = (part segs.length tr, some res)) ∧ m = ns.sum
    | .ret _ false => c.ws.length = segs.length ∧ (∃ n, ∃ rs : List R, n ≤ sent.length ∧ rs.map some = (sent.take n).map (outOf p e₀ F ini segs) ∧
        ((Ops.source : Ops E R R).upto e₀ F ini rs).1 = part segs.length tr) ∧ Refused p e₀ F ini segs ∧ m = ns.sum

theorem TryInv.init (hs : Splits s k segs) (l : s.L) : TryInv (s := s) p e₀ F ini segs k [] (.init s p k l e₀) (aheadT p segs + k + 2) :=
  ⟨[], [], .start, by simp [TrySt.init], by exact ⟨hs, rfl, rfl, by simp [TrySt.init]⟩⟩

theorem part_main {n i : Nat} (h : i < n) (gs : List (Act E)) (tr : List (Nat × Act E)) : part n (tr ++ gs.map (fun g => (i, g))) = part n tr := by
  rw [part_append, part_other (by omega), List.append_nil]

theorem TryInv.refused {c : TrySt s p} {m} (h : TryInv p e₀ F ini segs k tr c m) : c.cancelled = true → Refused p e₀ F ini segs := by
  obtain ⟨sent, ns, hi, -⟩ := h
  exact hi.canc

/-- A step of a goroutine that sends nothing. -/
theorem TryInv.work {c : TrySt s p} {m} (h : TryInv p e₀ F ini segs k tr c m) {i : Nat} {w w' : TG s p} (hw : c.ws[i]? = some w) (hne : w ≠ .exit) {ca' : Bool} {l' : s.L} {e' : E}
    (hca : c.cancelled = true → ca' = true) (hca' : ca' = true → Refused p e₀ F ini segs) (hexit : w' = .exit → ca' = true)
    (hs : ∀ todo n, w.Owes e₀ F todo n → ∃ gs todo' n', e' = perform gs c.e ∧ w'.Owes e₀ F todo' n' ∧ n' < n ∧ todo.1 = gs ++ todo'.1 ∧ (w' ≠ .exit → todo'.2 = todo.2)) :
    ∃ (tr' : List (Nat × Act E)) (m' : Nat), m' < m ∧ TryInv p e₀ F ini segs k (tr ++ tr') { c with ws := c.ws.set i w', cancelled := ca', l := l', e := e' } m' := by
  obtain ⟨sent, ns, hi, hch, hm⟩ := h
  have hlt : i < segs.length := Nat.lt_of_lt_of_le (List.getElem?_eq_some_iff.1 hw).1 hi.started
  obtain ⟨gs, ns', -, hi', hsum⟩ := hi.step (sent' := sent) (w' := w') (P := fun _ => True) hw hne hca hca' (.inl rfl) (fun h => .inr (hexit h)) (by
    intro todo n ho
    obtain ⟨gs, todo', n', he, h1, h2, h3, h4⟩ := hs todo n ho
    exact ⟨gs, todo', n', trivial, he, h1, h2, h3, fun hor => h4 (hor.resolve_right (by simp)), fun hf => absurd hf (by simp)⟩)
  refine ⟨gs.map (fun g => (i, g)), ?_⟩
  cases hg : c.main with
  | seg g =>
    rw [hg] at hm
    obtain ⟨h1, h2, h3, rfl⟩ := hm
    refine ⟨aheadT p (segs.drop c.ws.length) + ns'.sum + k + 2, by omega, sent, ns', hi', hch, ?_⟩
    exact ⟨by simpa using h1, by rw [part_main hlt]; exact h2, h3, by simp⟩
  | recv acc n v =>
    rw [hg] at hm
    obtain ⟨h1, h2, h3, rs, h4, h5, h6, rfl⟩ := hm
    refine ⟨ns'.sum + (k - n) + 1, by omega, sent, ns', hi', hch, ?_⟩
    exact ⟨by simpa using h1, h2, h3, rs, h4, by rw [part_main hlt]; exact h5, h6, rfl⟩
  | ret res ok =>
    rw [hg] at hm
    cases ok with
    | true =>
      obtain ⟨h1, h2, ⟨rs, h3, h4⟩, rfl⟩ := hm
      refine ⟨ns'.sum, hsum, sent, ns', hi', hch, ?_⟩
      exact ⟨by simpa using h1, h2, ⟨rs, h3, by rw [part_main hlt]; exact h4⟩, rfl⟩
    | false =>
      obtain ⟨h1, ⟨n, rs, h2, h3, h4⟩, h5, rfl⟩ := hm
      refine ⟨ns'.sum, hsum, sent, ns', hi', hch, ?_⟩
      exact ⟨by simpa using h1, ⟨n, rs, h2, h3, by rw [part_main hlt]; exact h4⟩, h5, rfl⟩

theorem TryInv.send {c : TrySt s p} {m} (h : TryInv p e₀ F ini segs k tr c m) {i : Nat} {acc : R} (hw : c.ws[i]? = some (.send acc)) (hk : segs.length = k) :
    ∃ m', m' < m ∧ TryInv p e₀ F ini segs k tr { c with ws := c.ws.set i .exit, chan := c.chan ++ [acc] } m' := by
  obtain ⟨sent, ns, hi, hch, hm⟩ := h
  have hout := hi.out hw
  obtain ⟨gs, ns', rfl, hi', hsum⟩ := hi.step (P := (· = [])) (ca' := c.cancelled) (e' := c.e) (sent' := sent ++ [i]) (w' := .exit) hw (by simp) (fun h => h) hi.canc (.inr ⟨rfl, rfl⟩)
    (fun _ => .inl (by simp)) (by
      rintro todo n ⟨rfl, rfl⟩
      exact ⟨[], ([], some acc), 0, rfl, rfl, rfl, by omega, rfl, fun _ => rfl, fun _ => rfl⟩)
  rw [List.map_nil, List.append_nil] at hi'
  have hlen : (c.ws.set i TG.exit).length = c.ws.length := by simp
  have hch' : (c.chan ++ [acc]).length ≤ (sent ++ [i]).length := by simpa using hch
  cases hg : c.main with
  | seg g =>
    rw [hg] at hm
    obtain ⟨h1, h2, h3, rfl⟩ := hm
    refine ⟨aheadT p (segs.drop c.ws.length) + ns'.sum + k + 2, by omega, sent ++ [i], ns', hi', hch', ?_⟩
    exact ⟨by simpa using h1, h2, by simp [h3, hout], by simp⟩
  | recv acc' n v =>
    rw [hg] at hm
    obtain ⟨h1, h2, h3, rs, h4, h5, h6, rfl⟩ := hm
    refine ⟨ns'.sum + (k - n) + 1, by omega, sent ++ [i], ns', hi', hch', ?_⟩
    exact ⟨by simpa using h1, by simp; omega, h3, rs, by rw [List.take_append_of_le_length h2]; exact h4, h5,
      by rw [List.drop_append_of_le_length h2]; simp [h6, hout], rfl⟩
  | ret res ok =>
    rw [hg] at hm
    cases ok with
    | true =>
      exfalso
      obtain ⟨h1, h2, -⟩ := hm
      have := hi'.sent_le
      simp at this
      omega
    | false =>
      obtain ⟨h1, ⟨n, rs, h2, h3, h4⟩, h5, rfl⟩ := hm
      refine ⟨ns'.sum, hsum, sent ++ [i], ns', hi', hch', ?_⟩
      exact ⟨by simpa using h1, ⟨n, rs, by simp; omega, by rw [List.take_append_of_le_length h2]; exact h3, h4⟩, h5, rfl⟩

theorem TryInv.spawn {c : TrySt s p} {m} (h : TryInv p e₀ F ini segs k tr c m) {g st g' l' e'} (hg : c.main = .seg g)
    (hst : s.seg g c.l c.e = .ok (some st, g', l', e')) :
    ∃ m', m' < m ∧ TryInv p e₀ F ini segs k tr { c with main := .seg g', ws := c.ws ++ [.ask (p.start s st) ini], l := l', e := e' } m' := by
  obtain ⟨sent, ns, hi, hch, hm⟩ := h
  rw [hg] at hm
  obtain ⟨h1, h2, h3, rfl⟩ := hm
  obtain ⟨rfl, rfl, xs, rest, hd, hs, hr⟩ := segs_step h1 hst
  obtain ⟨hx, hd'⟩ := drop_cons hd
  have hsp := hi.spawn hs hx
  refine ⟨_, ?_, sent, _, hsp, hch, ?_, h2, h3, rfl⟩
  · simp only [List.length_append, List.length_singleton, hd, hd', aheadT, List.map_cons, List.sum_cons, List.sum_append, List.sum_nil]
    omega
  · simp only [List.length_append, List.length_singleton, hd']
    exact hr

theorem TryInv.segEnd (hk : segs.length = k) {c : TrySt s p} {m} (h : TryInv p e₀ F ini segs k tr c m) {g g' l' e'} (hg : c.main = .seg g)
    (hst : s.seg g c.l c.e = .ok (none, g', l', e')) :
    ∃ m', m' < m ∧ TryInv p e₀ F ini segs k tr { c with main := .recv ini 0 z, l := l', e := e' } m' := by
  obtain ⟨sent, ns, hi, hch, hm⟩ := h
  rw [hg] at hm
  obtain ⟨h1, h2, h3, rfl⟩ := hm
  obtain ⟨rfl, rfl, hd⟩ := segs_step h1 hst
  have := hi.started
  rw [List.drop_eq_nil_iff] at hd
  refine ⟨ns.sum + (k - 0) + 1, by omega, sent, ns, hi, hch, ?_⟩
  exact ⟨by show c.ws.length = _; omega, by omega, by omega, [], by simp, by rw [h2]; rfl, by simpa using h3, rfl⟩

theorem TryInv.step (hp : p.Steady) (hF : ∀ a v e e', (F a v e).1 = (F a v e').1) (hk : segs.length = k) {c c' : TrySt s p} {m}
    (h : TryInv p e₀ F ini segs k tr c m) (hc : TryStep k z ini F c c') :
    ∃ (tr' : List (Nat × Act E)) (m' : Nat), m' < m ∧ TryInv p e₀ F ini segs k (tr ++ tr') c' m' := by
  cases hc with
  | spawn g st g' l' e' hg hst => obtain ⟨m', h1, h2⟩ := h.spawn hg hst; exact ⟨[], m', h1, by rwa [List.append_nil]⟩
  | segEnd g g' l' e' hg hst => obtain ⟨m', h1, h2⟩ := h.segEnd (z := z) hk hg hst; exact ⟨[], m', h1, by rwa [List.append_nil]⟩
  | more i st acc st' l' e' hw ht =>
    refine h.work (w' := .ask st' acc) hw (by simp) (fun h => h) h.refused (by simp) ?_
    rintro todo n ⟨cur, xs, m0, hs, rfl, rfl⟩
    obtain ⟨gs, t, ht', hgs, hres⟩ := p.ticks e₀ s hp st cur xs m0 hs c.l c.e
    rw [ht] at ht'
    obtain ⟨rfl, rfl, rfl⟩ := by simpa using ht'
    obtain ⟨cur', xs', m', hm, hs', hmv⟩ := hres
    have := Ops.uptoRest_moves (F := F) (a := acc) hmv
    exact ⟨gs, _, _, rfl, ⟨cur', xs', m', hs', rfl, rfl⟩, by omega, by rw [this], fun _ => by rw [this]⟩
  | yield i st acc v st' l' e' hw ht =>
    refine h.work (w' := .sel v st' acc) hw (by simp) (fun h => h) h.refused (by simp) ?_
    rintro todo n ⟨cur, xs, m0, hs, rfl, rfl⟩
    obtain ⟨gs, t, ht', hgs, hres⟩ := p.ticks e₀ s hp st cur xs m0 hs c.l c.e
    rw [ht] at ht'
    obtain ⟨rfl, rfl, rfl⟩ := by simpa using ht'
    obtain ⟨xs', m', hm, hs', hmv⟩ := hres
    have := Ops.uptoRest_moves (F := F) (a := acc) hmv
    exact ⟨gs, _, _, rfl, ⟨xs', m', hs', rfl, rfl⟩, by omega, by rw [this], fun _ => by rw [this]⟩
  | stop i st acc st' l' e' hw ht =>
    refine h.work (w' := .send acc) hw (by simp) (fun h => h) h.refused (by simp) ?_
    rintro todo n ⟨cur, xs, m0, hs, rfl, rfl⟩
    obtain ⟨gs, t, ht', hgs, hres⟩ := p.ticks e₀ s hp st cur xs m0 hs c.l c.e
    rw [ht] at ht'
    obtain ⟨rfl, rfl, rfl⟩ := by simpa using ht'
    obtain ⟨hm, rfl, rfl, rfl⟩ := hres
    exact ⟨[], _, _, rfl, ⟨rfl, rfl⟩, by omega, rfl, fun _ => rfl⟩
  | selDone i v st acc hw hcan =>
    refine h.work (w' := .exit) hw (by simp) (fun h => h) h.refused (fun _ => hcan) ?_
    rintro todo n ⟨xs, m0, hs, rfl, rfl⟩
    exact ⟨[], _, 0, rfl, rfl, by omega, rfl, fun _ => rfl⟩
  | selDefault i v st acc hw hcan =>
    refine h.work (w' := .call v st acc) hw (by simp) (fun h => h) h.refused (by simp) ?_
    rintro todo n ⟨xs, m0, hs, rfl, rfl⟩
    exact ⟨[], _, _, rfl, ⟨xs, m0, hs, rfl, rfl⟩, by omega, rfl, fun _ => rfl⟩
  | callOk i v st acc hw hok =>
    refine h.work (w' := .ask st (F acc v c.e).1.1) hw (by simp) (fun h => h) h.refused (by simp) ?_
    rintro todo n ⟨xs, m0, hs, rfl, rfl⟩
    rw [hF acc v c.e e₀] at hok ⊢
    refine ⟨[fun e => (F acc v e).2], _, _, rfl, ⟨([], none), xs, m0, hs, rfl, rfl⟩, by omega, ?_, fun _ => ?_⟩ <;> simp [Ops.uptoRest, Ops.uptoCont, hok]
  | callStop i v st acc hw hok =>
    refine h.work (w' := .cancel) hw (by simp) (fun h => h) h.refused (by simp) ?_
    rintro todo n ⟨xs, m0, hs, rfl, rfl⟩
    rw [hF acc v c.e e₀] at hok
    refine ⟨[fun e => (F acc v e).2], _, _, rfl, ⟨rfl, rfl⟩, by omega, ?_, fun _ => ?_⟩ <;> simp [Ops.uptoRest, Ops.uptoCont, hok]
  | cancel i hw =>
    have hr : Refused p e₀ F ini segs := by
      obtain ⟨sent, ns, hi, -⟩ := h
      obtain ⟨xs, todo, n, h1, -, ⟨rfl, -⟩, -, h5, -⟩ := hi.each i _ hw
      exact .inl ⟨xs, List.mem_of_getElem? h1, (h5 (.inl (by simp))).symm⟩
    refine h.work (w' := .exit) hw (by simp) (fun _ => rfl) (fun _ => hr) (fun _ => rfl) ?_
    rintro todo n ⟨rfl, rfl⟩
    exact ⟨[], _, 0, rfl, rfl, by omega, rfl, fun _ => rfl⟩
  | send i acc hw hroom => obtain ⟨m', h1, h2⟩ := h.send hw hk; exact ⟨[], m', h1, by rwa [List.append_nil]⟩
  | recvOk acc n v a rest hg hn hch hok =>
    obtain ⟨sent, ns, hi, hlen, hm⟩ := h
    rw [hg] at hm
    obtain ⟨h1, h2, h3, rs, h4, h5, h6, rfl⟩ := hm
    have hlt : n < sent.length := by
      by_contra hge
      rw [List.drop_eq_nil_of_le (by omega), List.map_nil] at h6
      rw [hch] at h6
      simp at h6
    rw [List.drop_eq_getElem_cons hlt, hch, List.map_cons, List.map_cons] at h6
    obtain ⟨h6, h7⟩ := List.cons.inj h6
    rw [hF acc a c.e e₀] at hok ⊢
    refine ⟨[(segs.length, fun e => (F acc a e).2)], ns.sum + (k - (n + 1)) + 1, by omega, sent, ns, hi.main _ (fun h => h) hi.canc, ?_, ?_⟩
    · rw [hch] at hlen; exact Nat.le_of_succ_le hlen
    · refine ⟨h1, by omega, by omega, rs ++ [a], ?_, ?_, h7, rfl⟩
      · rw [List.take_succ_eq_append_getElem hlt, List.map_append, List.map_append, h4]
        simp [h6]
      · rw [Ops.upto_snoc e₀ F ini rs a acc (by rw [h5]), h5, part_append]
        simp [part, hok]
  | recvStop acc n v a rest hg hn hch hok =>
    obtain ⟨sent, ns, hi, hlen, hm⟩ := h
    rw [hg] at hm
    obtain ⟨h1, h2, h3, rs, h4, h5, h6, rfl⟩ := hm
    have hlt : n < sent.length := by
      by_contra hge
      rw [List.drop_eq_nil_of_le (by omega), List.map_nil] at h6
      rw [hch] at h6
      simp at h6
    rw [List.drop_eq_getElem_cons hlt, hch, List.map_cons, List.map_cons] at h6
    obtain ⟨h6, h7⟩ := List.cons.inj h6
    rw [hF acc a c.e e₀] at hok
    have h8 : (rs ++ [a]).map some = (sent.take (n + 1)).map (outOf p e₀ F ini segs) := by
      rw [List.take_succ_eq_append_getElem hlt, List.map_append, List.map_append, h4]
      simp [h6]
    have h9 := Ops.upto_snoc e₀ F ini rs a acc (by rw [h5])
    have hr : Refused p e₀ F ini segs := .inr ⟨rs ++ [a], hi.received (n + 1) h8, by rw [h9]; simp [hok]⟩
    refine ⟨[(segs.length, fun e => (F acc a e).2)], ns.sum, by omega, sent, ns, hi.main _ (fun _ => rfl) (fun _ => hr), ?_, ?_⟩
    · rw [hch] at hlen; exact Nat.le_of_succ_le hlen
    · exact ⟨h1, ⟨n + 1, rs ++ [a], hlt, h8, by rw [h9, h5, part_append]; simp [part]⟩, hr, rfl⟩
  | recvDone acc n v hg hn hcan =>
    obtain ⟨sent, ns, hi, hlen, hm⟩ := h
    rw [hg] at hm
    obtain ⟨h1, h2, h3, rs, h4, h5, h6, rfl⟩ := hm
    exact ⟨[], ns.sum, by omega, sent, ns, by rw [List.append_nil]; exact hi, hlen, h1, ⟨n, rs, h2, h4, by rw [h5, List.append_nil]⟩, hi.canc hcan, rfl⟩
  | finish acc n v hg hn =>
    obtain ⟨sent, ns, hi, hlen, hm⟩ := h
    rw [hg] at hm
    obtain ⟨h1, h2, h3, rs, h4, h5, h6, rfl⟩ := hm
    have := hi.sent_le
    refine ⟨[], ns.sum, by omega, sent, ns, by rw [List.append_nil]; exact hi, hlen, h1, by omega, ⟨rs, ?_, by rw [List.append_nil]; exact h5⟩, rfl⟩
    rw [h4, List.take_of_length_le (by omega)]

/-- As long as TryFold has not returned or some goroutine has not ended, a step is possible. -/
theorem TryInv.can (hp : p.Steady) (hk : segs.length = k) {c : TrySt s p} {m} (h : TryInv p e₀ F ini segs k tr c m) :
    ((∃ v b, c.main = .ret v b) ∧ ∀ w ∈ c.ws, w = .exit) ∨ ∃ c', TryStep k z ini F c c' := by
  obtain ⟨sent, ns, hi, hlen, hm⟩ := h
  by_cases hall : ∀ w ∈ c.ws, w = .exit
  · cases hg : c.main with
    | seg g =>
      rw [hg] at hm
      obtain ⟨o, g', ho⟩ := segs_can hm.1 c.l c.e
      cases o with
      | none => exact .inr ⟨_, .segEnd c g g' _ _ hg ho⟩
      | some st => exact .inr ⟨_, .spawn c g st g' _ _ hg ho⟩
    | ret res ok => exact .inl ⟨⟨res, ok, rfl⟩, hall⟩
    | recv acc n v =>
      right
      rw [hg] at hm
      obtain ⟨h1, h2, h3, rs, h4, h5, h6, rfl⟩ := hm
      by_cases hn : n = k
      · exact ⟨_, .finish c acc n v hg hn⟩
      · cases hch : c.chan with
        | cons a rest =>
          by_cases hok : (F acc a c.e).1.2 = true
          · exact ⟨_, .recvOk c acc n v a rest hg hn hch hok⟩
          · exact ⟨_, .recvStop c acc n v a rest hg hn hch (by simpa using hok)⟩
        | nil =>
          rw [hch] at h6
          have hsl : sent.length ≤ n := by simpa using h6.symm
          by_cases hcan : c.cancelled = true
          · exact ⟨_, .recvDone c acc n v hg hn hcan⟩
          · exfalso
            have hsub : List.range c.ws.length ⊆ sent := by
              intro i hi'
              have hi' := List.mem_range.1 hi'
              exact (hi.quit i (by rw [List.getElem?_eq_getElem hi', hall _ (List.getElem_mem hi')])).resolve_right hcan
            have := (List.nodup_range.subperm hsub).length_le
            simp at this
            omega
  · right
    push Not at hall
    obtain ⟨w, hw, hne⟩ := hall
    obtain ⟨i, hlt, rfl⟩ := List.getElem_of_mem hw
    have hw : c.ws[i]? = some c.ws[i] := List.getElem?_eq_getElem hlt
    obtain ⟨xs, todo, n, h1, -, ho, -⟩ := hi.each i _ hw
    generalize c.ws[i] = w at hw hne ho
    cases w with
    | ask st acc =>
      obtain ⟨cur, xs, m, hs, rfl, rfl⟩ := ho
      obtain ⟨gs, t, ht, -⟩ := p.ticks e₀ s hp st cur xs m hs c.l c.e
      cases t with
      | more st' => exact ⟨_, .more c i st acc st' _ _ hw ht⟩
      | yield v st' => exact ⟨_, .yield c i st acc v st' _ _ hw ht⟩
      | stop st' => exact ⟨_, .stop c i st acc st' _ _ hw ht⟩
    | sel v st acc =>
      by_cases hcan : c.cancelled = true
      · exact ⟨_, .selDone c i v st acc hw hcan⟩
      · exact ⟨_, .selDefault c i v st acc hw (by simpa using hcan)⟩
    | call v st acc =>
      by_cases hok : (F acc v c.e).1.2 = true
      · exact ⟨_, .callOk c i v st acc hw hok⟩
      · exact ⟨_, .callStop c i v st acc hw (by simpa using hok)⟩
    | cancel => exact ⟨_, .cancel c i hw⟩
    | send acc =>
      refine ⟨_, .send c i acc hw ?_⟩
      have hns : i ∉ sent := fun hin => by have := hi.ended i hin; rw [hw] at this; simp at this
      have hnd : (sent ++ [i]).Nodup := by simpa [List.nodup_append] using ⟨hi.nodup, fun a ha hb => hns (hb ▸ ha)⟩
      have hsub : sent ++ [i] ⊆ List.range segs.length := by
        intro j hj
        have := hi.started
        rcases List.mem_append.1 hj with hj | hj
        · exact List.mem_range.2 (by have := hi.sent_lt j hj; omega)
        · rw [List.mem_singleton.1 hj]; exact List.mem_range.2 (by omega)
      have := (hnd.subperm hsub).length_le
      simp at this
      omega
    | exit => exact absurd rfl hne

end
end Gds.Stream
