import Verif.Stream.ParExact

/-! Parallel TryFold with the callbacks of AllMatch and AnyMatch, over any number of segments (C108). -/

namespace Gds.Stream

variable {E T R : Type}

/-- Some schedule leads from `c` to `c'`. -/
inductive TSteps (s : Stm E T) (p : Nat) (z ini : T) (f : T → T → T × Bool) : TSt s → TSt s → Prop where
  | refl (c) : TSteps s p z ini f c c
  | head {c c1 c2} : TStep s p z ini f c c1 → TSteps s p z ini f c1 c2 → TSteps s p z ini f c c2

section
variable {s : Stm E T} {p : Nat} {z x0 : T} {q : T → Bool}

theorem TSteps.trans {f : T → T → T × Bool} {a b c : TSt s} (h : TSteps s p z x0 f a b) (h' : TSteps s p z x0 f b c) : TSteps s p z x0 f a c := by
  induction h with
  | refl => exact h'
  | head h _ ih => exact .head h (ih h')

theorem TSteps.reach {f : T → T → T × Bool} {l : s.L} {e : E} {a b : TSt s} (h : TSteps s p z x0 f a b) (ha : TReach s p z x0 f l e a) :
    TReach s p z x0 f l e b := by
  induction h with
  | refl => exact ha
  | head h _ ih => exact ih (.step ha h)

/-- What a returned flag means, on every schedule and for any number of segments. -/
theorem parTry_outcome {segs : List (List T)} (hs : Splits s p segs) (hx : x0 ∈ segs.flatten) (l : s.L) (e : E) (c : TSt s)
    (h : TReach s p z x0 (allCb q) l e c) (r : T) (ok : Bool) (hr : c.main = .ret r ok) :
    (ok = false → ∃ x ∈ segs.flatten, q x = false) ∧
    (ok = true → p ≤ segs.countP (fun xs => xs.all q) ∧ (p ≠ 0 → q x0 = true)) := by
  have i := h.inv hs hx
  constructor
  · rintro rfl
    have := i.retF r hr
    rw [List.all_eq_false] at this
    obtain ⟨x, a, b⟩ := this
    exact ⟨x, a, by simpa using b⟩
  · rintro rfl
    exact i.retT r hr

/-- With at least `p` segments every schedule returns. -/
theorem parTry_returns {segs : List (List T)} (hs : Splits s p segs) (hp : p ≤ segs.length) (hx : x0 ∈ segs.flatten) (l : s.L) (e : E) :
    Inevitably (TStep s p z x0 (allCb q)) (fun c => ∃ r ok, c.main = .ret r ok) (TSt.init s p l e) :=
  inevitably_of (TReach s p z x0 (allCb q) l e) (TSt.work p) (fun _ _ h hst => .step h hst)
    (fun c h => parTry_progress hs hp hx l e c h) (fun c c' h hst => parTry_terminates hs hx l e c c' h hst) _ .init

/-! ### Goroutines left behind -/

/-- Some goroutine is blocked for ever in `resChan <- accum` (tryfold.go:42): whatever happens next, it stays there. -/
def Leaks (s : Stm E T) (p : Nat) (z ini : T) (f : T → T → T × Bool) (c : TSt s) : Prop :=
  ∃ (i : Nat) (a : T), c.ws[i]? = some (TW.send a) ∧ ∀ c', TSteps s p z ini f c c' → c'.ws[i]? = some (TW.send a)

theorem getElem?_replace {α : Type} {pre post : List α} {w w' : α} {i : Nat} {x : α} (h : (pre ++ w :: post)[i]? = some x) (hne : w ≠ x) :
    (pre ++ w' :: post)[i]? = some x := by
  rcases Nat.lt_trichotomy i pre.length with hi | hi | hi
  · rw [List.getElem?_append_left hi] at h ⊢; exact h
  · subst hi; simp at h; exact (hne h).elim
  · rw [List.getElem?_append_right (by omega)] at h ⊢
    obtain ⟨j, hj⟩ := Nat.exists_eq_add_of_lt hi
    rw [show i - pre.length = j + 1 by omega] at h ⊢
    simpa using h

/-- Once the caller has returned and the channel is full, a goroutine about to send stays where it is. -/
theorem blocked_step {f : T → T → T × Bool} {c c' : TSt s} {r : T} {ok : Bool} {i : Nat} {a : T} (hm : c.main = .ret r ok) (hc : p ≤ c.chan.length)
    (hi : c.ws[i]? = some (.send a)) (h : TStep s p z x0 f c c') :
    c'.main = .ret r ok ∧ p ≤ c'.chan.length ∧ c'.ws[i]? = some (.send a) := by
  cases h with
  | spawn g st g' l' e' h => rw [hm] at h; simp at h
  | segEnd g g' l' e' h => rw [hm] at h; simp at h
  | recvOk acc k val b rest h => rw [hm] at h; simp at h
  | recvStop acc k val b rest h => rw [hm] at h; simp at h
  | recvDone acc k val h => rw [hm] at h; simp at h
  | finish acc k val h => rw [hm] at h; simp at h
  | send pre post acc hw hl => omega
  | pull pre post st acc v st' l' e' hw _ => rw [hw] at hi; exact ⟨hm, hc, getElem?_replace hi (by simp)⟩
  | pullEnd pre post st acc st' l' e' hw _ => rw [hw] at hi; exact ⟨hm, hc, getElem?_replace hi (by simp)⟩
  | selDone pre post v st acc hw _ => rw [hw] at hi; exact ⟨hm, hc, getElem?_replace hi (by simp)⟩
  | selDefault pre post v st acc hw _ => rw [hw] at hi; exact ⟨hm, hc, getElem?_replace hi (by simp)⟩
  | callOk pre post v st acc hw _ => rw [hw] at hi; exact ⟨hm, hc, getElem?_replace hi (by simp)⟩
  | callStop pre post v st acc hw _ => rw [hw] at hi; exact ⟨hm, hc, getElem?_replace hi (by simp)⟩
  | cancel pre post hw => rw [hw] at hi; exact ⟨hm, hc, getElem?_replace hi (by simp)⟩

theorem blocked_forever {f : T → T → T × Bool} {c : TSt s} {r : T} {ok : Bool} {i : Nat} {a : T} (hm : c.main = .ret r ok) (hc : p ≤ c.chan.length)
    (hi : c.ws[i]? = some (.send a)) : Leaks s p z x0 f c := by
  refine ⟨i, a, hi, fun c' h => ?_⟩
  induction h with
  | refl => exact hi
  | head h _ ih => obtain ⟨a, b, d⟩ := blocked_step hm hc hi h; exact ih a b d

theorem tok_pos {ws : List (TW s)} {a : T} (h : .send a ∈ ws) : 1 ≤ (ws.map (TW.tok q)).sum := by
  obtain ⟨pre, post, rfl⟩ := mem_split h
  simp [TW.tok]; omega

/-- If all elements satisfy the predicate (and there are at most 2p segments), or at most p segments do, then every schedule ends
    with the call returned and every goroutine returned. -/
theorem parTry_all_exit {segs : List (List T)} (hs : Splits s p segs) (hp : p ≤ segs.length) (hx : x0 ∈ segs.flatten)
    (hq : (segs.length ≤ 2 * p ∧ ∀ x ∈ segs.flatten, q x = true) ∨ segs.countP (fun xs => xs.all q) ≤ p) (l : s.L) (e : E) :
    Inevitably (TStep s p z x0 (allCb q)) (fun c => (∃ r ok, c.main = .ret r ok) ∧ ∀ w ∈ c.ws, w = .exit) (TSt.init s p l e) := by
  refine inevitably_of (TReach s p z x0 (allCb q) l e) (TSt.work p) (fun _ _ h hst => .step h hst)
    (fun c h => ?_) (fun c c' h hst => parTry_terminates hs hx l e c c' h hst) _ .init
  have i := h.inv hs hx
  rcases parTry_progress hs hp hx l e c h with ⟨r, ok, hr⟩ | hst
  swap
  · exact .inr hst
  by_cases hall : ∀ w ∈ c.ws, w = .exit
  · exact .inl ⟨⟨r, ok, hr⟩, hall⟩
  right
  push Not at hall
  obtain ⟨w, hw, hne⟩ := hall
  obtain ⟨pre, post, hws⟩ := mem_split hw
  have hok := i.ws w hw
  cases w with
  | exit => exact (hne rfl).elim
  | cancel => exact ⟨_, .cancel c pre post hws⟩
  | send a =>
    refine ⟨_, .send c pre post a hws ?_⟩
    have h1 := tok_pos (q := q) hw
    have h2 := i.tok
    have h3 := List.countP_le_length (p := fun xs : List T => xs.all q) (l := segs)
    rw [hr] at h2
    simp only [TM.tok] at h2
    rcases hq with ⟨hq, hq'⟩ | hq
    · cases ok with
      | false => have := i.retF r hr; rw [List.all_eq_true.2 hq'] at this; simp at this
      | true => simp only [if_true] at h2; omega
    · omega
  | sel v st a =>
    by_cases hcd : c.cancelled = true
    · exact ⟨_, .selDone c pre post v st a hws hcd⟩
    · exact ⟨_, .selDefault c pre post v st a hws (by simpa using hcd)⟩
  | call v st a =>
    by_cases hq : (allCb q a v).2 = true
    · exact ⟨_, .callOk c pre post v st a hws hq⟩
    · exact ⟨_, .callStop c pre post v st a hws (by simpa using hq)⟩
  | run st a =>
    rcases pull_ok (hok.run st a rfl).1 c.l c.e with ⟨v, st', hq⟩ | ⟨st', hq⟩
    · exact ⟨_, .pull c pre post st a v st' _ _ hws hq⟩
    · exact ⟨_, .pullEnd c pre post st a st' _ _ hws hq⟩

/-! ### The outcomes happen -/

/-- A goroutine whose segment satisfies the predicate can run to its send. -/
theorem run_good {st : s.S} {xs : List T} (h : PureSeg s st xs) : ∀ (c : TSt s) (pre post), c.cancelled = false → (∀ x ∈ xs, q x = true) →
    c.ws = pre ++ .run st x0 :: post → TSteps s p z x0 (allCb q) c { c with ws := pre ++ .send x0 :: post } := by
  induction h with
  | @nil st st' h => exact fun c pre post _ _ hw => .head (.pullEnd c pre post st x0 st' _ _ hw (h _ _)) (.refl _)
  | @cons st st' x xs h r ih =>
    intro c pre post hcd hq hw
    refine .head (.pull c pre post st x0 x st' _ _ hw (h _ _)) (.head (.selDefault _ pre post x st' x0 rfl hcd)
      (.head (.callOk _ pre post x st' x0 rfl (by simp [hq x])) ?_))
    rw [allCb_fst]
    exact ih { c with ws := pre ++ .run st' x0 :: post } pre post hcd (fun y hy => hq y (by simp [hy])) rfl

/-- A goroutine whose segment has an element failing the predicate can run to its cancel. -/
theorem run_bad {st : s.S} {xs : List T} (h : PureSeg s st xs) : ∀ (c : TSt s) (pre post), c.cancelled = false → (∃ x ∈ xs, q x = false) →
    c.ws = pre ++ .run st x0 :: post → TSteps s p z x0 (allCb q) c { c with ws := pre ++ .exit :: post, cancelled := true } := by
  induction h with
  | nil h => rintro c pre post _ ⟨x, hx, _⟩; simp at hx
  | @cons st st' x xs h r ih =>
    intro c pre post hcd hq hw
    refine .head (.pull c pre post st x0 x st' _ _ hw (h _ _)) (.head (.selDefault _ pre post x st' x0 rfl hcd) ?_)
    cases hqx : q x with
    | false => exact .head (.callStop _ pre post x st' x0 rfl (by simp [hqx])) (.head (.cancel _ pre post rfl) (.refl _))
    | true =>
      refine .head (.callOk _ pre post x st' x0 rfl (by simp [hqx])) ?_
      rw [allCb_fst]
      refine ih { c with ws := pre ++ .run st' x0 :: post } pre post hcd ?_ rfl
      obtain ⟨y, hy, hqy⟩ := hq
      rcases List.mem_cons.1 hy with rfl | hy
      · rw [hqx] at hqy; simp at hqy
      · exact ⟨y, hy, hqy⟩

/-- A goroutine at the beginning of a segment. -/
def Starts (s : Stm E T) (x0 : T) (w : TW s) (xs : List T) : Prop := ∃ st, w = .run st x0 ∧ PureSeg s st xs

/-- All segments can be handed out before anything else happens. -/
theorem try_spawn_all {f : T → T → T × Bool} {g : s.G} {segs : List (List T)} (h : SegsOf s g segs) : ∀ (c : TSt s), c.main = .seg g →
    ∃ ws' : List (TW s), TSteps s p z x0 f c { c with main := .recv x0 0 z, ws := c.ws ++ ws' } ∧ List.Forall₂ (Starts s x0) ws' segs := by
  induction h with
  | @nil g h =>
    intro c hm
    obtain ⟨g', hg⟩ := h c.l c.e
    refine ⟨[], ?_, .nil⟩
    rw [List.append_nil]
    exact .head (.segEnd c g g' _ _ hm hg) (.refl _)
  | @cons g g' st xs segs h hs r ih =>
    intro c hm
    obtain ⟨ws', k1, k2⟩ := ih { c with main := .seg g', ws := c.ws ++ [.run st x0] } rfl
    refine ⟨.run st x0 :: ws', .head (.spawn c g st g' _ _ hm (h _ _)) ?_, .cons ⟨st, rfl, hs⟩ k2⟩
    simpa using k1

theorem true_from {rest : List (TW s)} {segs : List (List T)} (h : List.Forall₂ (Starts s x0) rest segs) (hq0 : p ≠ 0 → q x0 = true) :
    ∀ (c : TSt s) (pre : List (TW s)) (k : Nat) (val : T), c.main = .recv x0 k val → c.chan = [] → c.cancelled = false → c.ws = pre ++ rest →
    k ≤ p → p ≤ k + segs.countP (fun xs => xs.all q) → ∃ c', TSteps s p z x0 (allCb q) c c' ∧ c'.main = .ret x0 true := by
  induction h with
  | nil =>
    intro c pre k val hm hc hcd hw hk hp
    exact ⟨_, .head (.finish c x0 k val hm (by simpa using Nat.le_antisymm hk (by simpa using hp))) (.refl _), rfl⟩
  | @cons w xs rest segs hst _ ih =>
    intro c pre k val hm hc hcd hw hk hp
    by_cases hkp : k = p
    · exact ⟨_, .head (.finish c x0 k val hm hkp) (.refl _), rfl⟩
    obtain ⟨st, rfl, hps⟩ := hst
    have hq0 := hq0 (by omega)
    by_cases hall : xs.all q = true
    · have h1 := run_good (p := p) (z := z) (x0 := x0) (q := q) hps c pre rest hcd (List.all_eq_true.1 hall) hw
      obtain ⟨c', h2, h3⟩ := ih { c with main := .recv x0 (k + 1) x0, ws := pre ++ .exit :: rest, chan := [] } (pre ++ [.exit]) (k + 1) x0 rfl rfl hcd
        (by simp) (by omega) (by simp [List.countP_cons, hall] at hp; omega)
      refine ⟨c', h1.trans (.head (.send _ pre rest x0 rfl (by simp [hc]; omega)) (.head (.recvOk _ x0 k val x0 [] hm hkp (by simp [hc]) (by simp [hq0])) ?_)), h3⟩
      simpa using h2
    · exact ih c (pre ++ [.run st x0]) k val hm hc hcd (by simpa using hw) hk (by simpa [List.countP_cons, hall] using hp)

/-- If at least `p` segments satisfy the predicate throughout, some schedule returns true, whatever the other segments contain. -/
theorem parTry_true_reached {segs : List (List T)} (hs : Splits s p segs) (hp : p ≤ segs.countP (fun xs => xs.all q)) (hq0 : p ≠ 0 → q x0 = true)
    (l : s.L) (e : E) : ∃ c, TReach s p z x0 (allCb q) l e c ∧ c.main = .ret x0 true := by
  obtain ⟨ws', h1, h2⟩ := try_spawn_all (p := p) (z := z) (x0 := x0) (f := allCb q) hs (.init s p l e) rfl
  obtain ⟨c, h3, h4⟩ := true_from (p := p) (z := z) (q := q) h2 hq0 { (TSt.init s p l e) with main := .recv x0 0 z, ws := [] ++ ws' } [] 0 z rfl rfl rfl rfl
    (Nat.zero_le _) (by simpa using hp)
  exact ⟨c, (h1.trans h3).reach .init, h4⟩

/-- If some element fails the predicate, some schedule returns false. -/
theorem parTry_false_reached {segs : List (List T)} (hs : Splits s p segs) (hp : 1 ≤ p) (hq : ∃ x ∈ segs.flatten, q x = false)
    (l : s.L) (e : E) : ∃ c, TReach s p z x0 (allCb q) l e c ∧ c.main = .ret z false := by
  obtain ⟨ws', h1, h2⟩ := try_spawn_all (p := p) (z := z) (x0 := x0) (f := allCb q) hs (.init s p l e) rfl
  obtain ⟨x, hx, hqx⟩ := hq
  obtain ⟨xs, hxs, hx'⟩ := List.mem_flatten.1 hx
  have : ∃ w ∈ ws', Starts s x0 w xs := by
    clear h1 hs hx hqx
    induction h2 with
    | nil => simp at hxs
    | @cons w ys ws segs h _ ih =>
      rcases List.mem_cons.1 hxs with rfl | hxs
      · exact ⟨w, by simp, h⟩
      · obtain ⟨w', a, b⟩ := ih hxs; exact ⟨w', by simp [a], b⟩
  obtain ⟨w, hw, st, rfl, hps⟩ := this
  obtain ⟨pre, post, rfl⟩ := mem_split hw
  have h3 := run_bad (p := p) (z := z) (x0 := x0) (q := q) hps { (TSt.init s p l e) with main := .recv x0 0 z, ws := [] ++ (pre ++ .run st x0 :: post) } pre post rfl
    ⟨x, hx', hqx⟩ rfl
  exact ⟨_, ((h1.trans h3).trans (.head (.recvDone _ x0 0 z rfl (by omega) rfl) (.refl _))).reach .init, rfl⟩

/-- Goroutines with good segments fill the channel and then wait at their send. -/
theorem fill_from {rest : List (TW s)} {segs : List (List T)} (h : List.Forall₂ (Starts s x0) rest segs) :
    ∀ (c : TSt s) (pre : List (TW s)), c.cancelled = false → c.ws = pre ++ rest → c.chan.length ≤ p →
    ∃ ws2 ch2, TSteps s p z x0 (allCb q) c { c with ws := pre ++ ws2, chan := ch2 } ∧
      ((c.chan.length + segs.countP (fun xs => xs.all q) ≤ p ∧ ch2.length = c.chan.length + segs.countP (fun xs => xs.all q)) ∨
        (p < c.chan.length + segs.countP (fun xs => xs.all q) ∧ ch2.length = p ∧ .send x0 ∈ ws2)) ∧
      (∀ xs ∈ segs, xs.all q = false → ∃ w ∈ ws2, Starts s x0 w xs) := by
  induction h with
  | nil =>
    intro c pre hcd hw hc
    exact ⟨[], c.chan, by rw [← hw]; exact .refl _, .inl ⟨by simpa using hc, by simp⟩, by simp⟩
  | @cons w xs rest segs hst _ ih =>
    intro c pre hcd hw hc
    have hst' := hst
    obtain ⟨st, rfl, hps⟩ := hst
    by_cases hall : xs.all q = true
    · have h1 := run_good (p := p) (z := z) (x0 := x0) (q := q) hps c pre rest hcd (List.all_eq_true.1 hall) hw
      by_cases hfull : c.chan.length < p
      · obtain ⟨ws2, ch2, k1, k2, k3⟩ := ih { c with ws := pre ++ .exit :: rest, chan := c.chan ++ [x0] } (pre ++ [.exit]) hcd (by simp) (by simp; omega)
        refine ⟨.exit :: ws2, ch2, h1.trans (.head (.send _ pre rest x0 rfl hfull) (by simpa using k1)), ?_, ?_⟩
        · simp only [List.countP_cons, hall, List.length_append, List.length_cons, List.length_nil, if_true] at k2 ⊢
          rcases k2 with ⟨a, b⟩ | ⟨a, b, d⟩
          · exact .inl ⟨by omega, by omega⟩
          · exact .inr ⟨by omega, b, by simp [d]⟩
        · intro ys hys hf
          rcases List.mem_cons.1 hys with rfl | hys
          · rw [hall] at hf; simp at hf
          · obtain ⟨w, a, b⟩ := k3 ys hys hf; exact ⟨w, by simp [a], b⟩
      · obtain ⟨ws2, ch2, k1, k2, k3⟩ := ih { c with ws := pre ++ .send x0 :: rest } (pre ++ [.send x0]) hcd (by simp) hc
        refine ⟨.send x0 :: ws2, ch2, h1.trans (by simpa using k1), ?_, ?_⟩
        · simp only [List.countP_cons, hall, if_true] at k2 ⊢
          right
          refine ⟨by omega, ?_, by simp⟩
          rcases k2 with ⟨a, b⟩ | ⟨a, b, d⟩ <;> omega
        · intro ys hys hf
          rcases List.mem_cons.1 hys with rfl | hys
          · rw [hall] at hf; simp at hf
          · obtain ⟨w, a, b⟩ := k3 ys hys hf; exact ⟨w, by simp [a], b⟩
    · obtain ⟨ws2, ch2, k1, k2, k3⟩ := ih c (pre ++ [.run st x0]) hcd (by simpa using hw) hc
      refine ⟨.run st x0 :: ws2, ch2, by simpa using k1, ?_, ?_⟩
      · simp only [List.countP_cons, hall] at k2 ⊢
        rcases k2 with ⟨a, b⟩ | ⟨a, b, d⟩
        · exact .inl ⟨by simpa using a, by simpa using b⟩
        · exact .inr ⟨by simpa using a, b, by simp [d]⟩
      · intro ys hys hf
        rcases List.mem_cons.1 hys with rfl | hys
        · exact ⟨.run st x0, by simp, hst'⟩
        · obtain ⟨w, a, b⟩ := k3 ys hys hf; exact ⟨w, by simp [a], b⟩

/-- If some element fails the predicate and more than `p` segments satisfy it throughout, some schedule returns false and leaves a
    goroutine blocked for ever. -/
theorem parTry_leak_reached {segs : List (List T)} (hs : Splits s p segs) (hp : 1 ≤ p) (hq : ∃ x ∈ segs.flatten, q x = false)
    (hn : p < segs.countP (fun xs => xs.all q)) (l : s.L) (e : E) :
    ∃ c, TReach s p z x0 (allCb q) l e c ∧ c.main = .ret z false ∧ Leaks s p z x0 (allCb q) c := by
  obtain ⟨ws', h1, h2⟩ := try_spawn_all (p := p) (z := z) (x0 := x0) (f := allCb q) hs (.init s p l e) rfl
  obtain ⟨ws2, ch2, k1, k2, k3⟩ := fill_from (p := p) (z := z) (q := q) h2 { (TSt.init s p l e) with main := .recv x0 0 z, ws := [] ++ ws' } [] rfl rfl
    (by simp [TSt.init])
  simp only [TSt.init, List.length_nil, Nat.zero_add] at k2
  rcases k2 with ⟨a, -⟩ | ⟨-, hch, hsend⟩
  · omega
  obtain ⟨x, hx, hqx⟩ := hq
  obtain ⟨xs, hxs, hx⟩ := List.mem_flatten.1 hx
  obtain ⟨w, hw, st, rfl, hps⟩ := k3 xs hxs (by rw [List.all_eq_false]; exact ⟨x, hx, by simp [hqx]⟩)
  obtain ⟨pre, post, rfl⟩ := mem_split hw
  have h3 := run_bad (p := p) (z := z) (x0 := x0) (q := q) hps
    { (TSt.init s p l e) with main := .recv x0 0 z, ws := [] ++ (pre ++ .run st x0 :: post), chan := ch2 } pre post rfl ⟨x, hx, hqx⟩ rfl
  refine ⟨_, (((h1.trans k1).trans h3).trans (.head (.recvDone _ x0 0 z rfl (by omega) rfl) (.refl _))).reach .init, rfl, ?_⟩
  have hmem : TW.send x0 ∈ pre ++ .exit :: post := by simpa using hsend
  obtain ⟨i, hi, he⟩ := List.getElem_of_mem hmem
  exact blocked_forever (i := i) (a := x0) rfl hch.ge (by rw [← he]; exact List.getElem?_eq_getElem hi)
end

/-! ### AllMatch and AnyMatch over slices -/

/-- Cutting `xs` into pieces of `xs.length / p` elements gives fewer than 2p pieces. -/
theorem cuts_lt (xs : List T) (p : Nat) (hp : 1 ≤ p) (hl : p ≤ xs.length) : (Slice.cuts (xs.length / p) xs).length < 2 * p := by
  have hq : 0 < xs.length / p := Nat.div_pos hl (by omega)
  rw [Slice.cuts_length hq, Slice.segCount]
  have hmod := Nat.div_add_mod xs.length p
  have hlt := Nat.mod_lt xs.length (show p > 0 by omega)
  rw [Nat.div_lt_iff_lt_mul hq]
  obtain ⟨a, rfl⟩ : ∃ a, p = a + 1 := ⟨p - 1, by omega⟩
  generalize xs.length / (a + 1) = k at *
  have : a ≤ a * k := Nat.le_mul_of_pos_right _ hq
  rw [Nat.mul_assoc]
  rw [Nat.add_mul] at *
  omega

/-- The elements the first p pieces cover all satisfy the predicate: then at least p pieces do. -/
theorem cuts_countP (xs : List T) (p : Nat) (hp : 1 ≤ p) (hl : p ≤ xs.length) (q : T → Bool)
    (h : ∀ x ∈ xs.take (p * (xs.length / p)), q x = true) : p ≤ (Slice.cuts (xs.length / p) xs).countP (fun g => g.all q) := by
  have hq : 0 < xs.length / p := Nat.div_pos hl (by omega)
  have hge := (cuts_facts xs p hp hl).2.2.1
  rw [← cuts_take_flatten hq] at h
  generalize Slice.cuts (xs.length / p) xs = segs at *
  have h1 : (segs.take p).countP (fun g => g.all q) = (segs.take p).length := by
    rw [List.countP_eq_length]
    intro g hg
    rw [List.all_eq_true]
    exact fun x hx => h x (List.mem_flatten.2 ⟨g, hg, hx⟩)
  have h2 : (segs.take p).countP (fun g => g.all q) ≤ segs.countP (fun g => g.all q) := (List.take_sublist p segs).countP_le
  rw [h1, List.length_take] at h2
  omega

/-- C108, for every parallelism 1 ≤ p ≤ len(s), whether or not p divides len(s): AllMatch returns on every schedule; false only if
    some element fails the predicate; true only if at least p of the segments satisfy it throughout.  If some element fails it, some
    schedule answers false. -/
theorem allMatch_outcomes (z : T) (m : Slice.Mem T) (s : Slice.Hdr) (hs : m.Ok s) (p : Nat) (hp : 1 ≤ p) (hl : p ≤ s.len) (q : T → Bool) (e : E) :
    ∃ x0, first z (ofSlice (E := E) m s p) () e = .ok ((x0, true), (), e) ∧
      Inevitably (TStep (ofSlice (E := E) m s p) p z x0 (allCb q)) (fun c => ∃ r ok, c.main = .ret r ok) (TSt.init _ p () e) ∧
      (∀ c, TReach (ofSlice (E := E) m s p) p z x0 (allCb q) () e c → ∀ r ok, c.main = .ret r ok →
        (ok = false → ∃ x ∈ m.view s, q x = false) ∧
        (ok = true → p ≤ (Slice.cuts (s.len / p) (m.view s)).countP (fun g => g.all q))) ∧
      ((∃ x ∈ m.view s, q x = false) → ∃ c, TReach (ofSlice (E := E) m s p) p z x0 (allCb q) () e c ∧ ∃ r, c.main = .ret r false) := by
  have h1 := ofSlice_cuts (E := E) m s hs p hp hl p
  obtain ⟨h2, -, h3, -⟩ := cuts_facts (m.view s) p hp (by simpa using hl)
  rw [show (m.view s).length = s.len by simp] at h2 h3
  obtain ⟨x0, hx0, hf⟩ := first_slice (E := E) z m s hs p hp hl e
  have hx : x0 ∈ (Slice.cuts (s.len / p) (m.view s)).flatten := by rw [h2]; exact List.mem_of_mem_head? hx0
  refine ⟨x0, hf, parTry_returns h1 h3 hx () e, fun c h r ok hr => ?_, fun hq => ?_⟩
  · obtain ⟨a, b⟩ := parTry_outcome h1 hx () e c h r ok hr
    rw [h2] at a
    exact ⟨a, fun h => (b h).1⟩
  · obtain ⟨c, a, b⟩ := parTry_false_reached (z := z) (x0 := x0) (q := q) h1 hp (by rw [h2]; exact hq) () e
    exact ⟨c, a, _, b⟩

/-- C108, AnyMatch (which returns the negation of TryFold's flag): it returns on every schedule, and true only if some element
    satisfies the predicate; if some element does, some schedule answers true. -/
theorem anyMatch_outcomes (z : T) (m : Slice.Mem T) (s : Slice.Hdr) (hs : m.Ok s) (p : Nat) (hp : 1 ≤ p) (hl : p ≤ s.len) (q : T → Bool) (e : E) :
    ∃ x0, first z (ofSlice (E := E) m s p) () e = .ok ((x0, true), (), e) ∧
      Inevitably (TStep (ofSlice (E := E) m s p) p z x0 (anyCb q)) (fun c => ∃ r ok, c.main = .ret r ok) (TSt.init _ p () e) ∧
      (∀ c, TReach (ofSlice (E := E) m s p) p z x0 (anyCb q) () e c → ∀ r ok, c.main = .ret r ok → (!ok) = true → ∃ x ∈ m.view s, q x = true) ∧
      ((∃ x ∈ m.view s, q x = true) → ∃ c, TReach (ofSlice (E := E) m s p) p z x0 (anyCb q) () e c ∧ ∃ r, c.main = .ret r false) := by
  obtain ⟨x0, h1, h2, h3, h4⟩ := allMatch_outcomes (E := E) z m s hs p hp hl (fun x => !q x) e
  rw [anyCb_eq]
  exact ⟨x0, h1, h2, fun c h r ok hr ho => by simpa using (h3 c h r ok hr).1 (by simpa using ho), fun h => h4 (by simpa using h)⟩

/-- C43 cannot be extended to every p: with p not dividing len(s) ≥ p ≥ 1, if the first p·⌊len(s)/p⌋ elements satisfy the predicate
    and a later one does not, AllMatch answers true on some schedules and false on others. -/
theorem allMatch_uneven_wrong (z : T) (m : Slice.Mem T) (s : Slice.Hdr) (hs : m.Ok s) (p : Nat) (hp : 1 ≤ p) (hl : p ≤ s.len) (q : T → Bool)
    (hall : ∀ x ∈ (m.view s).take (p * (s.len / p)), q x = true) (hbad : ∃ x ∈ m.view s, q x = false) (e : E) :
    ∃ x0, first z (ofSlice (E := E) m s p) () e = .ok ((x0, true), (), e) ∧
      (∃ c, TReach (ofSlice (E := E) m s p) p z x0 (allCb q) () e c ∧ ∃ r, c.main = .ret r true) ∧
      (∃ c, TReach (ofSlice (E := E) m s p) p z x0 (allCb q) () e c ∧ ∃ r, c.main = .ret r false) := by
  have h1 := ofSlice_cuts (E := E) m s hs p hp hl p
  have hv : (m.view s).length = s.len := by simp
  have hc := cuts_countP (m.view s) p hp (by simpa using hl) q (by rw [hv]; exact hall)
  rw [hv] at hc
  obtain ⟨x0, hf, -, -, hF⟩ := allMatch_outcomes (E := E) z m s hs p hp hl q e
  obtain ⟨x1, hx0, hf'⟩ := first_slice (E := E) z m s hs p hp hl e
  rw [hf] at hf'
  cases hf'
  refine ⟨x0, hf, ?_, hF hbad⟩
  have hq0 : q x0 = true := by
    refine hall x0 ?_
    have hpos : 0 < p * (s.len / p) := Nat.mul_pos (by omega) (Nat.div_pos hl (by omega))
    cases hvs : m.view s with
    | nil => rw [hvs] at hx0; simp at hx0
    | cons a t =>
      rw [hvs] at hx0; simp at hx0; subst hx0
      obtain ⟨n, hn⟩ := Nat.exists_eq_succ_of_ne_zero hpos.ne'
      rw [hn]; simp
  obtain ⟨c, a, b⟩ := parTry_true_reached (z := z) (x0 := x0) (q := q) h1 hc (fun _ => hq0) () e
  exact ⟨c, a, _, b⟩

/-- The same for AnyMatch: if only elements after the first p·⌊len(s)/p⌋ satisfy the predicate, AnyMatch may miss them. -/
theorem anyMatch_uneven_wrong (z : T) (m : Slice.Mem T) (s : Slice.Hdr) (hs : m.Ok s) (p : Nat) (hp : 1 ≤ p) (hl : p ≤ s.len) (q : T → Bool)
    (hnone : ∀ x ∈ (m.view s).take (p * (s.len / p)), q x = false) (hsome : ∃ x ∈ m.view s, q x = true) (e : E) :
    ∃ x0, first z (ofSlice (E := E) m s p) () e = .ok ((x0, true), (), e) ∧
      (∃ c, TReach (ofSlice (E := E) m s p) p z x0 (anyCb q) () e c ∧ ∃ r, c.main = .ret r true) ∧
      (∃ c, TReach (ofSlice (E := E) m s p) p z x0 (anyCb q) () e c ∧ ∃ r, c.main = .ret r false) := by
  rw [anyCb_eq]
  exact allMatch_uneven_wrong z m s hs p hp hl (fun x => !q x) (by simpa using hnone) (by simpa using hsome) e

/-- C108, goroutines: for 1 ≤ p ≤ len(s), unless some element fails the predicate while more than p segments satisfy it throughout,
    every schedule ends with the call and all its goroutines returned; otherwise some schedule answers false and leaves a goroutine
    blocked for ever. -/
theorem allMatch_goroutines (z : T) (m : Slice.Mem T) (s : Slice.Hdr) (hs : m.Ok s) (p : Nat) (hp : 1 ≤ p) (hl : p ≤ s.len) (q : T → Bool) (e : E) :
    ∃ x0, first z (ofSlice (E := E) m s p) () e = .ok ((x0, true), (), e) ∧
      (¬ ((∃ x ∈ m.view s, q x = false) ∧ p < (Slice.cuts (s.len / p) (m.view s)).countP (fun g => g.all q)) →
        Inevitably (TStep (ofSlice (E := E) m s p) p z x0 (allCb q)) (fun c => (∃ r ok, c.main = .ret r ok) ∧ ∀ w ∈ c.ws, w = .exit) (TSt.init _ p () e)) ∧
      ((∃ x ∈ m.view s, q x = false) ∧ p < (Slice.cuts (s.len / p) (m.view s)).countP (fun g => g.all q) →
        ∃ c, TReach (ofSlice (E := E) m s p) p z x0 (allCb q) () e c ∧ (∃ r, c.main = .ret r false) ∧ Leaks _ p z x0 (allCb q) c) := by
  have h1 := ofSlice_cuts (E := E) m s hs p hp hl p
  have hlt := cuts_lt (m.view s) p hp (by simpa using hl)
  obtain ⟨h2, -, h3, -⟩ := cuts_facts (m.view s) p hp (by simpa using hl)
  rw [show (m.view s).length = s.len by simp] at h2 h3 hlt
  obtain ⟨x0, hx0, hf⟩ := first_slice (E := E) z m s hs p hp hl e
  have hx : x0 ∈ (Slice.cuts (s.len / p) (m.view s)).flatten := by rw [h2]; exact List.mem_of_mem_head? hx0
  refine ⟨x0, hf, fun hn => parTry_all_exit h1 h3 hx ?_ () e, fun ⟨ha, hb⟩ => ?_⟩
  · by_cases hbad : ∃ x ∈ m.view s, q x = false
    · exact .inr (by by_contra hc; exact hn ⟨hbad, by omega⟩)
    · refine .inl ⟨by omega, fun x hx => ?_⟩
      rw [h2] at hx
      by_contra hc
      exact hbad ⟨x, hx, by simpa using hc⟩
  · obtain ⟨c, a, b, d⟩ := parTry_leak_reached (z := z) (x0 := x0) (q := q) h1 hp (by rw [h2]; exact ha) hb () e
    exact ⟨c, a, ⟨_, b⟩, d⟩

/-- In particular no goroutine is left behind when p divides len(s), or when AllMatch's true answer is right. -/
theorem allMatch_even_all_exit (z : T) (m : Slice.Mem T) (s : Slice.Hdr) (hs : m.Ok s) (p : Nat) (hp : 1 ≤ p) (hl : p ≤ s.len) (q : T → Bool)
    (h : p ∣ s.len ∨ ∀ x ∈ m.view s, q x = true) (e : E) :
    ∃ x0, first z (ofSlice (E := E) m s p) () e = .ok ((x0, true), (), e) ∧
      Inevitably (TStep (ofSlice (E := E) m s p) p z x0 (allCb q)) (fun c => (∃ r ok, c.main = .ret r ok) ∧ ∀ w ∈ c.ws, w = .exit) (TSt.init _ p () e) := by
  obtain ⟨x0, h1, h2, -⟩ := allMatch_goroutines (E := E) z m s hs p hp hl q e
  refine ⟨x0, h1, h2 ?_⟩
  rintro ⟨⟨x, hx, hq⟩, hlt⟩
  rcases h with hd | hall
  · have h5 := (cuts_facts (m.view s) p hp (by simpa using hl)).2.2.2
    rw [show (m.view s).length = s.len by simp] at h5
    have := List.countP_le_length (p := fun g : List T => g.all q) (l := Slice.cuts (s.len / p) (m.view s))
    rw [h5.2 hd] at this
    omega
  · rw [hall x hx] at hq; simp at hq

/-- [1, 2, 3] with p = 2 and the predicate x ≠ 3: AllMatch may answer true. -/
example : mem123.Ok hdr123 ∧ 2 ≤ hdr123.len ∧ (∀ x ∈ (mem123.view hdr123).take (2 * (hdr123.len / 2)), (x != 3) = true) ∧
    ∃ x ∈ mem123.view hdr123, (x != 3) = false :=
  ⟨⟨by decide, by decide, by decide, by decide⟩, by decide, by decide +kernel, 3, by decide +kernel, by decide⟩

/-- [1, 2, 3] with p = 2 and the predicate x = 3: AnyMatch may miss it. -/
example : (∀ x ∈ (mem123.view hdr123).take (2 * (hdr123.len / 2)), (x == 3) = false) ∧ ∃ x ∈ mem123.view hdr123, (x == 3) = true :=
  ⟨by decide +kernel, 3, by decide +kernel, by decide⟩

/-- [1, 2, 3, 4, 5] in memory. -/
def mem5 : Slice.Mem Nat := ⟨fun _ i => i + 1, fun _ => 5, 1⟩

/-- Five elements with p = 3 make five segments; with the predicate x ≠ 5 four of them satisfy it: a goroutine may be left behind. -/
example : mem5.Ok ⟨false, 0, 0, 5, 5⟩ ∧ (∃ x ∈ mem5.view ⟨false, 0, 0, 5, 5⟩, (x != 5) = false) ∧
    3 < (Slice.cuts (5 / 3) (mem5.view ⟨false, 0, 0, 5, 5⟩)).countP (fun g => g.all (· != 5)) := by
  have hv : mem5.view ⟨false, 0, 0, 5, 5⟩ = [1, 2, 3, 4, 5] := by decide +kernel
  refine ⟨⟨by decide, by decide, by decide, by decide⟩, ⟨5, by rw [hv]; decide, by decide⟩, ?_⟩
  rw [hv]
  simp [Slice.cuts_cons, Slice.cuts_nil]

end Gds.Stream
