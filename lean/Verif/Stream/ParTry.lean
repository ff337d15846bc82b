import Verif.Stream.ParFold

/-! C43: AllMatch and AnyMatch over a parallel stream on every schedule. -/

namespace Gds.Stream

variable {E T R : Type}

/-- The callback AllMatch hands to TryFold (stream/all_any_match.go:8-13); AnyMatch's (lines 22-27) is
    the same with the negated predicate. -/
def allCb (q : T → Bool) : T → T → T × Bool := fun a b => if q b then (a, true) else (a, false)

/-- stream/all_any_match.go:22-27. -/
def anyCb (q : T → Bool) : T → T → T × Bool := fun a b => if q b then (a, false) else (a, true)

theorem anyCb_eq (q : T → Bool) : anyCb q = allCb (fun x => !q x) := by
  funext a b; unfold anyCb allCb; cases h : q b <;> simp [h]

@[simp] theorem allCb_fst (q : T → Bool) (a b : T) : (allCb q a b).1 = a := by unfold allCb; split <;> rfl
@[simp] theorem allCb_snd (q : T → Bool) (a b : T) : (allCb q a b).2 = q b := by unfold allCb; split <;> simp_all

/-- Elements a goroutine has not examined yet. -/
noncomputable def TW.todo {s : Stm E T} : TW s → List T
  | .run st _ => rem s st
  | .sel v st _ => v :: rem s st
  | .call v st _ => v :: rem s st
  | _ => []

/-- 1 if the goroutine may still send a result. -/
noncomputable def TW.tok {s : Stm E T} (q : T → Bool) : TW s → Nat
  | .run st _ => if (rem s st).all q then 1 else 0
  | .sel v st _ => if (v :: rem s st).all q then 1 else 0
  | .call v st _ => if (v :: rem s st).all q then 1 else 0
  | .send _ => 1
  | _ => 0

/-- The goroutine has not returned. -/
def TW.live {s : Stm E T} : TW s → Nat
  | .exit => 0
  | _ => 1

/-- Results received or to be expected from segments not started. -/
noncomputable def TM.tok {s : Stm E T} (p : Nat) (q : T → Bool) : TM s → Nat
  | .seg g => (remG s g).countP (fun xs => xs.all q)
  | .recv _ k _ => k
  | .ret _ ok => if ok then p else 0

/-- Results received or segments not started. -/
noncomputable def TM.live {s : Stm E T} : TM s → Nat
  | .seg g => (remG s g).length
  | .recv _ k _ => k
  | .ret _ _ => 0

/-- What is known of a single goroutine. -/
structure TWOk (s : Stm E T) (q : T → Bool) (x0 : T) (elems : List T) (w : TW s) : Prop where
  run : ∀ st acc, w = .run st acc → Good s st ∧ acc = x0
  sel : ∀ v st acc, w = .sel v st acc → Good s st ∧ acc = x0
  call : ∀ v st acc, w = .call v st acc → Good s st ∧ acc = x0
  send : ∀ acc, w = .send acc → acc = x0
  cancel : w = .cancel → elems.all q = false
  todo : ∀ x ∈ w.todo, x ∈ elems

/-- Invariant of the parallel TryFold with AllMatch's callback. -/
structure TInv (s : Stm E T) (p : Nat) (q : T → Bool) (x0 : T) (segs : List (List T)) (c : TSt s) : Prop where
  seg : ∀ g, c.main = .seg g → GoodG s g ∧ ∀ x ∈ (remG s g).flatten, x ∈ segs.flatten
  ws : ∀ w ∈ c.ws, TWOk s q x0 segs.flatten w
  chan : ∀ a ∈ c.chan, a = x0
  canc : c.cancelled = true → segs.flatten.all q = false
  recv : ∀ acc k val, c.main = .recv acc k val → acc = x0 ∧ k ≤ p ∧ (k ≠ 0 → q x0 = true)
  retT : ∀ r, c.main = .ret r true → p ≤ segs.countP (fun xs => xs.all q) ∧ (p ≠ 0 → q x0 = true)
  retF : ∀ r, c.main = .ret r false → segs.flatten.all q = false
  tok : (c.ws.map (TW.tok q)).sum + c.chan.length + c.main.tok p q ≤ segs.countP (fun xs => xs.all q)
  cnt : (c.ws.map TW.live).sum + c.chan.length + c.main.live ≤ segs.length
  live : c.cancelled = false → (∀ r ok, c.main ≠ .ret r ok) →
    (c.ws.map TW.live).sum + c.chan.length + c.main.live = segs.length

theorem TInv.init {s : Stm E T} {p : Nat} (q : T → Bool) (x0 : T) {segs : List (List T)} (h : Splits s p segs) (l : s.L) (e : E) :
    TInv s p q x0 segs (.init s p l e) where
  seg := by
    intro g hg; simp [TSt.init] at hg; subst hg
    exact ⟨⟨_, h⟩, by rw [remG_eq l e h]; exact fun x hx => hx⟩
  ws := by intro _ h; simp [TSt.init] at h
  chan := by intro _ h; simp [TSt.init] at h
  canc := by simp [TSt.init]
  recv := by intro _ _ _ h; simp [TSt.init] at h
  retT := by intro _ h; simp [TSt.init] at h
  retF := by intro _ h; simp [TSt.init] at h
  tok := by simp [TSt.init, TM.tok, remG_eq l e h]
  cnt := by simp [TSt.init, TM.live, remG_eq l e h]
  live := by simp [TSt.init, TM.live, remG_eq l e h]

/-- Replacing one entry of the list of goroutines. -/
theorem ws_replace {s : Stm E T} {P : TW s → Prop} {ws pre post : List (TW s)} {w w' : TW s} (hw : ws = pre ++ w :: post)
    (h : ∀ x ∈ ws, P x) (h' : P w') : ∀ x ∈ pre ++ w' :: post, P x := by
  intro x hx
  simp only [List.mem_append, List.mem_cons] at hx
  rcases hx with hx | rfl | hx
  · exact h x (by rw [hw]; simp [hx])
  · exact h'
  · exact h x (by rw [hw]; simp [hx])

theorem TInv.step {s : Stm E T} {p : Nat} {z : T} {q : T → Bool} {x0 : T} {segs : List (List T)} {c c' : TSt s}
    (hx : x0 ∈ segs.flatten)
    (i : TInv s p q x0 segs c) (h : TStep s p z x0 (allCb q) c c') : TInv s p q x0 segs c' := by
  cases h with
  | spawn g st g' l' e' hm hs =>
    obtain ⟨rfl, rfl, h1, h2, h3⟩ := seg_some (i.seg g hm).1 hs
    have hsub := (i.seg g hm).2
    have ht := i.tok
    have hc := i.cnt
    have hl := i.live
    rw [hm] at ht hc hl
    simp only [TM.tok, TM.live, h3, List.countP_cons, List.length_cons] at ht hc hl
    refine ⟨?_, ?_, i.chan, i.canc, ?_, ?_, ?_, ?_, ?_, ?_⟩
    · intro g2 hg2; simp at hg2; subst hg2
      exact ⟨h2, fun x hx => hsub x (by rw [h3]; simp only [List.flatten_cons, List.mem_append]; exact .inr hx)⟩
    · intro w hw
      simp only [List.mem_append, List.mem_singleton] at hw
      rcases hw with hw | rfl
      · exact i.ws w hw
      · exact ⟨fun st' acc h => by simp at h; obtain ⟨rfl, rfl⟩ := h; exact ⟨h1, rfl⟩, by simp, by simp, by simp, by simp,
          fun x hx => hsub x (by rw [h3]; simp only [List.flatten_cons, List.mem_append]; exact .inl hx)⟩
    · intro _ _ _ h; simp at h
    · intro _ h; simp at h
    · intro _ h; simp at h
    · simp only [TM.tok, List.map_append, List.sum_append, List.map_cons, List.map_nil, List.sum_cons, List.sum_nil, TW.tok]
      omega
    · simp only [TM.live, List.map_append, List.sum_append, List.map_cons, List.map_nil, List.sum_cons, List.sum_nil, TW.live]
      omega
    · intro hcf _
      have := hl hcf (by simp)
      simp only [TM.live, List.map_append, List.sum_append, List.map_cons, List.map_nil, List.sum_cons, List.sum_nil, TW.live]
      omega
  | segEnd g g' l' e' hm hs =>
    obtain ⟨rfl, rfl, h1⟩ := seg_none (i.seg g hm).1 hs
    have ht := i.tok
    have hc := i.cnt
    have hl := i.live
    rw [hm] at ht hc hl
    simp only [TM.tok, TM.live, h1] at ht hc hl
    refine ⟨?_, i.ws, i.chan, i.canc, ?_, ?_, ?_, ?_, ?_, ?_⟩
    · intro _ h; simp at h
    · intro _ _ _ h; simp at h; obtain ⟨rfl, rfl, -⟩ := h; exact ⟨rfl, Nat.zero_le _, by simp⟩
    · intro _ h; simp at h
    · intro _ h; simp at h
    · simpa [TM.tok] using ht
    · simpa [TM.live] using hc
    · intro hcf _; simpa [TM.live] using hl hcf (by simp)
  | pull pre post st acc v st' l' e' hw hs =>
    have hg := i.ws (.run st acc) (by rw [hw]; simp)
    obtain ⟨h0, rfl⟩ := hg.run st acc rfl
    obtain ⟨rfl, rfl, h1, h2⟩ := pull_some h0 hs
    have ht := i.tok
    have hc := i.cnt
    have hl := i.live
    rw [hw] at ht hc hl
    simp only [List.map_append, List.sum_append, List.map_cons, List.sum_cons, TW.tok, TW.live, h2] at ht hc hl
    refine ⟨i.seg, ws_replace hw i.ws ?_, i.chan, i.canc, i.recv, i.retT, i.retF, ?_, ?_, ?_⟩
    · refine ⟨by simp, ?_, by simp, by simp, by simp, ?_⟩
      · intro v' st'' acc' h; simp at h; obtain ⟨rfl, rfl, rfl⟩ := h; exact ⟨h1, rfl⟩
      · have := hg.todo; simp only [TW.todo, h2] at this ⊢; exact this
    · simp only [List.map_append, List.sum_append, List.map_cons, List.sum_cons, TW.tok]; omega
    · simp only [List.map_append, List.sum_append, List.map_cons, List.sum_cons, TW.live]; omega
    · intro a b; have := hl a b; simp only [List.map_append, List.sum_append, List.map_cons, List.sum_cons, TW.live]; omega
  | pullEnd pre post st acc st' l' e' hw hs =>
    have hg := i.ws (.run st acc) (by rw [hw]; simp)
    obtain ⟨h0, rfl⟩ := hg.run st acc rfl
    obtain ⟨rfl, rfl, h2⟩ := pull_none h0 hs
    have ht := i.tok
    have hc := i.cnt
    have hl := i.live
    rw [hw] at ht hc hl
    simp only [List.map_append, List.sum_append, List.map_cons, List.sum_cons, TW.tok, TW.live, h2] at ht hc hl
    simp at ht
    refine ⟨i.seg, ws_replace hw i.ws ?_, i.chan, i.canc, i.recv, i.retT, i.retF, ?_, ?_, ?_⟩
    · exact ⟨by simp, by simp, by simp, by simp, by simp, by simp [TW.todo]⟩
    · simp only [List.map_append, List.sum_append, List.map_cons, List.sum_cons, TW.tok]; omega
    · simp only [List.map_append, List.sum_append, List.map_cons, List.sum_cons, TW.live]; omega
    · intro a b; have := hl a b; simp only [List.map_append, List.sum_append, List.map_cons, List.sum_cons, TW.live]; omega
  | selDone pre post v st acc hw hcd =>
    have ht := i.tok
    have hc := i.cnt
    rw [hw] at ht hc
    simp only [List.map_append, List.sum_append, List.map_cons, List.sum_cons, TW.live] at ht hc
    refine ⟨i.seg, ws_replace hw i.ws ?_, i.chan, i.canc, i.recv, i.retT, i.retF, ?_, ?_, ?_⟩
    · exact ⟨by simp, by simp, by simp, by simp, by simp, by simp [TW.todo]⟩
    · simp only [List.map_append, List.sum_append, List.map_cons, List.sum_cons, TW.tok]; omega
    · simp only [List.map_append, List.sum_append, List.map_cons, List.sum_cons, TW.live]; omega
    · intro a; simp [hcd] at a
  | selDefault pre post v st acc hw hcd =>
    have hg := i.ws (.sel v st acc) (by rw [hw]; simp)
    obtain ⟨h0, rfl⟩ := hg.sel v st acc rfl
    have ht := i.tok
    have hc := i.cnt
    have hl := i.live
    rw [hw] at ht hc hl
    simp only [List.map_append, List.sum_append, List.map_cons, List.sum_cons, TW.tok, TW.live] at ht hc hl
    refine ⟨i.seg, ws_replace hw i.ws ?_, i.chan, i.canc, i.recv, i.retT, i.retF, ?_, ?_, ?_⟩
    · refine ⟨by simp, by simp, ?_, by simp, by simp, hg.todo⟩
      intro v' st'' acc' h; simp at h; obtain ⟨rfl, rfl, rfl⟩ := h; exact ⟨h0, rfl⟩
    · simp only [List.map_append, List.sum_append, List.map_cons, List.sum_cons, TW.tok]; omega
    · simp only [List.map_append, List.sum_append, List.map_cons, List.sum_cons, TW.live]; omega
    · intro a b; have := hl a b; simp only [List.map_append, List.sum_append, List.map_cons, List.sum_cons, TW.live]; omega
  | callOk pre post v st acc hw hq =>
    have hg := i.ws (.call v st acc) (by rw [hw]; simp)
    obtain ⟨h0, rfl⟩ := hg.call v st acc rfl
    rw [allCb_snd] at hq
    rw [allCb_fst]
    have ht := i.tok
    have hc := i.cnt
    have hl := i.live
    rw [hw] at ht hc hl
    simp only [List.map_append, List.sum_append, List.map_cons, List.sum_cons, TW.tok, TW.live, List.all_cons, hq,
      Bool.true_and] at ht hc hl
    refine ⟨i.seg, ws_replace hw i.ws ?_, i.chan, i.canc, i.recv, i.retT, i.retF, ?_, ?_, ?_⟩
    · refine ⟨?_, by simp, by simp, by simp, by simp, ?_⟩
      · intro st'' acc' h; simp at h; obtain ⟨rfl, rfl⟩ := h; exact ⟨h0, rfl⟩
      · intro x hx; exact hg.todo x (by simp only [TW.todo] at hx ⊢; exact List.mem_cons_of_mem _ hx)
    · simp only [List.map_append, List.sum_append, List.map_cons, List.sum_cons, TW.tok]; omega
    · simp only [List.map_append, List.sum_append, List.map_cons, List.sum_cons, TW.live]; omega
    · intro a b; have := hl a b; simp only [List.map_append, List.sum_append, List.map_cons, List.sum_cons, TW.live]; omega
  | callStop pre post v st acc hw hq =>
    have hg := i.ws (.call v st acc) (by rw [hw]; simp)
    rw [allCb_snd] at hq
    have ht := i.tok
    have hc := i.cnt
    have hl := i.live
    rw [hw] at ht hc hl
    simp only [List.map_append, List.sum_append, List.map_cons, List.sum_cons, TW.tok, TW.live] at ht hc hl
    refine ⟨i.seg, ws_replace hw i.ws ?_, i.chan, i.canc, i.recv, i.retT, i.retF, ?_, ?_, ?_⟩
    · refine ⟨by simp, by simp, by simp, by simp, fun _ => ?_, by simp [TW.todo]⟩
      have := hg.todo v (by simp [TW.todo])
      rw [Bool.eq_false_iff]; intro ha
      rw [List.all_eq_true] at ha
      simp [ha v this] at hq
    · simp only [List.map_append, List.sum_append, List.map_cons, List.sum_cons, TW.tok]; omega
    · simp only [List.map_append, List.sum_append, List.map_cons, List.sum_cons, TW.live]; omega
    · intro a b; have := hl a b; simp only [List.map_append, List.sum_append, List.map_cons, List.sum_cons, TW.live]; omega
  | cancel pre post hw =>
    have hg := i.ws .cancel (by rw [hw]; simp)
    have ht := i.tok
    have hc := i.cnt
    rw [hw] at ht hc
    simp only [List.map_append, List.sum_append, List.map_cons, List.sum_cons, TW.tok, TW.live] at ht hc
    refine ⟨i.seg, ws_replace hw i.ws ?_, i.chan, fun _ => hg.cancel rfl, i.recv, i.retT, i.retF, ?_, ?_, ?_⟩
    · exact ⟨by simp, by simp, by simp, by simp, by simp, by simp [TW.todo]⟩
    · simp only [List.map_append, List.sum_append, List.map_cons, List.sum_cons, TW.tok]; omega
    · simp only [List.map_append, List.sum_append, List.map_cons, List.sum_cons, TW.live]; omega
    · intro a; simp at a
  | send pre post acc hw hlt =>
    have hg := i.ws (.send acc) (by rw [hw]; simp)
    have ht := i.tok
    have hc := i.cnt
    have hl := i.live
    rw [hw] at ht hc hl
    simp only [List.map_append, List.sum_append, List.map_cons, List.sum_cons, TW.tok, TW.live] at ht hc hl
    refine ⟨i.seg, ws_replace hw i.ws ?_, ?_, i.canc, i.recv, i.retT, i.retF, ?_, ?_, ?_⟩
    · exact ⟨by simp, by simp, by simp, by simp, by simp, by simp [TW.todo]⟩
    · intro a ha
      simp only [List.mem_append, List.mem_singleton] at ha
      rcases ha with ha | rfl
      · exact i.chan a ha
      · exact hg.send a rfl
    · simp only [List.map_append, List.sum_append, List.map_cons, List.sum_cons, TW.tok, List.length_append, List.length_cons, List.length_nil]; omega
    · simp only [List.map_append, List.sum_append, List.map_cons, List.sum_cons, TW.live, List.length_append, List.length_cons, List.length_nil]; omega
    · intro a b; have := hl a b
      simp only [List.map_append, List.sum_append, List.map_cons, List.sum_cons, TW.live, List.length_append, List.length_cons, List.length_nil]; omega
  | recvOk acc k val a rest hm hk hch hq =>
    have ht := i.tok
    have hc := i.cnt
    have hl := i.live
    rw [hm, hch] at ht hc hl
    simp only [TM.tok, TM.live, List.length_cons] at ht hc hl
    obtain ⟨hacc, hkp, -⟩ := i.recv acc k val hm
    rw [allCb_snd, i.chan a (by rw [hch]; simp)] at hq
    refine ⟨?_, i.ws, ?_, i.canc, ?_, ?_, ?_, ?_, ?_, ?_⟩
    · intro _ h; simp at h
    · intro b hb; exact i.chan b (by rw [hch]; simp [hb])
    · intro acc' k' val' h; simp at h; obtain ⟨rfl, rfl, -⟩ := h; exact ⟨hacc, by omega, fun _ => hq⟩
    · intro _ h; simp at h
    · intro _ h; simp at h
    · simp only [TM.tok]; omega
    · simp only [TM.live]; omega
    · intro h1 h2; have := hl h1 (by simp); simp only [TM.live]; omega
  | recvStop acc k val a rest hm hk hch hq =>
    rw [allCb_snd] at hq
    have hax := i.chan a (by rw [hch]; simp)
    have hfalse : segs.flatten.all q = false := by
      rw [Bool.eq_false_iff]; intro ha
      rw [List.all_eq_true] at ha
      rw [hax, ha x0 hx] at hq; simp at hq
    have ht := i.tok
    have hc := i.cnt
    rw [hm, hch] at ht hc
    simp only [TM.tok, TM.live, List.length_cons] at ht hc
    refine ⟨?_, i.ws, ?_, fun _ => hfalse, ?_, ?_, ?_, ?_, ?_, ?_⟩
    · intro _ h; simp at h
    · intro b hb; exact i.chan b (by rw [hch]; simp [hb])
    · intro _ _ _ h; simp at h
    · intro _ h; simp at h
    · exact fun _ _ => hfalse
    · simp only [TM.tok, Bool.false_eq_true, if_false]; omega
    · simp only [TM.live]; omega
    · intro h1; simp at h1
  | recvDone acc k val hm hk hcd =>
    have ht := i.tok
    have hc := i.cnt
    rw [hm] at ht hc
    simp only [TM.tok, TM.live] at ht hc
    refine ⟨?_, i.ws, i.chan, i.canc, ?_, ?_, ?_, ?_, ?_, ?_⟩
    · intro _ h; simp at h
    · intro _ _ _ h; simp at h
    · intro _ h; simp at h
    · exact fun _ _ => i.canc hcd
    · simp only [TM.tok, Bool.false_eq_true, if_false]; omega
    · simp only [TM.live]; omega
    · intro h1 h2; exact absurd rfl (h2 val false)
  | finish acc k val hm hk =>
    have ht := i.tok
    have hc := i.cnt
    rw [hm] at ht hc
    simp only [TM.tok, TM.live] at ht hc
    obtain ⟨-, -, hkq⟩ := i.recv acc k val hm
    refine ⟨?_, i.ws, i.chan, i.canc, ?_, ?_, ?_, ?_, ?_, ?_⟩
    · intro _ h; simp at h
    · intro _ _ _ h; simp at h
    · intro r _; exact ⟨by omega, by rw [← hk]; exact hkq⟩
    · intro _ h; simp at h
    · simp only [TM.tok, if_true]; omega
    · simp only [TM.live]; omega
    · intro h1 h2; exact absurd rfl (h2 acc true)

theorem TReach.inv {s : Stm E T} {p : Nat} {z : T} {q : T → Bool} {x0 : T} {segs : List (List T)} (hs : Splits s p segs)
    (hx : x0 ∈ segs.flatten) {l : s.L} {e : E} {c : TSt s}
    (h : TReach s p z x0 (allCb q) l e c) : TInv s p q x0 segs c := by
  induction h with
  | init => exact TInv.init q x0 hs l e
  | step _ hst ih => exact ih.step hx hst

/-- The flag TryFold returns with AllMatch's callback, on every schedule. -/
theorem parTry_result {s : Stm E T} {p : Nat} {z : T} {q : T → Bool} {x0 : T} {segs : List (List T)} (hs : Splits s p segs)
    (hp : segs.length = p) (hx : x0 ∈ segs.flatten) (l : s.L) (e : E) (c : TSt s)
    (h : TReach s p z x0 (allCb q) l e c) (r : T) (ok : Bool) (hr : c.main = .ret r ok) : ok = segs.flatten.all q := by
  have i := h.inv hs hx
  cases ok with
  | false => exact (i.retF r hr).symm
  | true =>
    have hc := (i.retT r hr).1
    have h1 : segs.countP (fun xs => xs.all q) = segs.length := by
      have := List.countP_le_length (p := fun xs : List T => xs.all q) (l := segs)
      omega
    rw [List.countP_eq_length] at h1
    symm
    rw [List.all_eq_true]
    intro x hx
    rw [List.mem_flatten] at hx
    obtain ⟨xs, hxs, hx⟩ := hx
    exact List.all_eq_true.1 (h1 xs hxs) x hx

theorem tlive_zero {s : Stm E T} {ws : List (TW s)} (h : ∀ w ∈ ws, w = .exit) : (ws.map TW.live).sum = 0 := by
  induction ws with
  | nil => rfl
  | cons w ws ih => rw [List.map_cons, List.sum_cons, h w (by simp), ih (fun w hw => h w (by simp [hw]))]; rfl

/-- No schedule deadlocks before TryFold has returned. -/
theorem parTry_progress {s : Stm E T} {p : Nat} {z : T} {q : T → Bool} {x0 : T} {segs : List (List T)} (hs : Splits s p segs)
    (hp : p ≤ segs.length) (hx : x0 ∈ segs.flatten) (l : s.L) (e : E) (c : TSt s)
    (h : TReach s p z x0 (allCb q) l e c) : (∃ r ok, c.main = .ret r ok) ∨ ∃ c', TStep s p z x0 (allCb q) c c' := by
  have i := h.inv hs hx
  cases hm : c.main with
  | ret r ok => exact .inl ⟨r, ok, rfl⟩
  | seg g =>
    right
    rcases seg_ok (i.seg g hm).1 c.l c.e with ⟨st, g', hq⟩ | ⟨g', hq⟩
    · exact ⟨_, .spawn c g st g' _ _ hm hq⟩
    · exact ⟨_, .segEnd c g g' _ _ hm hq⟩
  | recv acc k val =>
    right
    by_cases hk : k = p
    · exact ⟨_, .finish c acc k val hm hk⟩
    cases hch : c.chan with
    | cons a rest =>
      by_cases hq : (allCb q acc a).2 = true
      · exact ⟨_, .recvOk c acc k val a rest hm hk hch hq⟩
      · exact ⟨_, .recvStop c acc k val a rest hm hk hch (by simpa using hq)⟩
    | nil =>
      by_cases hcd : c.cancelled = true
      · exact ⟨_, .recvDone c acc k val hm hk hcd⟩
      have hcd' : c.cancelled = false := by simpa using hcd
      have hl := i.live hcd' (by rw [hm]; simp)
      have hc := i.cnt
      rw [hm, hch] at hl
      simp only [TM.live, List.length_nil] at hl
      have hkp := (i.recv acc k val hm).2.1
      have hex : ∃ w ∈ c.ws, w ≠ .exit := by
        by_contra hno
        push Not at hno
        rw [tlive_zero hno] at hl
        omega
      obtain ⟨w, hw, hne⟩ := hex
      obtain ⟨pre, post, hws⟩ := mem_split hw
      have hok := i.ws w hw
      cases w with
      | exit => exact (hne rfl).elim
      | cancel => exact ⟨_, .cancel c pre post hws⟩
      | send a =>
        refine ⟨_, .send c pre post a hws ?_⟩
        rw [hch]; simp
        rw [hws] at hl; simp [TW.live] at hl
        omega
      | sel v st a => exact ⟨_, .selDefault c pre post v st a hws hcd'⟩
      | call v st a =>
        by_cases hq : (allCb q a v).2 = true
        · exact ⟨_, .callOk c pre post v st a hws hq⟩
        · exact ⟨_, .callStop c pre post v st a hws (by simpa using hq)⟩
      | run st a =>
        rcases pull_ok (hok.run st a rfl).1 c.l c.e with ⟨v, st', hq⟩ | ⟨st', hq⟩
        · exact ⟨_, .pull c pre post st a v st' _ _ hws hq⟩
        · exact ⟨_, .pullEnd c pre post st a st' _ _ hws hq⟩

/-- Work left for a goroutine. -/
noncomputable def TW.work {s : Stm E T} : TW s → Nat
  | .run st _ => 3 * (rem s st).length + 2
  | .sel _ st _ => 3 * (rem s st).length + 4
  | .call _ st _ => 3 * (rem s st).length + 3
  | .cancel => 1
  | .send _ => 1
  | .exit => 0

/-- Work left for the caller. -/
noncomputable def TM.work {s : Stm E T} (p : Nat) : TM s → Nat
  | .seg g => ((remG s g).map (fun xs => 3 * xs.length + 3)).sum + p + 2
  | .recv _ k _ => p - k + 1
  | .ret _ _ => 0

/-- Bound on the number of steps still possible. -/
noncomputable def TSt.work {s : Stm E T} (p : Nat) (a : TSt s) : Nat := (a.ws.map TW.work).sum + a.main.work p

/-- Every schedule is finite. -/
theorem parTry_terminates {s : Stm E T} {p : Nat} {z : T} {q : T → Bool} {x0 : T} {segs : List (List T)} (hs : Splits s p segs)
    (hx : x0 ∈ segs.flatten) (l : s.L) (e : E) (c c' : TSt s)
    (h : TReach s p z x0 (allCb q) l e c) (hst : TStep s p z x0 (allCb q) c c') : c'.work p < c.work p := by
  have i := h.inv hs hx
  unfold TSt.work
  cases hst with
  | spawn g st g' l' e' hm hq =>
    obtain ⟨_, _, h1, h2, h3⟩ := seg_some (i.seg g hm).1 hq
    rw [hm]; simp [TM.work, TW.work, h3]; omega
  | segEnd g g' l' e' hm hq => rw [hm]; simp [TM.work]; omega
  | pull pre post st acc v st' l' e' hw hq =>
    obtain ⟨_, _, h1, h2⟩ := pull_some ((i.ws (.run st acc) (by rw [hw]; simp)).run st acc rfl).1 hq
    rw [hw]; simp [TW.work, h2]; omega
  | pullEnd pre post st acc st' l' e' hw hq => rw [hw]; simp [TW.work]
  | selDone pre post v st acc hw => rw [hw]; simp [TW.work]
  | selDefault pre post v st acc hw => rw [hw]; simp [TW.work]
  | callOk pre post v st acc hw => rw [hw]; simp [TW.work]
  | callStop pre post v st acc hw => rw [hw]; simp [TW.work]
  | cancel pre post hw => rw [hw]; simp [TW.work]
  | send pre post acc hw => rw [hw]; simp [TW.work]
  | recvOk acc k val a rest hm hk hch =>
    have hc := (i.recv acc k val hm).2.1
    rw [hm]; simp [TM.work]; omega
  | recvStop acc k val a rest hm => rw [hm]; simp [TM.work]
  | recvDone acc k val hm => rw [hm]; simp [TM.work]
  | finish acc k val hm => rw [hm]; simp [TM.work]

/-- C43 AllMatch: with p dividing len(s) > 0, First finds the first element, and the TryFold started
    with it returns, on every schedule, whether all elements satisfy the predicate; no schedule
    deadlocks and every schedule is finite. -/
theorem allMatch_parallel (z : T) (m : Slice.Mem T) (s : Slice.Hdr) (hs : m.Ok s) (p : Nat) (hp : 1 ≤ p) (hl : 0 < s.len)
    (hd : p ∣ s.len) (q : T → Bool) (e : E) :
    ∃ x0, first z (ofSlice (E := E) m s p) () e = .ok ((x0, true), (), e) ∧
      ∀ c, TReach (ofSlice (E := E) m s p) p z x0 (allCb q) () e c →
        (∀ r ok, c.main = .ret r ok → ok = (m.view s).all q) ∧
        ((∃ r ok, c.main = .ret r ok) ∨ ∃ c', TStep _ p z x0 (allCb q) c c') ∧
        (∀ c', TStep _ p z x0 (allCb q) c c' → c'.work p < c.work p) := by
  have hle := Nat.le_of_dvd hl hd
  obtain ⟨segs, h1, h2, h3, h4, h5⟩ := ofSlice_splits (E := E) m s hs p hp hle p
  obtain ⟨x0, hx0, hf⟩ := first_slice (E := E) z m s hs p hp hle e
  refine ⟨x0, hf, fun c h => ?_⟩
  have hx : x0 ∈ segs.flatten := by rw [h2]; exact List.mem_of_mem_head? hx0
  have hsl := h5.2 hd
  exact ⟨fun r ok hr => by rw [← h2]; exact parTry_result h1 hsl hx () e c h r ok hr,
    parTry_progress h1 hsl.ge hx () e c h, fun c' hst => parTry_terminates h1 hx () e c c' h hst⟩

/-- C43 AnyMatch: AnyMatch returns the negation of TryFold's flag, which is, on every schedule, whether
    some element satisfies the predicate. -/
theorem anyMatch_parallel (z : T) (m : Slice.Mem T) (s : Slice.Hdr) (hs : m.Ok s) (p : Nat) (hp : 1 ≤ p) (hl : 0 < s.len)
    (hd : p ∣ s.len) (q : T → Bool) (e : E) :
    ∃ x0, first z (ofSlice (E := E) m s p) () e = .ok ((x0, true), (), e) ∧
      ∀ c, TReach (ofSlice (E := E) m s p) p z x0 (anyCb q) () e c →
        (∀ r ok, c.main = .ret r ok → (!ok) = (m.view s).any q) ∧
        ((∃ r ok, c.main = .ret r ok) ∨ ∃ c', TStep _ p z x0 (anyCb q) c c') ∧
        (∀ c', TStep _ p z x0 (anyCb q) c c' → c'.work p < c.work p) := by
  obtain ⟨x0, h1, h2⟩ := allMatch_parallel (E := E) z m s hs p hp hl hd (fun x => !q x) e
  rw [anyCb_eq]
  refine ⟨x0, h1, fun c h => ?_⟩
  obtain ⟨a, b, d⟩ := h2 c h
  refine ⟨fun r ok hr => ?_, b, d⟩
  rw [a r ok hr, List.any_eq_not_all_not]

/-- The hypotheses are met by a concrete slice. -/
example : mem123.Ok hdr123 ∧ 1 ≤ 3 ∧ 0 < hdr123.len ∧ 3 ∣ hdr123.len :=
  ⟨⟨by decide, by decide, by decide, by decide⟩, by decide, by decide, by decide⟩

end Gds.Stream
