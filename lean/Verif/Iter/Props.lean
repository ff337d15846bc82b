import Verif.Iter.Model

/-! Properties C03 (FromSlice part), C04, C05, C06. -/
namespace Gds.Iter

/-! ### Specifications -/

/-- Spec: what repeated pulling of a list must look like: element `i` on pull `i`, then `none`. -/
def pullSpec {T : Type _} (s : List T) (i : Nat) : Option T := s[i]?

/-- Spec: a callback shown the elements of a list in order until it answers false. -/
def visit {T E : Type _} (yield : T → E → Bool × E) : List T → E → E
  | [], e => e
  | x :: xs, e => if (yield x e).1 then visit yield xs (yield x e).2 else (yield x e).2

/-- Spec: number of elements shown by `visit`. -/
def visited {T E : Type _} (yield : T → E → Bool × E) : List T → E → Nat
  | [], _ => 0
  | x :: xs, e => if (yield x e).1 then visited yield xs (yield x e).2 + 1 else 1

/-! ### C03 -/

theorem fromSlice_pulls_from {T : Type _} (s : List T) (k i : Nat) (hi : i ≤ s.length) :
    pulls (fromSlice s) k i = .ok ((List.range k).map (fun j => s[i + j]?), min (i + k) s.length) := by
  induction k generalizing i with
  | zero => simp [pulls]; omega
  | succ k ih =>
    by_cases h : i < s.length
    · have h1 : fromSlice s i = .ok (some s[i], i + 1) := by simp [fromSlice, h]
      simp only [pulls, h1, Res.bind_ok, ih (i + 1) (by omega), Res.pure_eq]
      congr 1
      rw [List.range_succ_eq_map]
      simp only [List.map_cons, List.map_map, Nat.add_zero]
      simp [h, Function.comp_def, Nat.add_comm, Nat.add_left_comm]
    · have h1 : fromSlice s i = .ok (none, i) := by simp [fromSlice, h]
      have hl : i = s.length := by omega
      simp only [pulls, h1, Res.bind_ok, ih i hi, Res.pure_eq]
      congr 1
      rw [List.range_succ_eq_map]
      simp only [List.map_cons, List.map_map, Nat.add_zero]
      simp [hl, Function.comp_def]

/-- C03: pulling `FromSlice(s)` k times returns `s[0], s[1], …` and then (zero,false) for ever. -/
theorem fromSlice_pulls {T : Type _} (s : List T) (k : Nat) :
    ∃ idx, pulls (fromSlice s) k 0 = .ok ((List.range k).map (pullSpec s), idx) := by
  refine ⟨min (0 + k) s.length, ?_⟩
  rw [fromSlice_pulls_from s k 0 (by omega)]
  simp [pullSpec]

example : pulls (fromSlice [7, 8]) 4 0 = .ok ([some 7, some 8, none, none], 2) := by
  rw [fromSlice_pulls_from _ _ _ (by decide)]; decide

/-! ### C04 -/

theorem castToPush_fromSlice {T E : Type _} (s : List T) (yield : T → E → Bool × E) (i : Nat)
    (hi : i ≤ s.length) (e : E) :
    castToPush (fromSlice s) yield i e =
      .ok (i + visited yield (s.drop i) e, visit yield (s.drop i) e) := by
  induction hn : s.length - i generalizing i e with
  | zero =>
    have : i = s.length := by omega
    subst this
    rw [castToPush]; simp [fromSlice, visit, visited]
  | succ n ih =>
    have h : i < s.length := by omega
    rw [castToPush]
    simp only [fromSlice, h, dite_true, Res.bind_ok, Res.pure_eq]
    rw [List.drop_eq_getElem_cons h]
    simp only [visit, visited]
    split
    · rw [ih (i + 1) (by omega) _ (by omega)]
      simp; omega
    · rfl

/-- C04: `CastToPush` over a slice iterator shows the callback the elements in order, stops right
    after the first one refused, and leaves the iterator just behind the elements shown. -/
theorem castToPush_stops {T E : Type _} (s : List T) (yield : T → E → Bool × E) (e : E) :
    castToPush (fromSlice s) yield 0 e = .ok (visited yield s e, visit yield s e) := by
  rw [castToPush_fromSlice s yield 0 (by omega)]; simp

/-- Spec: pulling the iterator in state `s` delivers `xs` one after the other and leaves it in `s'`. -/
inductive Yields {σ T : Type _} (next : Next σ T) : σ → List T → σ → Prop where
  | nil (s) : Yields next s [] s
  | cons {s x s₁ xs s₂} : next s = .ok (some x, s₁) → Yields next s₁ xs s₂ → Yields next s (x :: xs) s₂

/-- C04 for an arbitrary iterator that delivers `xs` and then reports its end. -/
theorem castToPush_any {σ T E : Type _} {next : Next σ T} {s s₁ s₂ : σ} {xs : List T}
    (hy : Yields next s xs s₁) (hend : next s₁ = .ok (none, s₂)) (yield : T → E → Bool × E) (e : E) :
    ∃ s', castToPush next yield s e = .ok (s', visit yield xs e) := by
  induction hy generalizing e with
  | nil s => exact ⟨s₂, by rw [castToPush]; simp [hend, visit]⟩
  | @cons s x s' xs s'' hx hr ih =>
    rw [castToPush]; simp only [hx, Res.bind_ok, visit, Res.pure_eq]
    split
    · exact ih hend _
    · exact ⟨s', rfl⟩

/-- Spec: the callback answers false on one of the elements of the list, shown in order. -/
def refuses {T E : Type _} (yield : T → E → Bool × E) : List T → E → Prop
  | [], _ => False
  | x :: xs, e => (yield x e).1 = false ∨ refuses yield xs (yield x e).2

/-- C04 for an arbitrary, possibly endless, iterator: if the callback refuses one of the first
    elements `xs`, the loop stops right there — the iterator is left just behind the refused
    element, whatever it would deliver later. -/
theorem castToPush_any_refused {σ T E : Type _} {next : Next σ T} {s s₁ : σ} {xs : List T}
    (hy : Yields next s xs s₁) (yield : T → E → Bool × E) (e : E) (href : refuses yield xs e) :
    ∃ s', castToPush next yield s e = .ok (s', visit yield xs e) ∧
      Yields next s (xs.take (visited yield xs e)) s' := by
  induction hy generalizing e with
  | nil s => exact absurd href (by simp [refuses])
  | @cons s x s' xs s'' hx hr ih =>
    rw [castToPush]; simp only [hx, Res.bind_ok, visit, visited, Res.pure_eq]
    by_cases hb : (yield x e).1
    · simp only [hb, if_true]
      obtain ⟨t, h1, h2⟩ := ih (yield x e).2 (by simpa [refuses, hb] using href)
      exact ⟨t, h1, by simpa using Yields.cons hx h2⟩
    · exact ⟨s', by simp [hb], by simpa [hb] using Yields.cons hx (Yields.nil _)⟩

/-- Non-vacuity: an endless counter, refused at 2. -/
example : ∃ s', castToPush (fun n : Nat => Res.ok (some n, n + 1))
    (fun x (log : List Nat) => (decide (x < 2), log ++ [x])) 0 [] = .ok (s', [0, 1, 2]) := by
  have hy : Yields (fun n : Nat => Res.ok (some n, n + 1)) 0 [0, 1, 2] 3 :=
    .cons rfl (.cons rfl (.cons rfl (.nil 3)))
  obtain ⟨s', h, _⟩ := castToPush_any_refused hy (fun x (log : List Nat) => (decide (x < 2), log ++ [x])) []
    (by simp [refuses])
  exact ⟨s', by rw [h]; simp [visit]⟩

theorem all_fromSlice {T E : Type _} (s : List T) (yield : T → E → Bool × E) (i : Nat)
    (hi : i ≤ s.length) (e : E) :
    all (fromSlice s) yield i e =
      .ok (s.length, (s.drop i).foldl (fun e x => (yield x e).2) e) := by
  induction hn : s.length - i generalizing i e with
  | zero =>
    have : i = s.length := by omega
    subst this
    rw [all]; simp [fromSlice]
  | succ n ih =>
    have h : i < s.length := by omega
    rw [all]
    simp only [fromSlice, h, dite_true, Res.bind_ok]
    rw [ih (i + 1) (by omega) _ (by omega), List.drop_eq_getElem_cons h]
    rfl

/-- C04, what `Iter.All` does: every element is shown, whatever the callback answers. -/
theorem iterAll_visits_everything {T E : Type _} (s : List T) (yield : T → E → Bool × E) (e : E) :
    all (fromSlice s) yield 0 e = .ok (s.length, s.foldl (fun e x => (yield x e).2) e) := by
  rw [all_fromSlice s yield 0 (by omega)]; simp

/-- C04, the claim that fails for `Iter.All`: it does not stop when the callback answers false. -/
theorem iterAll_stops_refuted :
    ¬ ∀ (s : List Nat) (yield : Nat → List Nat → Bool × List Nat) (e : List Nat),
        ∃ i, all (fromSlice s) yield 0 e = .ok (i, visit yield s e) := by
  intro h
  obtain ⟨i, hi⟩ := h [1, 2] (fun x log => (false, log ++ [x])) []
  rw [iterAll_visits_everything] at hi
  simp [visit] at hi

/-- `visit` really is "a prefix, up to and including the first refused element": with a logging
    callback whose answer is a predicate `p`, the log is `takeWhile p` plus the refused element. -/
theorem visit_log {T : Type _} (p : T → Bool) (s log : List T) :
    visit (fun x (l : List T) => (p x, l ++ [x])) s log =
      log ++ s.takeWhile p ++ (s.dropWhile p).take 1 := by
  induction s generalizing log with
  | nil => simp [visit]
  | cons x xs ih =>
    unfold visit
    by_cases h : p x
    · simp [h, ih]
    · simp [h]

example : visit (fun x (l : List Nat) => (x < 3, l ++ [x])) [1, 2, 5, 1] [] = [1, 2, 5] := by decide

/-! ### C06 -/

/-- Spec for `readString` on data that contains a newline. -/
theorem readString_some {cs l rest : List Char} (h : readString cs = some (l, rest)) :
    cs = l ++ rest ∧ ∃ body, l = body ++ ['\n'] ∧ '\n' ∉ body := by
  induction cs generalizing l rest with
  | nil => simp [readString] at h
  | cons c cs ih =>
    unfold readString at h
    split at h
    · next hc =>
      simp at h; obtain ⟨rfl, rfl⟩ := h
      refine ⟨by simp, [], by simp [hc], by simp⟩
    · next hc =>
      split at h
      · simp at h
      · next l' r' heq =>
        simp at h; obtain ⟨rfl, rfl⟩ := h
        obtain ⟨h1, body, h2, h3⟩ := ih heq
        refine ⟨by simp [h1], c :: body, by simp [h2], ?_⟩
        simp [h3, Ne.symm hc]

theorem readString_none {cs : List Char} (h : readString cs = none) : '\n' ∉ cs := by
  induction cs with
  | nil => simp
  | cons c cs ih =>
    unfold readString at h
    split at h
    · simp at h
    · next hc =>
      split at h
      · next heq => simp [Ne.symm hc, ih heq]
      · simp at h

/-- Spec: `ls` are the newline-terminated lines of `content` and `rest` is what follows the last
    newline.  (Given `content`, this determines `ls` and `rest`.) -/
structure SplitsInto (content : List Char) (ls : List (List Char)) (rest : List Char) : Prop where
  joined : content = ls.flatten ++ rest
  terminated : ∀ l ∈ ls, ∃ body, l = body ++ ['\n'] ∧ '\n' ∉ body
  rest_open : '\n' ∉ rest

theorem newline_split (b1 b2 r1 r2 : List Char) (h1 : '\n' ∉ b1) (h2 : '\n' ∉ b2)
    (h : b1 ++ '\n' :: r1 = b2 ++ '\n' :: r2) : b1 = b2 ∧ r1 = r2 := by
  induction b1 generalizing b2 with
  | nil =>
    cases b2 with
    | nil => simpa using h
    | cons x xs => simp at h h2; exact absurd h.1 h2.1
  | cons y ys ih =>
    cases b2 with
    | nil => simp at h h1; exact absurd h.1.symm h1.1
    | cons x xs =>
      simp at h h1 h2
      obtain ⟨h3, h4⟩ := ih xs h1.2 h2.2 h.2
      simp [h.1, h3, h4]

/-- The specification is unambiguous. -/
theorem SplitsInto.unique {c ls rest ls' rest'} (h : SplitsInto c ls rest)
    (h' : SplitsInto c ls' rest') : ls = ls' ∧ rest = rest' := by
  obtain ⟨hj, ht, hr⟩ := h
  obtain ⟨hj', ht', hr'⟩ := h'
  subst hj
  induction ls generalizing ls' with
  | nil =>
    cases ls' with
    | nil => simpa using hj'
    | cons l' t' =>
      exfalso
      obtain ⟨b, rfl, _⟩ := ht' l' (by simp)
      apply hr
      simp only [List.flatten_nil, List.nil_append] at hj'
      rw [hj']; simp
  | cons l t ih =>
    obtain ⟨b, rfl, hb⟩ := ht l (by simp)
    cases ls' with
    | nil =>
      exfalso
      apply hr'
      simp only [List.flatten_nil, List.nil_append] at hj'
      rw [← hj']; simp
    | cons l' t' =>
      obtain ⟨b', rfl, hb'⟩ := ht' l' (by simp)
      simp only [List.flatten_cons, List.append_assoc, List.cons_append, List.nil_append] at hj'
      obtain ⟨e1, e2⟩ := newline_split _ _ _ _ hb hb' hj'
      obtain ⟨e3, e4⟩ := ih (fun l hl => ht l (by simp [hl])) (fun l hl => ht' l (by simp [hl])) e2
      simp [e1, e3, e4]

/-- C06, what holds: for a readable file `Lines` shows the callback exactly the newline-terminated
    lines, in order, until it refuses one; a read error is shown after them; an unterminated last
    line is not shown. -/
theorem lines_partial {E : Type _} (content : List Char) (yield : LineEvent → E → Bool × E) (e : E)
    (ls : List (List Char)) (rest : List Char) (h : SplitsInto content ls rest) (readErr : Bool) :
    lines (.data content readErr) yield e =
      visit yield (ls.map LineEvent.line ++ if readErr then [.error] else []) e := by
  obtain ⟨hj, ht, hr⟩ := h
  subst hj
  unfold lines
  simp only
  induction ls generalizing e with
  | nil =>
    rw [linesLoop]
    split
    · next heq => cases readErr <;> simp [visit]
    · next l r heq =>
      exfalso
      obtain ⟨h1, b, rfl, _⟩ := readString_some heq
      apply hr
      simp only [List.flatten_nil, List.nil_append] at h1
      rw [h1]; simp
  | cons l t ih =>
    obtain ⟨b, rfl, hb⟩ := ht l (by simp)
    rw [linesLoop]
    split
    · next heq => exfalso; exact readString_none heq (by simp)
    · next l' r heq =>
      obtain ⟨h1, b', rfl, hb'⟩ := readString_some heq
      have e2 : b' = b ∧ r = t.flatten ++ rest := by
        apply newline_split _ _ _ _ hb' hb
        simpa using h1.symm
      obtain ⟨rfl, rfl⟩ := e2
      simp only [List.map_cons, List.cons_append, visit]
      split
      · exact ih _ (fun l hl => ht l (by simp [hl]))
      · rfl

/-- Every content has such a decomposition, so `lines_partial` applies to every readable file. -/
theorem splitsInto_exists (content : List Char) : ∃ ls rest, SplitsInto content ls rest := by
  induction hn : content.length using Nat.strongRecOn generalizing content with
  | _ n ih =>
    cases h : readString content with
    | none => exact ⟨[], content, by simp, by simp, readString_none h⟩
    | some p =>
      obtain ⟨l, rest⟩ := p
      have hl := readString_length h
      obtain ⟨h1, hb⟩ := readString_some h
      obtain ⟨ls, r, h2, h3, h4⟩ := ih rest.length (by omega) rest rfl
      refine ⟨l :: ls, r, ?_, ?_, h4⟩
      · rw [h1, List.flatten_cons, List.append_assoc, ← h2]
      · intro x hx
        rcases List.mem_cons.1 hx with rfl | hx
        · exact hb
        · exact h3 x hx

/-- C06: a file that cannot be opened is reported with exactly one error event. -/
theorem lines_cannotOpen {E : Type _} (yield : LineEvent → E → Bool × E) (e : E) :
    lines .cannotOpen yield e = visit yield [.error] e := by
  simp [lines, visit]

/-- C06, the claim that fails: a last line without a newline is dropped. -/
theorem lines_complete_refuted :
    ¬ ∀ (content : List Char), content =
        (lines (.data content false)
          (fun ev (log : List Char) => (true, log ++ (match ev with | .line l => l | .error => []))) []) := by
  intro h
  have := h ['a', '\n', 'b']
  rw [lines_partial ['a', '\n', 'b'] _ _ [['a', '\n']] ['b']
    ⟨by decide, by intro l hl; simp at hl; subst hl; exact ⟨['a'], by decide, by decide⟩, by decide⟩] at this
  revert this; decide

end Gds.Iter
