import Verif.RBTree.Raise

/-! Property C144 (red-black tree): `SetCompareFunc` and `GetCompareFunc` (collections/rbtree/redblacktree.go:70-78), on trees made with a comparator or
with `New(nil)`. -/
namespace Gds.RBTree
variable {K V : Type}

/-- redblacktree.go:14-19 `Tree` with its field `comparator`; `none` is nil. -/
structure CTree (K V : Type) where
  comp : Option (Compare K)
  tree : Tree K V

/-- redblacktree.go:25-38 `New` and `Init`, also with nil. -/
def newC (z : K × V) (comp : Option (Compare K)) : CTree K V := { comp := comp, tree := new z }

/-- A call of the function in `comparator` (redblacktree.go:220-406); calling nil is a run-time panic, which a caller can recover. -/
def nilP (comp : Option (Compare K)) : PComp K Unit := fun a b e => (comp.map (fun c => c a b), e)

/-- redblacktree.go:70-74 `SetCompareFunc` -/
def setCompareFunc (t : CTree K V) (c : Option (Compare K)) : CTree K V := if t.comp.isNone then { t with comp := c } else t

/-- redblacktree.go:76-78 `GetCompareFunc` -/
def getCompareFunc (t : CTree K V) : Option (Compare K) := t.comp

/-- A call of a client. -/
inductive CCall (K V : Type) where
  | call (c : ECall K V)
  | setCompare (c : Option (Compare K))
  | getCompare

/-- Its answer; `call none`: the nil comparator was called, and the panic recovered. -/
inductive CAns (K V : Type) where
  | call (a : Option (EAns K V))
  | setCompare
  | getCompare (c : Option (Compare K))

/-- One call (redblacktree.go:70-78, 220-293). -/
def stepC (s : CTree K V) : CCall K V → Res (CAns K V × CTree K V)
  | .call c => do let (a, t, _) ← stepP (nilP s.comp) () s.tree c; pure (.call a, { s with tree := t })
  | .setCompare c => pure (.setCompare, setCompareFunc s c)
  | .getCompare => pure (.getCompare (getCompareFunc s), s)

/-- A history (redblacktree.go:70-78, 220-293) of a client that recovers. -/
def runC (s : CTree K V) : List (CCall K V) → Res (List (CAns K V) × CTree K V)
  | [] => pure ([], s)
  | c :: cs => do
    let (a, s) ← stepC s c
    let (as, s) ← runC s cs
    pure (a :: as, s)

/-! ### Specification -/

/-- The comparator in force after the calls: the one of `New` or, if that is nil, the first one set that is not. -/
def inForce (c0 : Option (Compare K)) : List (CCall K V) → Option (Compare K)
  | [] => c0
  | .setCompare c :: cs => inForce (c0.or c) cs
  | _ :: cs => inForce c0 cs

/-- The map calls that returned. -/
def made : List (CCall K V) → List (CAns K V) → List (ECall K V)
  | .call c :: cs, .call (some _) :: as => c :: made cs as
  | _ :: cs, _ :: as => made cs as
  | _, _ => []

/-- What they returned. -/
def gave : List (CAns K V) → List (EAns K V)
  | .call (some a) :: as => a :: gave as
  | _ :: as => gave as
  | [] => []

/-- The map while no comparator is in force: it can take one entry, and no call that finds an entry returns. -/
def unset : Option (K × V) → List (CCall K V) → List (CAns K V) × Option (K × V)
  | o, [] => ([], o)
  | none, .call (.put k v) :: cs => (.call (some (.put true)) :: (unset (some (k, v)) cs).1, (unset (some (k, v)) cs).2)
  | none, .call (.get _) :: cs => (.call (some (.get none)) :: (unset none cs).1, (unset none cs).2)
  | none, .call (.delete _) :: cs => (.call (some (.delete none)) :: (unset none cs).1, (unset none cs).2)
  | some x, .call _ :: cs => (.call none :: (unset (some x) cs).1, (unset (some x) cs).2)
  | o, .setCompare _ :: cs => (.setCompare :: (unset o cs).1, (unset o cs).2)
  | o, .getCompare :: cs => (.getCompare none :: (unset o cs).1, (unset o cs).2)

/-! ### Proofs -/

theorem inForce_some (c : Compare K) (cs : List (CCall K V)) : inForce (some c) cs = some c := by
  induction cs with
  | nil => rfl
  | cons x cs ih => cases x <;> simpa [inForce] using ih

theorem setCompareFunc_comp (s : CTree K V) (c : Option (Compare K)) : (setCompareFunc s c).comp = s.comp.or c ∧ (setCompareFunc s c).tree = s.tree := by
  unfold setCompareFunc
  cases h : s.comp <;> simp [h]

/-- C144: `GetCompareFunc` answers, after any history, the comparator of `New` or, if that is nil, the first one set that is not: later ones have no
effect. Setting one changes nothing else. -/
theorem setCompare_first (z : K × V) (c0 : Option (Compare K)) (cs : List (CCall K V)) {as : List (CAns K V)} {s : CTree K V}
    (h : runC (newC z c0) cs = .ok (as, s)) : getCompareFunc s = inForce c0 cs := by
  suffices H : ∀ (cs : List (CCall K V)) (s0 : CTree K V) (as : List (CAns K V)), runC s0 cs = .ok (as, s) → s.comp = inForce s0.comp cs from H cs _ _ h
  intro cs
  induction cs with
  | nil => intro s0 as h; cases h; rfl
  | cons c cs ih =>
    intro s0 as h
    simp only [runC] at h
    cases hx : stepC s0 c with
    | panic => rw [hx] at h; cases h
    | hang => rw [hx] at h; cases h
    | ok x =>
      obtain ⟨a, s1⟩ := x
      rw [hx] at h
      simp only [Res.bind_ok] at h
      cases hy : runC s1 cs with
      | panic => rw [hy] at h; cases h
      | hang => rw [hy] at h; cases h
      | ok y =>
        obtain ⟨as1, s2⟩ := y
        rw [hy] at h
        cases h
        have := ih s1 as1 hy
        rw [this]
        cases c with
        | setCompare c =>
          cases hx
          rw [(setCompareFunc_comp s0 c).1]
          rfl
        | getCompare => cases hx; rfl
        | call c =>
          simp only [stepC] at hx
          cases hw : stepP (nilP s0.comp) () s0.tree c with
          | panic => rw [hw] at hx; cases hx
          | hang => rw [hw] at hx; cases hx
          | ok w =>
            rw [hw] at hx
            cases hx
            rfl

/-- A comparator that never panics: the calls do not either, because of it. -/
theorem descendP_total (c : Compare K) {m : Heap K V} (key : K) : ∀ (t : T) (up par : Option Nat) (x), Rep m up t →
    descendP (nilP (some c)) () m key t.root par = .ok x → x.1 ≠ none := by
  intro t
  induction t with
  | nil =>
    intro up par x _ h
    rw [T.root_nil, descendP] at h
    cases h
    simp
  | node l i r ihl ihr =>
    intro up par x h hx
    obtain ⟨h1, h2, h3, h4, h5⟩ := h
    rw [T.root_node, descendP] at hx
    simp only [nilP, Option.map_some, reduceCtorEq, if_false, Option.some.injEq] at hx
    by_cases k1 : c key (m.kv i).1 = -1
    · simp only [k1, if_true, h2] at hx; exact ihl _ _ _ h4 hx
    · by_cases k2 : c key (m.kv i).1 = 1
      · simp only [k2, if_true, h3, show ¬ ((1 : Int) = -1) by omega, if_false] at hx; exact ihr _ _ _ h5 hx
      · simp only [k1, k2, if_false] at hx; cases hx; simp

theorem searchFromP_total (c : Compare K) {m : Heap K V} (key : K) : ∀ (t : T) (up : Option Nat) (x), Rep m up t →
    searchFromP (nilP (some c)) () m key t.root = .ok x → x.1 ≠ none := by
  intro t
  induction t with
  | nil =>
    intro up x _ h
    rw [T.root_nil, searchFromP] at h
    cases h
    simp
  | node l i r ihl ihr =>
    intro up x h hx
    obtain ⟨h1, h2, h3, h4, h5⟩ := h
    rw [T.root_node, searchFromP] at hx
    simp only [nilP, Option.map_some, reduceCtorEq, if_false, Option.some.injEq] at hx
    by_cases k1 : c key (m.kv i).1 = -1
    · simp only [k1, if_true, h2] at hx; exact ihl _ _ h4 hx
    · by_cases k2 : c key (m.kv i).1 = 1
      · simp only [k2, if_true, h3, show ¬ ((1 : Int) = -1) by omega, if_false] at hx; exact ihr _ _ h5 hx
      · simp only [k1, k2, if_false] at hx; cases hx; simp

theorem Res.ok_of_bind {α β : Type} {x : Res α} {f : α → Res β} {b : β} (h : (x >>= f) = .ok b) : ∃ a, x = .ok a ∧ f a = .ok b := by
  cases x with
  | ok a => exact ⟨a, rfl, h⟩
  | panic => cases h
  | hang => cases h

theorem removeEndsP_total (c : Compare K) {m : Heap K V} (n : Option Nat) {x} (h : removeEndsP (nilP (some c)) () m n = .ok x) : x.1 ≠ none := by
  unfold removeEndsP at h
  obtain ⟨kv, -, h⟩ := Res.ok_of_bind h
  simp only [nilP, Option.map_some] at h
  split at h
  · obtain ⟨p, -, h⟩ := Res.ok_of_bind h
    obtain ⟨m, -, h⟩ := Res.ok_of_bind h
    cases h; simp
  · obtain ⟨hl, -, h⟩ := Res.ok_of_bind h
    split at h
    · obtain ⟨p, -, h⟩ := Res.ok_of_bind h
      obtain ⟨m, -, h⟩ := Res.ok_of_bind h
      cases h; simp
    · cases h; simp

theorem stepP_total (c : Compare K) {z : K × V} {t : Tree K V} {tr : T} {U : List Nat} (h : OK z t tr U) (d : ECall K V) {x}
    (hx : stepP (nilP (some c)) () t d = .ok x) : x.1 ≠ none := by
  have hroot : t.heap.parent 0 = tr.root := h.holds.root
  have hrep : Rep t.heap none tr := h.holds.rep
  cases d with
  | put k v =>
    obtain ⟨y, hy, hx⟩ := Res.ok_of_bind hx
    cases hx
    obtain ⟨w, hw, hy⟩ := Res.ok_of_bind hy
    obtain ⟨r, hr, hw⟩ := Res.ok_of_bind hw
    rw [hroot] at hr
    have hn := descendP_total c k tr _ none r hrep hr
    obtain ⟨r1, r2⟩ := r
    match r1, hn with
    | some (.found i), _ => cases hw; cases hy; simp
    | some (.missing p), _ =>
      obtain ⟨u, -, hw⟩ := Res.ok_of_bind hw
      obtain ⟨m, -, hw⟩ := Res.ok_of_bind hw
      cases hw; cases hy; simp
  | get k =>
    obtain ⟨y, hy, hx⟩ := Res.ok_of_bind hx
    cases hx
    obtain ⟨r, hr, hy⟩ := Res.ok_of_bind hy
    rw [hroot] at hr
    have hn := searchFromP_total c k tr _ r hrep hr
    obtain ⟨r1, r2⟩ := r
    match r1, hn with
    | some none, _ => cases hy; simp
    | some (some i), _ => cases hy; simp
  | delete k =>
    obtain ⟨y, hy, hx⟩ := Res.ok_of_bind hx
    cases hx
    obtain ⟨r, hr, hy⟩ := Res.ok_of_bind hy
    rw [hroot] at hr
    have hn := searchFromP_total c k tr _ r hrep hr
    obtain ⟨r1, r2⟩ := r
    match r1, hn with
    | some none, _ => cases hy; simp
    | some (some i), _ =>
      obtain ⟨w, hw, hy⟩ := Res.ok_of_bind hy
      obtain ⟨q, hq, hw⟩ := Res.ok_of_bind hw
      have hn := removeEndsP_total c (some i) hq
      obtain ⟨q1, q2, q3⟩ := q
      match q1, hn with
      | some _, _ =>
        obtain ⟨u, -, hw⟩ := Res.ok_of_bind hw
        have : w.1 ≠ none := by
          dsimp only at hw
          split at hw <;> (cases hw; simp)
        obtain ⟨w1, w2, w3⟩ := w
        match w1, this with
        | some none, _ => cases hy; simp
        | some (some j), _ => cases hy; simp

/-- C144: once a comparator is in force no call panics because of it. -/
theorem setCompare_usable (z : K × V) (c : Compare K) (cs : List (CCall K V)) {as : List (CAns K V)} {s : CTree K V}
    (h : runC (newC z (some c)) cs = .ok (as, s)) : CAns.call none ∉ as := by
  suffices H : ∀ (cs : List (CCall K V)) (s0 : CTree K V) (tr : T) (U : List Nat) (_ : OK z s0.tree tr U) (as : List (CAns K V)), s0.comp = some c →
      runC s0 cs = .ok (as, s) → CAns.call none ∉ as from H cs _ _ _ (ok_new z) _ rfl h
  intro cs
  induction cs with
  | nil => intro s0 tr U _ as _ h; cases h; simp
  | cons d cs ih =>
    intro s0 tr U ok as hc h
    simp only [runC] at h
    cases hx : stepC s0 d with
    | panic => rw [hx] at h; cases h
    | hang => rw [hx] at h; cases h
    | ok x =>
      obtain ⟨a, s1⟩ := x
      rw [hx] at h
      simp only [Res.bind_ok] at h
      cases hy : runC s1 cs with
      | panic => rw [hy] at h; cases h
      | hang => rw [hy] at h; cases h
      | ok y =>
        obtain ⟨as1, s2⟩ := y
        rw [hy] at h
        cases h
        cases d with
        | setCompare d =>
          cases hx
          have := setCompareFunc_comp s0 d
          have := ih _ tr U (by rw [this.2]; exact ok) as1 (by rw [this.1, hc]; rfl) hy
          simpa using this
        | getCompare => cases hx; simpa using ih _ tr U ok as1 hc hy
        | call d =>
          simp only [stepC] at hx
          cases hw : stepP (nilP s0.comp) () s0.tree d with
          | panic => rw [hw] at hx; cases hx
          | hang => rw [hw] at hx; cases hx
          | ok w =>
            have hA : Agrees (fun (_ : Unit) (_ : Nat × Unit) => True) (nilP s0.comp) (counted (stateless c)) := by
              intro a b e f x _ hx
              rw [hc] at hx
              simp only [nilP, Option.map_some, Option.some.injEq] at hx
              exact ⟨hx, trivial⟩
            have hs := stepP_spec hA ok (e := ()) (f := (0, ())) trivial d
            have hn : w.1 ≠ none := stepP_total c ok d (by rw [← hc]; exact hw)
            rcases stepE_any (stateless c) ok 0 () d with h1 | ⟨b, t1, tr1, U1, n1, e1, h1, ok1, -, -⟩
            · rw [h1, hw] at hs
              cases hs with
              | raised => exact absurd rfl hn
            · rw [h1, hw] at hs
              rw [hw] at hx
              cases hs with
              | raised => exact absurd rfl hn
              | ret =>
                cases hx
                have := ih { comp := s0.comp, tree := t1 } tr1 U1 ok1 as1 hc hy
                simpa using this


/-- C144: the map calls that returned gave the answers, and left the tree, that these calls have and leave on a tree made with the comparator in force at
the end; those in which nil was called changed nothing. -/
theorem setCompare_history (z : K × V) (c0 : Option (Compare K)) (cs : List (CCall K V)) (cmp : Compare K) (hc : ∀ c, inForce c0 cs = some c → c = cmp)
    {as : List (CAns K V)} {s : CTree K V} (h : runC (newC z c0) cs = .ok (as, s)) :
    runE (stateless cmp) () (new z) (made cs as) = .ok (gave as, s.tree, ()) := by
  suffices H : ∀ (cs : List (CCall K V)) (s0 : CTree K V) (tr : T) (U : List Nat) (_ : OK z s0.tree tr U) (as : List (CAns K V)),
      (∀ c, inForce s0.comp cs = some c → c = cmp) → runC s0 cs = .ok (as, s) →
      runE (stateless cmp) () s0.tree (made cs as) = .ok (gave as, s.tree, ()) from H cs _ _ _ (ok_new z) _ hc h
  intro cs
  induction cs with
  | nil => intro s0 tr U _ as _ h; cases h; rfl
  | cons d cs ih =>
    intro s0 tr U ok as hc h
    simp only [runC] at h
    cases hx : stepC s0 d with
    | panic => rw [hx] at h; cases h
    | hang => rw [hx] at h; cases h
    | ok x =>
      obtain ⟨a, s1⟩ := x
      rw [hx] at h
      simp only [Res.bind_ok] at h
      cases hy : runC s1 cs with
      | panic => rw [hy] at h; cases h
      | hang => rw [hy] at h; cases h
      | ok y =>
        obtain ⟨as1, s2⟩ := y
        rw [hy] at h
        cases h
        cases d with
        | setCompare d =>
          cases hx
          have hsc := setCompareFunc_comp s0 d
          have := ih _ tr U (by rw [hsc.2]; exact ok) as1 (by rw [hsc.1]; exact hc) hy
          rw [hsc.2] at this
          exact this
        | getCompare => cases hx; exact ih _ tr U ok as1 hc hy
        | call d =>
          simp only [stepC] at hx
          cases hw : stepP (nilP s0.comp) () s0.tree d with
          | panic => rw [hw] at hx; cases hx
          | hang => rw [hw] at hx; cases hx
          | ok w =>
            have hcc : ∀ c, s0.comp = some c → c = cmp := by
              intro c h
              apply hc
              rw [h]
              exact inForce_some c _
            have hA1 : Agrees (fun (_ : Unit) (_ : Nat × Unit) => True) (nilP s0.comp) (counted (stateless cmp)) := by
              intro a b e f x _ hx
              cases hk : s0.comp with
              | none => simp [nilP, hk] at hx
              | some c =>
                simp only [nilP, hk, Option.map_some, Option.some.injEq] at hx
                rw [hcc c hk] at hx
                exact ⟨hx, trivial⟩
            have hA2 : Agrees (fun (_ : Unit) (_ : Unit) => True) (nilP s0.comp) (stateless cmp) := by
              intro a b e f x hr hx
              exact ⟨(hA1 a b e (0, ()) x trivial hx).1, trivial⟩
            have hs1 := stepP_spec hA1 ok (e := ()) (f := (0, ())) trivial d
            have hs2 := stepP_spec hA2 ok (e := ()) (f := ()) trivial d
            rw [hw] at hx hs1 hs2
            generalize hz : stepE (stateless cmp) () s0.tree d = q at hs2
            obtain ⟨b, t1, u⟩ := w
            cases hs2 with
            | raised =>
              cases hx
              exact ih { comp := s0.comp, tree := s0.tree } tr U ok as1 hc hy
            | ret _ =>
              rcases stepE_any (stateless cmp) ok 0 () d with h1 | ⟨b, t2, tr1, U1, n1, e1, h1, ok1, -, -⟩
              · rw [h1] at hs1; cases hs1
              · rw [h1] at hs1
                cases hs1
                cases hx
                have := ih { comp := s0.comp, tree := _ } tr1 U1 ok1 as1 hc hy
                simp only [made, gave, runE, hz, Res.bind_ok, this, Res.pure_eq]

/-- While nil is the comparator: a map with an entry at the root answers no call, and stays as it is. -/
theorem stepP_unset (t : Tree K V) {i : Nat} (h : t.heap.parent 0 = some i) (c : ECall K V) : stepP (nilP none) () t c = .ok (none, t, ()) := by
  cases c with
  | put k v => simp only [stepP, putP, putInnerP, h]; rw [descendP]; rfl
  | get k => simp only [stepP, getP, h]; rw [searchFromP]; rfl
  | delete k => simp only [stepP, deleteP, h]; rw [searchFromP]; rfl

theorem stepP_empty (z : K × V) (c : ECall K V) : ∃ t, stepP (nilP none) () (new z) c =
      .ok (some (match c with | .put _ _ => .put true | .get _ => .get none | .delete _ => .delete none), t, ()) ∧
    match c with
      | .put k v => ∃ i, t.heap.parent 0 = some i ∧ t.heap.kv i = (k, v) ∧ t.size = 1
      | _ => t = new z := by
  cases c with
  | put k v =>
    simp only [stepP, putP, putInnerP]
    rw [show (new z).heap.parent 0 = none from rfl, descendP]
    obtain ⟨n, t1, e, -, hn2, -, hsz, hk1, -⟩ := allocNode_spec (ok_new z) k v
    obtain ⟨m', e', hh, hrb, hk, -⟩ := link_empty (m := t1.heap) hn2
    simp only [Res.pure_eq, Res.bind_ok, e, e', if_true]
    refine ⟨_, rfl, n, hh.root, ?_, ?_⟩
    · show m'.kv n = _
      rw [hk, hk1, if_pos rfl]
    · show t1.size + 1 = 1
      rw [hsz]; rfl
  | get k =>
    simp only [stepP, getP]
    rw [show (new z).heap.parent 0 = none from rfl, searchFromP]
    exact ⟨_, rfl, rfl⟩
  | delete k =>
    simp only [stepP, deleteP]
    rw [show (new z).heap.parent 0 = none from rfl, searchFromP]
    exact ⟨_, rfl, rfl⟩

/-- C144: a tree made with `New(nil)` on which no comparator is set: every answer of every history. The first `Put` is accepted, since it compares
nothing, and after it no call returns; no other panic occurs. -/
theorem setCompare_unset (z : K × V) (cs : List (CCall K V)) (hc : inForce none cs = none) :
    ∃ s, runC (newC z none) cs = .ok ((unset none cs).1, s) ∧ s.comp = none ∧ s.tree.size = (unset none cs).2.toList.length ∧
      ∀ x, (unset none cs).2 = some x → ∃ i, s.tree.heap.parent 0 = some i ∧ s.tree.heap.kv i = x := by
  suffices H : ∀ (cs : List (CCall K V)) (o : Option (K × V)) (s0 : CTree K V), inForce none cs = none → s0.comp = none →
      (match o with
        | none => s0.tree = new z
        | some x => ∃ i, s0.tree.heap.parent 0 = some i ∧ s0.tree.heap.kv i = x ∧ s0.tree.size = 1) →
      ∃ s, runC s0 cs = .ok ((unset o cs).1, s) ∧ s.comp = none ∧ s.tree.size = (unset o cs).2.toList.length ∧
        ∀ x, (unset o cs).2 = some x → ∃ i, s.tree.heap.parent 0 = some i ∧ s.tree.heap.kv i = x from H cs none _ hc rfl rfl
  clear hc cs
  intro cs
  induction cs with
  | nil =>
    intro o s0 _ h1 h2
    refine ⟨s0, by simp [runC, unset], h1, ?_, ?_⟩
    · cases o with
      | none => simp only [unset]; rw [h2]; rfl
      | some x => obtain ⟨i, -, -, h⟩ := h2; simpa [unset] using h
    · cases o with
      | none => intro x hx; cases hx
      | some x =>
        obtain ⟨i, h3, h4, -⟩ := h2
        intro y hy
        cases hy
        exact ⟨i, h3, h4⟩
  | cons c cs ih =>
    intro o s0 hc h1 h2
    cases c with
    | getCompare =>
      obtain ⟨s, g1, g2⟩ := ih o s0 hc h1 h2
      refine ⟨s, ?_, ?_⟩
      · cases o <;> simp [runC, stepC, unset, getCompareFunc, g1, h1]
      · cases o <;> simpa only [unset] using g2
    | setCompare d =>
      have hd : d = none := by
        cases d with
        | none => rfl
        | some d => simp [inForce, inForce_some] at hc
      subst hd
      have h3 : setCompareFunc s0 none = s0 := by
        cases s0
        cases h1
        rfl
      obtain ⟨s, g1, g2⟩ := ih o s0 hc h1 h2
      refine ⟨s, ?_, ?_⟩
      · cases o <;> simp [runC, stepC, unset, h3, g1]
      · cases o <;> simpa only [unset] using g2
    | call d =>
      cases o with
      | some x =>
        obtain ⟨i, h3, h4⟩ := h2
        have hs := stepP_unset s0.tree h3 d
        obtain ⟨s, g1, g2⟩ := ih (some x) { comp := none, tree := s0.tree } hc rfl ⟨i, h3, h4⟩
        refine ⟨s, ?_, by simpa only [unset] using g2⟩
        simp only [runC, stepC, h1, hs, Res.bind_ok, Res.pure_eq] at g1 ⊢
        simp only [g1, Res.bind_ok, unset]
      | none =>
        obtain ⟨t, h3, h4⟩ := stepP_empty z d
        rw [← show s0.tree = new z from h2] at h3
        cases d with
        | put k v =>
          obtain ⟨s, g1, g2⟩ := ih (some (k, v)) { comp := s0.comp, tree := t } hc h1 h4
          refine ⟨s, ?_, by simpa only [unset] using g2⟩
          simp only [runC, stepC, h1, h3, Res.bind_ok, Res.pure_eq] at g1 ⊢
          simp only [g1, Res.bind_ok, unset]
        | get k =>
          obtain ⟨s, g1, g2⟩ := ih none { comp := s0.comp, tree := t } hc h1 h4
          refine ⟨s, ?_, by simpa only [unset] using g2⟩
          simp only [runC, stepC, h1, h3, Res.bind_ok, Res.pure_eq] at g1 ⊢
          simp only [g1, Res.bind_ok, unset]
        | delete k =>
          obtain ⟨s, g1, g2⟩ := ih none { comp := s0.comp, tree := t } hc h1 h4
          refine ⟨s, ?_, by simpa only [unset] using g2⟩
          simp only [runC, stepC, h1, h3, Res.bind_ok, Res.pure_eq] at g1 ⊢
          simp only [g1, Res.bind_ok, unset]

/-! ### A run -/

/-- Made with nil: one `Put` is accepted, the second panics; after `SetCompareFunc` the map works, and a second `SetCompareFunc`, with the reverse order,
has no effect. -/
example : (do
    let r ← runC (newC ((0 : Nat), (0 : Nat)) none) [.call (.put 1 10), .call (.put 2 20),
      .setCompare (some fun a b => if a < b then -1 else if a = b then 0 else 1), .setCompare (some fun a b => if b < a then -1 else if a = b then 0 else 1),
      .call (.put 2 20), .call (.put 3 30), .call (.get 3), .call (.get 2)]
    pure (gave r.1, r.2.tree.size)) = .ok ([.put true, .put true, .put true, .get (some 30), .get (some 20)], 3) := by cbv

end Gds.RBTree
