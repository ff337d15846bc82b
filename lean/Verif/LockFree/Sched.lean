import Verif.LockFree.Model
import Verif.Fn.Props

/-! Concrete schedules: a list of actions is played on the empty list and gives a run. -/

namespace Gds.LockFree
variable {T : Type _}

/-- An action of goroutine `t`: call a method, do the next access (`h` is the height a new node gets), return. -/
inductive Act (T : Type _) where
  | call (t : Nat) (op : Op T)
  | step (t : Nat) (h : Nat)
  | ret (t : Nat)

def act (cmp : Compare T) (s : St T) : Act T → Option (Label T × St T)
  | .call t op => match s.pc t with
    | .idle => some (.call t op, s.goto s.mem t (.run op op.enter))
    | _ => none
  | .step t h => match s.pc t with
    | .run _ (.ret _) => none
    | .run _ (.panicked _) => none
    | .run op c => some (.tau t, s.goto (exec cmp (fun l => decide (l < h)) s.mem c).1 t (.run op (exec cmp (fun l => decide (l < h)) s.mem c).2))
    | .idle => none
  | .ret t => match s.pc t with
    | .run _ (.ret o) => some (.ret t o, s.goto s.mem t .idle)
    | _ => none

theorem act_step {cmp : Compare T} {s s' : St T} {a : Act T} {l : Label T} (h : act cmp s a = some (l, s')) : Step cmp s l s' := by
  cases a with
  | call t op =>
    simp only [act] at h
    split at h
    · cases h; exact .call s t op ‹_›
    · cases h
  | step t hh =>
    simp only [act] at h
    split at h
    · cases h
    · cases h
    · rename_i op c h1 h2 h3
      cases h
      exact .tau s t op c _ h3 (fun o e => h1 o e) (fun o e => h2 o e)
    · cases h
  | ret t =>
    simp only [act] at h
    split at h
    · cases h; exact .ret s t _ _ ‹_›
    · cases h

/-- The states and labels of the run. -/
def play (cmp : Compare T) (s : St T) : List (Act T) → Option (List (Label T × St T))
  | [] => some []
  | a :: as => match act cmp s a with
    | some (l, s') => match play cmp s' as with
      | some r => some ((l, s') :: r)
      | none => none
    | none => none

def stateAt (s : St T) (r : List (Label T × St T)) : Nat → St T
  | 0 => s
  | k + 1 => match r[k]? with
    | some x => x.2
    | none => s

def labelAt (r : List (Label T × St T)) (k : Nat) : Label T := match r[k]? with
  | some x => x.1
  | none => .tau 0

theorem stateAt_cons {s : St T} {x : Label T × St T} {r : List (Label T × St T)} {k : Nat} (h : k ≤ r.length) :
    stateAt s (x :: r) (k + 1) = stateAt x.2 r k := by
  cases k with
  | zero => rfl
  | succ k => simp only [stateAt, List.getElem?_cons_succ, List.getElem?_eq_getElem (show k < r.length by omega)]

theorem play_step {cmp : Compare T} : ∀ {as : List (Act T)} {s : St T} {r : List (Label T × St T)}, play cmp s as = some r →
    r.length = as.length ∧ ∀ k, k < r.length → Step cmp (stateAt s r k) (labelAt r k) (stateAt s r (k + 1)) := by
  intro as
  induction as with
  | nil => intro s r h; cases h; exact ⟨rfl, fun k hk => by simp at hk⟩
  | cons a as ih =>
    intro s r h
    simp only [play] at h
    split at h
    · rename_i l s' ha
      split at h
      · rename_i r' hr
        cases h
        obtain ⟨h1, h2⟩ := ih hr
        refine ⟨by simp [h1], fun k hk => ?_⟩
        cases k with
        | zero => exact act_step ha
        | succ k =>
          have hk' : k < r'.length := by simpa using hk
          have := h2 k hk'
          rw [stateAt_cons (Nat.le_of_lt hk'), stateAt_cons hk']
          exact this
      · cases h
    · cases h

theorem play_run {cmp : Compare T} {zero : T} {as : List (Act T)} {r : List (Label T × St T)} (h : play cmp (St.init zero) as = some r) :
    IsRun cmp zero (stateAt (St.init zero) r) (labelAt r) as.length :=
  ⟨rfl, fun k hk => (play_step h).2 k (by rw [(play_step h).1]; exact hk)⟩

/-- The value returned at the end of a schedule. -/
def lastOut (r : Option (List (Label T × St T))) : Option (Nat × Out T) := match r with
  | some r => match r.getLast? with
    | some (.ret t o, _) => some (t, o)
    | _ => none
  | none => none

/-- Goroutine `t` calls `op` and takes `n` steps; a new node gets height `h`. -/
def partOf (t : Nat) (op : Op T) (n h : Nat) : List (Act T) := .call t op :: List.replicate n (.step t h)
/-- The whole call. -/
def wholeOf (t : Nat) (op : Op T) (n h : Nat) : List (Act T) := partOf t op n h ++ [.ret t]

example : lastOut (play Fn.comp (St.init (0 : Nat)) (wholeOf 0 (.add 5) 43 1)) = some (0, .bool true) := by decide +kernel

end Gds.LockFree
