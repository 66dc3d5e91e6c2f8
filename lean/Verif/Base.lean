/-!
# Common definitions

Bytes, panics, the decoder type, and the notion of an execution of a state
machine.  Nothing here models a particular function of the code base; the
individual models cite the source lines they follow.
-/

namespace Verif

/-- A byte string. -/
abbrev Bytes := List UInt8

/-- A Rust panic (`assert!`, `expect`, `unwrap`, arithmetic overflow with overflow
checks).  Panics are explicit results in the models and are never defaulted. -/
inductive Panic where
  /-- `expect("u64 too large")` and its siblings -/
  | tooLarge
  /-- a failed `assert!` -/
  | assertFailed
  /-- arithmetic overflow, detected in builds with overflow checks -/
  | overflow
  /-- `unwrap`/`expect` on a missing value -/
  | unwrapNone
  deriving DecidableEq, Repr

/-! ## State machines and executions -/

/-- A deterministic state machine: `step` performs one atomic operation and
returns its observable output.  A schedule is an arbitrary list of operations. -/
structure Machine where
  State : Type
  Op : Type
  Out : Type
  init : State
  step : State → Op → Out × State

namespace Machine

/-- `Reach M tr s`: there is an execution from the initial state whose history of
operations with their outputs, oldest first, is `tr`, and which ends in `s`. -/
inductive Reach (M : Machine) : List (M.Op × M.Out) → M.State → Prop
  | init : Reach M [] M.init
  | step {tr s} (op : M.Op) : Reach M tr s →
      Reach M (tr ++ [(op, (M.step s op).1)]) (M.step s op).2

/-- Induction over executions. -/
theorem Reach.induct {M : Machine} {P : List (M.Op × M.Out) → M.State → Prop}
    (h0 : P [] M.init)
    (hs : ∀ tr s op, M.Reach tr s → P tr s → P (tr ++ [(op, (M.step s op).1)]) (M.step s op).2)
    {tr s} (h : M.Reach tr s) : P tr s := by
  induction h with
  | init => exact h0
  | step op h ih => exact hs _ _ op h ih

/-- Run a list of operations and return the history and the final state. -/
def runFrom (M : Machine) (s : M.State) : List M.Op → List (M.Op × M.Out) × M.State
  | [] => ([], s)
  | op :: ops =>
    let r := runFrom M (M.step s op).2 ops
    ((op, (M.step s op).1) :: r.1, r.2)

/-- Run from the initial state. -/
def run (M : Machine) (ops : List M.Op) : List (M.Op × M.Out) × M.State :=
  M.runFrom M.init ops

theorem reach_runFrom (M : Machine) {tr s} (h : M.Reach tr s) (ops : List M.Op) :
    M.Reach (tr ++ (M.runFrom s ops).1) (M.runFrom s ops).2 := by
  induction ops generalizing tr s with
  | nil => simpa [runFrom] using h
  | cons op ops ih =>
    have := ih (Reach.step op h)
    simpa [runFrom, List.append_assoc] using this

/-- Every list of operations is an execution. -/
theorem reach_run (M : Machine) (ops : List M.Op) :
    M.Reach (M.run ops).1 (M.run ops).2 := by
  simpa [run] using M.reach_runFrom Reach.init ops

/-- Every execution is the run of its list of operations. -/
theorem Reach.eq_run {M : Machine} {tr s} (h : M.Reach tr s) :
    M.run (tr.map (·.1)) = (tr, s) := by
  have key : ∀ (ops : List M.Op) (t : M.State) (op : M.Op),
      M.runFrom t (ops ++ [op]) =
        ((M.runFrom t ops).1 ++ [(op, (M.step (M.runFrom t ops).2 op).1)],
          (M.step (M.runFrom t ops).2 op).2) := by
    intro ops
    induction ops with
    | nil => intro t op; simp [runFrom]
    | cons o ops ih => intro t op; simp [runFrom, ih]
  induction h with
  | init => rfl
  | step op _ ih =>
    unfold run at ih ⊢
    rw [List.map_append, List.map_cons, List.map_nil, key, ih]

end Machine

end Verif
