import Verif.Lock.Model

/-
What is said about the calls of the log service: executions, deadlocks, and the calls that may run beside
one another.
-/
namespace HS.Lock

/-- `s'` is reached from `s` by steps of the threads, in any order. -/
inductive Run : State → State → Prop where
  | refl (s) : Run s s
  | tail {s s₁ s₂ : State} {i : Nat} {b : Bool} : Run s s₁ → step s₁ i b = some s₂ → Run s s₂

/-- All threads have finished. -/
def Finished (s : State) : Prop := ∀ t ∈ s, t.prog = .done

/-- Some thread has not finished, and none can go on. -/
def Deadlock (s : State) : Prop := ¬ Finished s ∧ ∀ i b, step s i b = none

/-- An execution that goes on for ever. -/
def Endless (s : State) : Prop :=
  ∃ f : Nat → State, f 0 = s ∧ ∀ n, ∃ i b, step (f n) i b = some (f (n + 1))

/-- The set of stores of the device `d` may be changed by this call. -/
def Call.changes (d : Nat) : Call → Prop
  | .createDev d' => d' = d
  | .createStore d' => d' = d
  | .openStore d' => d' = d
  | .removeStore d' => d' = d
  | _ => False

/-- The call stops the device `d`, or lists the records of all of its stores. -/
def Call.sweeps (d : Nat) : Call → Prop
  | .destroyDev d' _ _ => d' = d
  | .dumpAll ds => ∃ p ∈ ds, p.1 = d
  | .stop ds => ∃ p ∈ ds, p.1 = d
  | _ => False

/-- The call only appends (`HomeLogStore::append_async`). -/
def Call.onlyAppends : Call → Prop
  | .append .. => True
  | _ => False

end HS.Lock
