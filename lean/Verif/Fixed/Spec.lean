import Verif.Fixed.Model
/-!
# Specification vocabulary for the fixed-size allocator

A ledger of who owns what, computed only from the calls made and the results returned.
-/
namespace HS.Fixed

/-- `owned b`: block `b` currently belongs to some client.
`replayed b`: during this boot's recovery, replay reserved `b` while nobody owned it.
`recovering`: `recovery_completed` has not been called yet. -/
structure Ledger where
  owned : Nat → Bool
  replayed : Nat → Bool
  recovering : Bool

/-- At boot the blocks marked in the persisted bitmap are owned. -/
def Ledger.boot (bm : Nat → Bool) : Ledger := ⟨bm, fun _ => false, true⟩

def set (f : Nat → Bool) (b : Nat) (v : Bool) : Nat → Bool := fun x => if x = b then v else f x

/-- How the ledger changes with a call and its result. -/
def Ledger.next (l : Ledger) : Op → Out → Ledger
  | .alloc, .ok b => { l with owned := set l.owned b true }
  | .alloc, _ => l
  | .free b, _ => { l with owned := set l.owned b false }
  | .reserve b, _ =>
    if l.recovering then
      { l with owned := set l.owned b true,
               replayed := if l.owned b then l.replayed else set l.replayed b true }
    else l
  | .recoveryCompleted, _ => { l with recovering := false }

/-- Rules a well behaved client follows: it frees only a block it owns; replay (before
`recovery_completed`) names blocks of this chunk; after recovery a client reserves only what it
already owns (`commit` of an allocated block). -/
def Ledger.legal (l : Ledger) (total : Nat) : Op → Prop
  | .alloc => True
  | .free b => b < total ∧ l.owned b = true
  | .reserve b => b < total ∧ (l.recovering = false → l.owned b = true)
  | .recoveryCompleted => True

/-- The additional restriction under which the code is correct: before `recovery_completed`, do
not free a block that replay has just reserved. -/
def Ledger.noEarlyFree (l : Ledger) : Op → Prop
  | .free b => l.recovering = true → l.replayed b = false
  | _ => True

/-- A history is fine when every call is legal in the ledger reached by the calls before it. -/
def History (P : Ledger → Op → Prop) : St → Ledger → List Op → Prop
  | _, _, [] => True
  | s, l, op :: ops => P l op ∧ History P (step s op).1 (l.next op (step s op).2) ops

/-- Ledger after a history. -/
def ledgerAfter : St → Ledger → List Op → Ledger
  | _, l, [] => l
  | s, l, op :: ops => ledgerAfter (step s op).1 (l.next op (step s op).2) ops

/-- State after a history. -/
def stAfter (s : St) (ops : List Op) : St := (runOut step s ops).1

end HS.Fixed
