import Verif.Pool.Model
/-! # What C89 and C90 speak of: who has a chunk, which calls are in progress, when nothing moves -/
namespace HS.Pool

/-- The chunk that a call or its caller has. -/
def Call.chunk : Call → Option Nat
  | .got c | .has c | .give c | .full c => some c
  | _ => none

/-- The call has not returned. -/
def Call.active : Call → Bool
  | .has _ | .back | .gone => false
  | _ => true

/-- The calls in progress. -/
def St.active (s : St) : Nat := s.calls.countP Call.active

/-- Somebody waits for a chunk; the producer waits too; every other call has returned: nobody will
ever notify anybody, unless a further call is made. -/
def Stuck (s : St) : Prop :=
  .waiting ∈ s.calls ∧ s.prod = .waiting ∧ ∀ c ∈ s.calls, c = .waiting ∨ c.active = false

/-- A history in which never more than `m` calls are in progress at the same time. -/
def AtMost (m : Nat) (s : St) : List Op → Prop
  | [] => s.active ≤ m
  | op :: ops => s.active ≤ m ∧ ∀ s', s.step op = some s' → AtMost m s' ops

/-- A step of a call already made, or of the producer: no new call of `dequeue` or `enqueue`, and no
wait that ends without being notified. -/
def Op.quiet : Op → Bool
  | .call | .give _ | .spurious _ => false
  | _ => true

end HS.Pool
