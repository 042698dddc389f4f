import Verif.Pipe.Model
/-! # What C94-C97 speak of: which appends a start would find, which calls have returned -/
namespace HS.Pipe
variable {D : Type}

/-- A start would find the record of the call `c`, once or more. -/
def Durable (s : St D) (c : Nat) : Prop := ∃ r ∈ recover s.disk, r.call = c

/-- The call has returned. -/
def Returned (s : St D) (c : Nat) : Prop := ∃ x b, s.calls c = some x ∧ x.ph = .ret b

/-- The call was an append: `append_async`, `write_async` or `write_and_flush`. -/
def IsAppend (s : St D) (c : Nat) : Prop := ∃ x, s.calls c = some x ∧ x.kind ≠ .flush

/-- The call has an index, but its record is not created. -/
def Ph.half : Ph D → Bool
  | .reserved | .counted => true
  | _ => false

/-- No write to the disk fails. -/
def Ev.noError : Ev D → Prop
  | .write _ w => w = .ok
  | _ => True

/-- The process does not end. -/
def Ev.noCrash : Ev D → Prop
  | .crash _ => False
  | _ => True

/-- A step of the call `f` of `flush`, with its writes to the disk successful. -/
def Ev.flushOf (f : Nat) : Ev D → Prop
  | .lock c | .bound c | .prep c | .pay c | .complete c => c = f
  | .write c w => c = f ∧ w = .ok
  | _ => False

/-- Whenever the call `f` collects records to flush, every append with an index below that of the
call `c` has its record created. -/
def Clear (f c : Nat) (s : St D) : List (Ev D) → Prop
  | [] => True
  | e :: es =>
    (e = .prep f → ∀ x i, s.calls c = some x → x.idx = some i →
      ∀ c' x' j, s.calls c' = some x' → x'.ph.half = true → x'.idx = some j → i ≤ j) ∧
    ∀ s', s.step e = some s' → Clear f c s' es

/-- Every call made has returned. -/
def Idle (s : St D) : Prop := ∀ c x, s.calls c = some x → x.ph = .lost ∨ ∃ b, x.ph = .ret b

end HS.Pipe
