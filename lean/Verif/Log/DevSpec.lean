import Verif.Log.Dev

/-!
# What the log stores of a device are to their users

A store is a list of records, numbered from `base` on.  `base` is the number from which on the records come back after a
restart, `start` the number from which on they can be read now: a truncation in memory moves only `start`, a device
truncation moves `base` up to `start`.  The first `flushed` records of the list survive a crash.

Nothing here mentions groups, device offsets, log indices or rollback ranges.
-/

namespace HS.Log

variable {D : Type}

structure SStore (D : Type) where
  base : Int
  start : Int
  log : List D
  flushed : Nat
  deriving DecidableEq, Repr

/-- The stores, and the stores of the appends that are not yet on the device, oldest first. -/
structure SDev (D : Type) where
  stores : Nat → Option (SStore D)
  pend : List Nat

/-- The operations of the users, and what threads, timers and crashes add. -/
inductive Op (D : Type) where
  | create (id : Nat)
  | append (id : Nat) (d : D)
  | flush
  /-- a flush that started when only `k` of the pending records were there -/
  | flushK (k : Nat)
  | read (id : Nat) (lsn : Int)
  | truncate (id : Nat) (upto : Int) (inMem : Bool)
  | truncateDev
  | rollback (id : Nat) (to : Int)
  | remove (id : Nat)
  /-- a crash, with the first `k` pending records completely on the device, and a restart that opens `opened` -/
  | restart (opened unopened : List Nat) (k : Nat)
  deriving Repr

inductive Out (D : Type) where
  | unit
  | lsn (n : Int)
  | data (d : D)
  | outOfRange
  | bool (b : Bool)
  /-- what every opened store is given -/
  | replay (l : List (List (Int × D)))
  deriving DecidableEq, Repr

/-- `l` numbered from `b` on. -/
def entries : Int → List D → List (Int × D)
  | _, [] => []
  | b, d :: l => (b, d) :: entries (b + 1) l

/-- The number of the last record. -/
def SStore.last (t : SStore D) : Int := t.base + t.log.length - 1

/-- The number of the last record that survives a crash. -/
def SStore.lastFlushed (t : SStore D) : Int := t.base + t.flushed - 1

def SDev.format : SDev D := { stores := fun _ => none, pend := [] }

def SDev.set (s : SDev D) (id : Nat) (t : SStore D) : SDev D :=
  { s with stores := fun i => if i = id then some t else s.stores i }

/-- The first `k` pending appends reach the device. -/
def SDev.flushK (s : SDev D) (k : Nat) : SDev D :=
  { stores := fun id => (s.stores id).map (fun t => { t with flushed := t.flushed + (s.pend.take k).count id })
    pend := s.pend.drop k }

def SDev.flush (s : SDev D) : SDev D := s.flushK s.pend.length

/-- A device truncation: what was truncated in memory is gone for good. -/
def SDev.truncateDev (s : SDev D) : SDev D :=
  { s with stores := fun id => (s.stores id).map (fun t =>
      { t with base := t.start, log := t.log.drop (t.start - t.base).toNat,
               flushed := t.flushed - (t.start - t.base).toNat }) }

/-- A record that is there. -/
def SStore.get (t : SStore D) (lsn : Int) : Option D :=
  if t.start ≤ lsn then t.log[(lsn - t.base).toNat]? else none

/-- Cut off everything up to `upto`; beyond the last record the store becomes empty and goes on at `upto + 1`. -/
def SStore.cut (t : SStore D) (upto : Int) : SStore D :=
  if t.last < upto then { base := upto + 1, start := upto + 1, log := [], flushed := 0 }
  else { t with start := upto + 1 }

/-- Keep only the records up to `to`. -/
def SStore.keep (t : SStore D) (to : Int) : SStore D :=
  { t with log := t.log.take (to + 1 - t.base).toNat, flushed := (to + 1 - t.base).toNat }

/-- After a crash. -/
def SStore.crash (t : SStore D) : SStore D := { t with start := t.base, log := t.log.take t.flushed }

/-- One operation.  An operation on a store that does not exist changes nothing. -/
def SDev.step (s : SDev D) : Op D → SDev D × Out D
  | .create id => (s.set id { base := 0, start := 0, log := [], flushed := 0 }, .unit)
  | .append id d =>
    match s.stores id with
    | none => (s, .unit)
    | some t => ({ s.set id { t with log := t.log ++ [d] } with pend := s.pend ++ [id] }, .lsn (t.last + 1))
  | .flush => (s.flush, .unit)
  | .flushK k => (s.flushK k, .unit)
  | .read id lsn =>
    match s.stores id with
    | none => (s, .unit)
    | some t =>
      match t.get lsn with
      | none => (s, .outOfRange)
      | some d => (if lsn ≤ t.lastFlushed then s else s.flush, .data d)
  | .truncate id upto inMem =>
    match s.stores id with
    | none => (s, .unit)
    | some t =>
      if upto < t.start then (s, .bool false)
      else
        match s.flush.stores id with
        | none => (s, .unit)
        | some t' =>
          let s' := s.flush.set id (t'.cut upto)
          (if inMem then s' else s'.truncateDev, .bool true)
  | .truncateDev => (s.truncateDev, .unit)
  | .rollback id to =>
    match s.stores id with
    | none => (s, .unit)
    | some t =>
      if to = t.lastFlushed then (s, .bool true)
      else if t.lastFlushed < to ∨ to < t.start - 1 then (s, .bool false)
      else
        let s' := if t.flushed < t.log.length then s.flush else s
        (s'.set id (t.keep to), .bool true)
  | .remove id =>
    match s.stores id with
    | none => (s, .bool false)
    | some _ => ({ s with stores := fun i => if i = id then none else s.stores i }, .bool true)
  | .restart opened _ k =>
    let s' := s.flushK k
    ({ stores := fun id => if id ∈ opened then (s'.stores id).map SStore.crash else none, pend := [] },
      .replay (opened.map (fun id =>
        match s'.stores id with
        | none => []
        | some t => entries t.base (t.log.take t.flushed))))

/-- The uses the code supports.

* A truncation in memory stays within the store (a snapshot resync beyond its end is a device truncation).
* A rollback with unflushed appends of the store goes below the last flushed record.  To that record it is a no-op
  that keeps the appends, see `C37_pending_append_survives_violated`; beyond it it is refused.
* A store is removed when none of its appends are pending.
* A restart opens stores that were there.  A removed store stays on the device until a device truncation. -/
def Legal (s : SDev D) : Op D → Prop
  | .append id _ => (s.stores id).isSome
  | .read id _ => (s.stores id).isSome
  | .truncate id upto inMem => ∃ t, s.stores id = some t ∧ (inMem = true → upto ≤ t.last)
  | .rollback id to => ∃ t, s.stores id = some t ∧ (id ∈ s.pend → to < t.lastFlushed)
  | .remove id => id ∉ s.pend
  | .restart opened _ _ => ∀ id ∈ opened, (s.stores id).isSome
  | _ => True

/-! The code -/

/-- One operation of the device. -/
def Dev.step (c : Dev D) : Op D → Except LFault (Dev D × Out D)
  | .create id => (c.create id).map (fun c' => (c', .unit))
  | .append id d => (c.append id d).map (fun p => (p.1, .lsn p.2))
  | .flush => c.flush.map (fun c' => (c', .unit))
  | .flushK k => (c.flushK k).map (fun c' => (c', .unit))
  | .read id lsn => (c.read id lsn).map (fun p => (p.1, match p.2 with | none => .outOfRange | some d => .data d))
  | .truncate id upto inMem => (c.truncate id upto inMem).map (fun p => (p.1, .bool p.2))
  | .truncateDev => .ok (c.truncateDev, .unit)
  | .rollback id to => (c.rollback id to).map (fun p => (p.1, .bool p.2))
  | .remove id => .ok ((c.remove id).1, .bool (c.remove id).2)
  | .restart opened unopened k =>
    (c.restart opened unopened k).map (fun p => (p.1, .replay (opened.map p.2)))

/-- If a device truncation cuts anything, the key it picks is neither the end of a rollback record nor the marker of a
removed store.  The comparisons with these two are off by one (`log_dev.cpp` 675 and 1049): see
`C37_rollback_undone_violated` and `C54_removed_store_comes_back_violated`. -/
def Dev.NoClash (c : Dev D) : Prop :=
  0 < c.safeKey.idx → c.lastTrunc < c.safeKey.idx →
    (∀ r ∈ c.rolls, r.hi ≠ c.safeKey.idx) ∧ (∀ g ∈ c.garbage, g.1 ≠ c.safeKey.idx)

/-- The id reserver gives a free id, the set of unopened ids is a set, and no device truncation hits an off-by-one. -/
def Safe (c : Dev D) : Op D → Prop
  | .create id => c.first id = none
  | .truncateDev => c.NoClash
  | .truncate id upto false => ∀ c', c.truncate id upto true = .ok (c', true) → c'.NoClash
  | .restart _ unopened _ => unopened.Nodup
  | _ => True

/-- A history. -/
def Dev.exec (c : Dev D) : List (Op D) → Except LFault (Dev D × List (Out D))
  | [] => .ok (c, [])
  | o :: os =>
    match c.step o with
    | .error x => .error x
    | .ok (c1, r) =>
      match c1.exec os with
      | .error x => .error x
      | .ok (c2, rs) => .ok (c2, r :: rs)

def SDev.exec (s : SDev D) : List (Op D) → SDev D × List (Out D)
  | [] => (s, [])
  | o :: os => (((s.step o).1.exec os).1, (s.step o).2 :: ((s.step o).1.exec os).2)

/-- Every operation of the history is legal and safe where it is done. -/
def Allowed (c : Dev D) (s : SDev D) : List (Op D) → Prop
  | [] => True
  | o :: os => Legal s o ∧ Safe c o ∧ ∀ c' r, c.step o = .ok (c', r) → Allowed c' (s.step o).1 os

end HS.Log
