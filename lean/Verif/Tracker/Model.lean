import Verif.Common
import Mathlib.Data.List.Dedup
/-!
# Model of the pending-read tracker of the data service

Models `src/lib/blkdata_svc/blk_read_tracker.{hpp,cpp}` and its use by
`BlkDataService::async_read` (blkdata_service.cpp:81-145) and `async_free_blk` (276-296).

The hash map of records is taken to be linearizable per key (`sisl::SimpleHashMap` locks
the bucket during `upsert_or_delete`/`update`; it is not part of the repository): one map
operation is one step, and steps of different threads interleave arbitrarily.
A `MultiBlkId` read is one read per piece, as `async_read` itself does (lines 105-112).
-/
namespace HS.Tracker

/-- A piece of an id: chunk, first block, number of blocks (blk.h:47-56). -/
structure Piece where
  chunk : Nat
  blk : Nat
  n : Nat
  deriving DecidableEq, Repr

/-- Key of a record: chunk number and first block of its group
(`base_blkid`, blk_read_tracker.cpp:40; the count in the key is always the group size). -/
abbrev Key := Nat × Nat

/-- `sisl::round_down(x, epr)`. -/
def roundDown (epr x : Nat) : Nat := x - x % epr

/-- The loop of `merge`, blk_read_tracker.cpp:39 and 70: groups from `cur` to `last` in
steps of the group size.  (`epr = 0` would be a division by zero in `round_down`; the
theorems assume `0 < epr`.  Block numbers are below 2^31 and counts below 2^16, so the
32-bit arithmetic of the loop does not wrap.) -/
def groupsFrom (epr cur last : Nat) : List Nat :=
  if _h : cur ≤ last ∧ 0 < epr then cur :: groupsFrom epr (cur + epr) last else []
termination_by last + 1 - cur

/-- The keys `merge` visits for one piece, blk_read_tracker.cpp:33-40. -/
def keysOf (epr : Nat) (p : Piece) : List Key :=
  (groupsFrom epr (roundDown epr p.blk) (roundDown epr (p.blk + p.n - 1))).map
    (fun g => (p.chunk, g))

/-- `BlkTrackRecord`, blk_read_tracker.hpp:84-88. -/
structure Rec where
  key : Key
  ref : Int
  waiters : List Nat
  deriving DecidableEq, Repr

/-- Where a read is: inserting its remaining keys (`m_blk_read_tracker->insert(bid)`,
blkdata_service.cpp:86), I/O outstanding (line 88), removing its remaining keys in the
completion (line 89), finished. -/
inductive RPhase where
  | inserting (todo : List Key)
  | io
  | removing (todo : List Key)
  | finished
  deriving DecidableEq, Repr

structure Read where
  piece : Piece
  ph : RPhase
  deriving DecidableEq, Repr

/-- A `blk_track_waiter` (blk_read_tracker.hpp:28-50): the thread in `wait_on` is still
visiting keys and holds a shared pointer (`scanning`), or has returned. -/
structure Wait where
  pieces : List Piece
  scanning : Option (List Key)
  fired : Nat
  deriving DecidableEq, Repr

structure St where
  recs : List Rec
  reads : List Read
  waits : List Wait
  deriving DecidableEq, Repr

def init : St := ⟨[], [], []⟩

/-- Map lookup. -/
def find (recs : List Rec) (k : Key) : Option Rec := recs.find? (fun r => r.key = k)

/-- Remove the record of a key. -/
def erase (recs : List Rec) (k : Key) : List Rec := recs.filter (fun r => r.key ≠ k)

/-- `upsert_or_delete` with `new_ref_count = 1`, blk_read_tracker.cpp:42-49. -/
def incr (recs : List Rec) (k : Key) : List Rec :=
  match find recs k with
  | some r => { r with ref := r.ref + 1 } :: erase recs k
  | none => { key := k, ref := 1, waiters := [] } :: erase recs k

/-- `upsert_or_delete` with `new_ref_count = -1`, blk_read_tracker.cpp:50-58: the record
is deleted when the count reaches zero; the second result is the list of shared pointers
the deleted record held.  (A missing record is created with count -1 in a release build.) -/
def decr (recs : List Rec) (k : Key) : List Rec × List Nat :=
  match find recs k with
  | some r =>
    if r.ref - 1 = 0 then (erase recs k, r.waiters)
    else ({ r with ref := r.ref - 1 } :: erase recs k, [])
  | none => ({ key := k, ref := -1, waiters := [] } :: erase recs k, [])

/-- `update` of the wait-on case, blk_read_tracker.cpp:59-65: nothing happens if the
record does not exist. -/
def push (recs : List Rec) (k : Key) (w : Nat) : List Rec :=
  match find recs k with
  | some r => { r with waiters := r.waiters ++ [w] } :: erase recs k
  | none => recs

/-- Some record still holds the waiter's shared pointer. -/
def held (recs : List Rec) (w : Nat) : Bool := recs.any (fun r => r.waiters.contains w)

/-- The waiter `w` has lost a reference: its destructor runs the callback
(blk_read_tracker.hpp:36-43) if neither the thread in `wait_on` nor a record holds one. -/
def drop (s : St) (w : Nat) : St :=
  match s.waits[w]? with
  | some x =>
    if x.scanning = none ∧ held s.recs w = false then
      { s with waits := s.waits.set w { x with fired := x.fired + 1 } }
    else s
  | none => s

inductive Act where
  /-- a thread calls `insert(piece)` (in `async_read`) -/
  | readStart (p : Piece)
  /-- next map operation of the read's `insert` -/
  | readInsert (r : Nat)
  /-- `insert` returned, the device read is issued -/
  | readIo (r : Nat)
  /-- the device read completed; `remove(piece)` is called -/
  | readComplete (r : Nat)
  /-- next map operation of the read's `remove` -/
  | readRemove (r : Nat)
  /-- `remove` returned -/
  | readEnd (r : Nat)
  /-- a thread calls `wait_on(pieces, cb)` (in `async_free_blk`) -/
  | waitStart (ps : List Piece)
  /-- next map operation of `wait_on` -/
  | waitPush (w : Nat)
  /-- `wait_on` returns: the caller's shared pointer is dropped -/
  | waitReturn (w : Nat)
  deriving DecidableEq, Repr

/-- One step of one thread; `none`: not enabled.  A deleted record drops its shared
pointers one by one, duplicates of the same waiter count once (`dedup`-ing is what "last
reference dropped" means for a waiter registered twice in the same record). -/
def step (epr : Nat) (s : St) : Act → Option St
  | .readStart p => some { s with reads := s.reads ++ [⟨p, .inserting (keysOf epr p)⟩] }
  | .readInsert i =>
    match s.reads[i]? with
    | some ⟨p, .inserting (k :: ks)⟩ =>
      some { s with recs := incr s.recs k, reads := s.reads.set i ⟨p, .inserting ks⟩ }
    | _ => none
  | .readIo i =>
    match s.reads[i]? with
    | some ⟨p, .inserting []⟩ => some { s with reads := s.reads.set i ⟨p, .io⟩ }
    | _ => none
  | .readComplete i =>
    match s.reads[i]? with
    | some ⟨p, .io⟩ => some { s with reads := s.reads.set i ⟨p, .removing (keysOf epr p)⟩ }
    | _ => none
  | .readRemove i =>
    match s.reads[i]? with
    | some ⟨p, .removing (k :: ks)⟩ =>
      let d := decr s.recs k
      some (d.2.dedup.foldl drop
        { s with recs := d.1, reads := s.reads.set i ⟨p, .removing ks⟩ })
    | _ => none
  | .readEnd i =>
    match s.reads[i]? with
    | some ⟨p, .removing []⟩ => some { s with reads := s.reads.set i ⟨p, .finished⟩ }
    | _ => none
  | .waitStart ps =>
    some { s with waits := s.waits ++ [⟨ps, some (ps.flatMap (keysOf epr)), 0⟩] }
  | .waitPush w =>
    match s.waits[w]? with
    | some ⟨ps, some (k :: ks), f⟩ =>
      some { s with recs := push s.recs k w, waits := s.waits.set w ⟨ps, some ks, f⟩ }
    | _ => none
  | .waitReturn w =>
    match s.waits[w]? with
    | some ⟨ps, some [], f⟩ =>
      some (drop { s with waits := s.waits.set w ⟨ps, none, f⟩ } w)
    | _ => none

/-- A state the tracker can be in after some interleaving. -/
def Reach (epr : Nat) (s s' : St) : Prop := ∃ as, runOpt (step epr) s as = some s'

end HS.Tracker
