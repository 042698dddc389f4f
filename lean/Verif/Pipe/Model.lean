/-!
# Threads that append to one log device while others flush it

Models `LogDev::append_async` (/repo/src/lib/logstore/log_dev.cpp 289-301), `prepare_flush` 406-430,
`flush_if_necessary` 437-465, `flush_under_guard` 467-479, `flush` 481-542, `on_flush_completion`
544-614, `do_load` 210-270, and their callers in `HomeLogStore`: `write_async` and `append_async`
(log_store.cpp 48-93), `write_and_flush` 95-115, `flush` 350-356. Each atomic access to what the
threads share is a step of its own, so the calls interleave in every way that the code allows.

Simplifications, for the whole file:
* a record is the call that made it, its size and its bytes; store id and sequence number are part
  of the bytes. The records of a store, its truncation and rollback are in `Verif/Log`;
* a log group is on disk whole or not at all, and a place whose write has failed holds no group (the bytes of groups are in `Verif/Log/Group.lean`);
  what remains on disk behind the place where a start stopped reading is not read again;
* the checksum of a group is the number of its place: `prev_grp_crc` of a group fits the group that
  is in the place before, and no other;
* the journal has room for every group (`alloc_next_append_blk`, `Verif/Journal`);
* `is_stopping`, `is_ready` and the timer are not modelled. A flush by the timer is a call of `flush`.
-/
namespace HS.Pipe

variable {D : Type}

/-- A log record (`log_record`, log_dev.hpp 95-108): the call that made it (`context`), the size and
the bytes of its data. -/
structure Rec (D : Type) where
  call : Nat
  sz : Nat
  data : D
deriving DecidableEq, Repr

/-- A log group on disk (`log_group_header`, log_dev.hpp 126-148): `prev_grp_crc`, `start_log_idx` and
the records. -/
structure Grp (D : Type) where
  prev : Nat
  start : Nat
  recs : List (Rec D)
deriving DecidableEq, Repr

/-- What was called: `append_async` or `write_async`; `write_and_flush`; `flush`. -/
inductive Kind
  | append | writeFlush | flush
deriving DecidableEq, Repr

/-- How far a call has come.
* `called`: made; `reserved`: has its index (log_dev.cpp 294); `counted`: has added its size to
  `m_pending_flush_size` (295); `filed`: has created its record (296);
* `locked`: has `m_flush_mtx`; `bound n`: has read `m_log_idx` as `n` (488) and there was something
  to flush; `got n g`: has prepared a group of the records `g` (498-499); `paid n g`: has subtracted
  its size from `m_pending_flush_size` (504-512); `wrote n g`: has written the group (531);
* `ret b`: returned, `b` being what its flush returned; `lost`: the process ended before. -/
inductive Ph (D : Type)
  | called | reserved | counted | filed | locked
  | bound (n : Nat)
  | got (n : Nat) (g : List (Rec D))
  | paid (n : Nat) (g : List (Rec D))
  | wrote (n : Nat) (g : List (Rec D))
  | ret (b : Bool)
  | lost
deriving DecidableEq, Repr

/-- A call: its arguments, the index of its record, how far it has come. -/
structure Call (D : Type) where
  kind : Kind
  sz : Nat
  data : D
  idx : Option Nat
  ph : Ph D

/-- The log device, the callbacks and the calls. -/
structure St (D : Type) where
  /-- `LogGroup::max_records_in_a_batch` (log_dev.hpp 239-240). -/
  lim : Nat
  /-- There is a fault containment service (`hs()->has_fc_service()`). -/
  fc : Bool
  /-- `m_log_idx`. -/
  next : Nat
  /-- `m_last_flush_idx + 1`. -/
  last : Nat
  /-- `m_log_records`: the records that are created and not yet flushed. -/
  tracker : Nat → Option (Rec D)
  /-- `m_pending_flush_size`. -/
  pend : Int
  /-- The places of the journal that were written, in order; `none` where the write failed. -/
  disk : List (Option (Grp D))
  /-- `m_last_crc`: the number of places up to and with that of the last group completed. -/
  chain : Nat
  /-- The records whose stores were told that they are written (`on_write_completion`) or that were
  found at start (`on_log_found`), in order. -/
  flushed : List (Rec D)
  /-- The call that has `m_flush_mtx`. -/
  lock : Option Nat
  /-- The calls whose callback is yet to run (log_dev.cpp 595-613). -/
  queue : List Nat
  /-- The calls whose callback has run. -/
  acked : List Nat
  /-- The calls made. -/
  calls : Nat → Option (Call D)
  /-- The process has stopped itself. -/
  dead : Bool

/-- A log device that was just created. -/
def St.init (lim : Nat) (fc : Bool) : St D :=
  { lim := lim, fc := fc, next := 0, last := 0, tracker := fun _ => none, pend := 0, disk := []
    chain := 0, flushed := [], lock := none, queue := [], acked := [], calls := fun _ => none
    dead := false }

/-- Replace one value of a map. -/
def upd {α : Type} (f : Nat → α) (k : Nat) (v : α) : Nat → α := fun x => if x = k then v else f x

/-- A call comes further. -/
def St.setPh (s : St D) (c : Nat) (x : Call D) (p : Ph D) : St D :=
  { s with calls := upd s.calls c (some { x with ph := p }) }

/-- `flush` returns `b`, and with it the call: the lock is released (`unique_lock` in
`flush_if_necessary` 457-461 and `flush_under_guard` 468). -/
def St.finish (s : St D) (c : Nat) (x : Call D) (b : Bool) : St D :=
  { s.setPh c x (.ret b) with lock := none }

/-- `foreach_contiguous_active` in `prepare_flush` (log_dev.cpp 411-419): the records from index `i`
on, at most `k`, up to the first that is not created. -/
def contiguous (t : Nat → Option (Rec D)) : Nat → Nat → List (Rec D)
  | _, 0 => []
  | i, k + 1 =>
    match t i with
    | none => []
    | some r => r :: contiguous t (i + 1) k

/-- `LogGroup::actual_data_size` (log_group.cpp 83). -/
def bytes (g : List (Rec D)) : Nat := (g.map Rec.sz).sum

/-- What becomes of a write to the disk: it succeeds; it fails; it fails but the group is on disk. -/
inductive Wr
  | ok | failed | failedWritten
deriving DecidableEq, Repr

/-- `log_stream_reader::next_group` (log_stream.cpp 37-159), again and again: the groups up to the
first place without a group, or with one that does not follow the one before. -/
def accepted : Nat → List (Option (Grp D)) → List (Grp D)
  | p, some g :: t => if g.prev = p then g :: accepted (p + 1) t else []
  | _, _ => []

/-- `do_load` (log_dev.cpp 234) requires that each group starts where the one before has ended. -/
def startsOk : Nat → List (Grp D) → Bool
  | _, [] => true
  | i, g :: t => g.start = i && startsOk (i + g.recs.length) t

/-- The records of groups. -/
def allRecs (l : List (Grp D)) : List (Rec D) := l.flatMap Grp.recs

/-- The records that a start finds on the disk. -/
def recover (d : List (Option (Grp D))) : List (Rec D) := allRecs (accepted 0 d)

/-- The process has ended: the calls that had not returned never do. -/
def Call.cut (x : Call D) : Call D :=
  match x.ph with
  | .ret _ => x
  | _ => { x with ph := .lost }

/-- Behind the groups found there is one that does not follow them (log_stream.cpp 86). -/
def strayNext (d : List (Option (Grp D))) : Bool :=
  match d[(accepted 0 d).length]? with
  | some (some _) => true
  | _ => false

/-- The process ends, by itself or not, and is started again (`LogDev::start`, log_dev.cpp 53-111, and
`do_load`): it finds what is on disk; the next write follows the last group found (line 269). The
first `k` places are in chunks before the last one: a group that does not follow the one before is
taken for the end of the log only in the last chunk (`is_offset_at_last_chunk`, journal_vdev.cpp
743-748), else the process stops itself (log_stream.cpp 92-94). -/
def St.restart (s : St D) (k : Nat) : St D :=
  let gs := accepted 0 s.disk
  let n := (allRecs gs).length
  let bad := !startsOk 0 gs || (strayNext s.disk && decide (gs.length < k))
  { s with
    next := n, last := n, tracker := fun _ => none, pend := 0, disk := if bad then s.disk else gs.map some
    chain := gs.length, flushed := allRecs gs, lock := none, queue := []
    calls := fun c => (s.calls c).map Call.cut
    dead := bad }

/-- A step: `call`, a new call with its arguments; `reserve` … `fin`, the steps of
`append_async`, `fin` being the return without a flush; `lock` … `endFlush`, the steps of `flush`;
`callback i`, the `i`th of the callbacks yet to run is run; `crash k`, the process ends and is started
again, `k` places being in chunks before the last one. -/
inductive Ev (D : Type)
  | call (c : Nat) (k : Kind) (sz : Nat) (data : D)
  | reserve (c : Nat) | count (c : Nat) | file (c : Nat) | fin (c : Nat)
  | lock (c : Nat) | bound (c : Nat) | prep (c : Nat) | pay (c : Nat) | write (c : Nat) (w : Wr)
  | complete (c : Nat)
  | callback (i : Nat)
  | crash (k : Nat)

/-- `m_log_idx.fetch_add(1)` (log_dev.cpp 294). -/
def St.reserve (s : St D) (c : Nat) (x : Call D) : Option (St D) :=
  match x.kind, x.ph with
  | .append, .called | .writeFlush, .called =>
    some { s.setPh c { x with idx := some s.next } .reserved with next := s.next + 1 }
  | _, _ => none

/-- `m_pending_flush_size.fetch_add(data.size())` (295). -/
def St.count (s : St D) (c : Nat) (x : Call D) : Option (St D) :=
  match x.ph with
  | .reserved => some { s.setPh c x .counted with pend := s.pend + x.sz }
  | _ => none

/-- `m_log_records->create(idx, …)` (296). -/
def St.file (s : St D) (c : Nat) (x : Call D) : Option (St D) :=
  match x.ph, x.idx with
  | .counted, some i => some { s.setPh c x .filed with tracker := upd s.tracker i (some ⟨c, x.sz, x.data⟩) }
  | _, _ => none

/-- `append_async` returns without having flushed: inline flush is off, the thresholds are not met
or another flush goes on (298, 452-464). -/
def St.fin (s : St D) (c : Nat) (x : Call D) : Option (St D) :=
  match x.kind, x.ph with
  | .append, .filed => some (s.setPh c x (.ret false))
  | _, _ => none

/-- The call gets `m_flush_mtx`: by `try_to_lock` (457) for an append, else by `flush_guard` (468). -/
def St.getLock (s : St D) (c : Nat) (x : Call D) : Option (St D) :=
  match s.lock, x.kind, x.ph with
  | none, .append, .filed | none, .writeFlush, .filed | none, .flush, .called =>
    some { s.setPh c x .locked with lock := some c }
  | _, _, _ => none

/-- `new_idx` is read; nothing to flush (488-492). -/
def St.readBound (s : St D) (c : Nat) (x : Call D) : Option (St D) :=
  match x.ph with
  | .locked => if s.next ≤ s.last then some (s.finish c x false) else some (s.setPh c x (.bound s.next))
  | _ => none

/-- The loop of `flush` (497-541) goes on or ends; `prepare_flush` with room for four records more
than are to be flushed (498-499), but not for more than `max_records_in_a_batch` (`LogGroup::reset`,
log_group.cpp 45-59; `add_record` 76-81). No record: `flush` returns false (500-503). -/
def St.prep (s : St D) (c : Nat) (x : Call D) : Option (St D) :=
  match x.ph with
  | .bound n =>
    if n ≤ s.last then some (s.finish c x true)
    else
      match contiguous s.tracker s.last (min (n - s.last + 4) s.lim) with
      | [] => some (s.finish c x false)
      | r :: g => some (s.setPh c x (.got n (r :: g)))
  | _ => none

/-- `m_pending_flush_size.fetch_sub` (504). If more is subtracted than is pending: with a fault
containment service `flush` returns false (505-509), else the process stops itself (511). -/
def St.pay (s : St D) (c : Nat) (x : Call D) : Option (St D) :=
  match x.ph with
  | .got n g =>
    let s' := { s with pend := s.pend - bytes g }
    if s.pend < bytes g then
      if s.fc then some (s'.finish c x false) else some { s' with dead := true }
    else some (s'.setPh c x (.paid n g))
  | _ => none

/-- The group gets the next place, which it uses up whatever becomes of the write
(`process_pwrite_offset`, journal_vdev.cpp 311-325), and is written (531). On an error `flush`
returns false (532-536). -/
def St.write (s : St D) (c : Nat) (x : Call D) (w : Wr) : Option (St D) :=
  match x.ph with
  | .paid n g =>
    let grp : Grp D := ⟨s.chain, s.last, g⟩
    match w with
    | .ok => some { s.setPh c x (.wrote n g) with disk := s.disk ++ [some grp] }
    | .failed => some { s.finish c x false with disk := s.disk ++ [none] }
    | .failedWritten => some { s.finish c x false with disk := s.disk ++ [some grp] }
  | _ => none

/-- `on_flush_completion` (544-614): the stores are told, the records leave the tracker, the
callbacks are queued. They run at once or on other threads, in any order (the map `req_map`). Then
the loop of `flush` again. -/
def St.complete (s : St D) (c : Nat) (x : Call D) : Option (St D) :=
  match x.ph with
  | .wrote n g =>
    let upto := s.last + g.length
    some { s.setPh c x (.bound n) with
      last := upto, chain := s.disk.length, flushed := s.flushed ++ g
      tracker := fun i => if i < upto then none else s.tracker i
      queue := s.queue ++ g.map Rec.call }
  | _ => none

/-- A callback runs (log_dev.cpp 597-602). -/
def St.callback (s : St D) (i : Nat) : Option (St D) :=
  match s.queue[i]? with
  | some c => some { s with queue := s.queue.eraseIdx i, acked := s.acked ++ [c] }
  | none => none

/-- A step of the call `c`. -/
def St.on (s : St D) (c : Nat) (f : Call D → Option (St D)) : Option (St D) :=
  match s.calls c with
  | some x => f x
  | none => none

/-- One step; `none`: it cannot be done now. -/
def St.step (s : St D) : Ev D → Option (St D)
  | .crash k => some (s.restart k)
  | .call c k sz d =>
    if s.dead then none
    else
      match s.calls c with
      | none => some { s with calls := upd s.calls c (some ⟨k, sz, d, none, .called⟩) }
      | some _ => none
  | .callback i => if s.dead then none else s.callback i
  | .reserve c => if s.dead then none else s.on c (s.reserve c)
  | .count c => if s.dead then none else s.on c (s.count c)
  | .file c => if s.dead then none else s.on c (s.file c)
  | .fin c => if s.dead then none else s.on c (s.fin c)
  | .lock c => if s.dead then none else s.on c (s.getLock c)
  | .bound c => if s.dead then none else s.on c (s.readBound c)
  | .prep c => if s.dead then none else s.on c (s.prep c)
  | .pay c => if s.dead then none else s.on c (s.pay c)
  | .write c w => if s.dead then none else s.on c (fun x => s.write c x w)
  | .complete c => if s.dead then none else s.on c (s.complete c)

/-- A history. -/
def St.run (s : St D) : List (Ev D) → Option (St D)
  | [] => some s
  | e :: es =>
    match s.step e with
    | some s' => s'.run es
    | none => none

end HS.Pipe
