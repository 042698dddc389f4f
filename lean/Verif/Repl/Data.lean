/-!
# Requests of a replicated device and the blocks of their data

Models, in `/repo/src/lib/replication`:

* `repl_dev/raft_repl_dev.cpp` — `async_alloc_write` (1004-1088), `on_push_data_received`
  (1139-1239), `applier_create_req` (1241-1290), `notify_after_data_written` (1292-1351),
  `wait_for_data_receive` (1353-1396), `fetch_data_from_remote` (1433-1514: the handling of a failed
  fetch), `handle_fetch_data_response` (1604-1670), `handle_rollback` (1683-1701), `handle_commit`
  (1703-1752), `handle_error` (1777-1833), `raft_event` (2358-2476: entries received from the
  leader), `gc_repl_reqs` (2614-2696), `on_log_found` (2700-2800), `clear_chunk_req` (2899-2933);
* `repl_dev/common.cpp` — `repl_req_ctx::init` (12-59), `alloc_local_blks` (135-171),
  `save_pushed_data` / `save_fetched_data` (183-218), `add_state_if_not_already` (222-234);
* `repl_dev/raft_state_machine.cpp` — `localize_journal_entry_prepare` (56-126),
  `localize_journal_entry_finish` (128-183), `commit_ext` (195-212), `rollback_ext` (259-269),
  `link_lsn_to_req` / `unlink_lsn_to_req` (304-325);
* `log_store/repl_log_store.cpp` — `append` (9-25), `write_at` (27-39), `end_of_append_batch`
  (41-110).

A step is what one thread does without another one being able to interfere through the fields that
are modelled: a callback between two waits, or the part of it between reading a state and acting on
it where the code does not do both under a lock.

Simplifications.

* Every request carries data, and the data takes one block id, which is one number: that the
  allocator hands out ids that overlap no other allocated id is C08, C11–C14.  Requests without data
  use no block.
* The content of a block is the object whose data was written last (`Key.obj`); a request is
  identified by the number of its key (server, term, data sequence number) and the object.  Which
  object a key carries is fixed, as the journal entry and the push carry the same user header.
* The listener keeps the pairs (object, block) that were committed and that it has not freed, `app`.
  Asked for allocation hints it may answer with the block of an object that it holds
  (`committed_blk_id`), as the listener of the project's own tests does
  (src/tests/test_common/raft_repl_test_base.hpp:352-364).
* A block that is freed can be allocated again at once.
* The Raft library appends every entry at the end of the log, once; removes entries from the end,
  when the log on disk is complete, and only ones that are not committed; commits entry `upto + 1`
  when it is on this member's disk.
* Expiry (`is_expired`, the comparison of data sequence numbers) is left to the environment: the
  garbage collector may find any request in the table expired.
* Restart: what was committed stays known to the listener and allocated (C65, C66), the other entries
  on disk are replayed.
-/
namespace HS.Repl.Data

/-- A request's key, and the object its data is of (`repl_key`, repl_dev.h:79-97). -/
structure Key where
  num : Nat
  obj : Nat
  deriving DecidableEq, Repr

/-- A request object (`repl_req_ctx`, repl_dev.h:137-288).  `blk` is the local block id;
`BLK_ALLOCATED` is set exactly when it is there. -/
structure Req where
  key : Key
  prop : Bool            -- `m_is_proposer`
  blk : Option Nat
  recv : Bool            -- DATA_RECEIVED
  written : Bool         -- DATA_WRITTEN (for a proposer: its write has completed)
  comm : Bool            -- DATA_COMMITTED
  flushed : Bool         -- LOG_FLUSHED
  err : Bool             -- ERRORED
  vol : Bool             -- `m_is_volatile`
  lsn : Option Nat       -- `m_lsn`
  deriving DecidableEq, Repr

/-- A member's device.  Request objects are numbered in the order of their creation. -/
structure St where
  reqs : List Req
  kmap : Key → Option Nat        -- `m_repl_key_req_map`
  lmap : Nat → Option Nat        -- `m_lsn_req_map`
  log : List (Key × Nat)         -- entry `lsn` is `log[lsn-1]`: key and local block
  dur : Nat                      -- entries on disk
  upto : Nat                     -- `m_commit_upto_lsn`
  used : Nat → Bool              -- allocated blocks
  disk : Nat → Option Nat        -- the object whose data a block holds
  fly : List Nat                 -- requests whose data write is under way
  doom : List Nat                -- requests a thread has decided to fail
  app : List (Nat × Nat)         -- the listener: (object, block)

/-- An empty device. -/
def St.init : St :=
  { reqs := [], kmap := fun _ => none, lmap := fun _ => none, log := [], dur := 0, upto := 0,
    used := fun _ => false, disk := fun _ => none, fly := [], doom := [], app := [] }

/-- Outcome: `na` the step cannot happen now; `fault` the process aborts (a release assertion) or
follows a null pointer. -/
inductive Res where
  | ok (s : St)
  | na
  | fault

/-- A function changed at one point. -/
def upd {α β : Type} [DecidableEq α] (f : α → β) (a : α) (b : β) : α → β :=
  fun x => if x = a then b else f x

/-- Change request `r`. -/
def St.setReq (s : St) (r : Nat) (f : Req → Req) : St := { s with reqs := s.reqs.modify r f }

/-- Give back the block of a request, if it has one (`async_free_blk`). -/
def St.release (s : St) (q : Req) : St :=
  match q.blk with
  | none => s
  | some b => { s with used := upd s.used b false }

/-- The steps. -/
inductive Op where
  /-- `applier_create_req` for `k`, from either channel: the allocator gives `b`; `hint`: the
  listener answers that it holds the object, in block `b`. -/
  | create (k : Key) (b : Nat) (hint : Bool)
  /-- The same, but there is no space (common.cpp:157-161). -/
  | createFail (k : Key)
  /-- `async_alloc_write` by a user of this member. -/
  | propose (k : Key) (b : Nat) (hint : Bool)
  /-- Data for request `r` has come, pushed or fetched. -/
  | save (r : Nat)
  /-- The write of the data of request `r` completes. -/
  | wdone (r : Nat)
  /-- It fails. -/
  | wfail (r : Nat)
  /-- A thread finds that data for `r` has not come: the wait has timed out, or the fetch failed. -/
  | doom (r : Nat)
  /-- That thread calls `handle_error`. -/
  | err (r : Nat)
  /-- Raft does not accept the proposer's request `r`. -/
  | reject (r : Nat)
  /-- Raft appends the entry of `k`. -/
  | append (k : Key)
  /-- `end_of_append_batch` for the next entry. -/
  | flush
  /-- Raft removes the last entry. -/
  | rollback
  /-- Raft commits the next entry. -/
  | commit
  /-- The user frees a block it holds. -/
  | free (o b : Nat)
  /-- `gc_repl_reqs` finds request `r` expired. -/
  | gc (r : Nat)
  /-- `clear_chunk_req` comes to request `r`. -/
  | clear (r : Nat)
  /-- Crash and restart. -/
  | restart
  deriving DecidableEq, Repr

/-- A new request object for `k` (common.cpp:12-59). -/
def Req.fresh (k : Key) (prop : Bool) : Req :=
  { key := k, prop := prop, blk := none, recv := false, written := false, comm := false,
    flushed := false, err := false, vol := true, lsn := none }

/-- `alloc_local_blks` (common.cpp:135-171) on request `r` for object `o`: with the listener's hint the
request takes the committed block and is marked received, written and committed; else `b` is taken
from the allocator, which never gives an allocated block. -/
def St.alloc (s : St) (r : Nat) (o b : Nat) (hint : Bool) : Res :=
  if hint then
    if (o, b) ∈ s.app then
      .ok (s.setReq r fun q => { q with blk := some b, recv := true, written := true, comm := true })
    else .na
  else if s.used b then .na
  else .ok { s.setReq r (fun q => { q with blk := some b }) with used := upd s.used b true }

/-- `applier_create_req` (raft_repl_dev.cpp:1241-1290): the request of the table, or a new one put into
it; when it has no block, it gets one. -/
def St.create (s : St) (k : Key) (b : Nat) (hint : Bool) : Res :=
  match s.kmap k with
  | some r =>
    match s.reqs[r]? with
    | none => .na
    | some q =>
      match q.blk with
      | some _ => .ok s
      | none => s.alloc r k.obj b hint
  | none =>
    St.alloc { s with reqs := s.reqs ++ [Req.fresh k false], kmap := upd s.kmap k (some s.reqs.length) }
      s.reqs.length k.obj b hint

/-- `applier_create_req` when there is no space (raft_repl_dev.cpp:1265-1283): a new request stays in
the table, without a block. -/
def St.createFail (s : St) (k : Key) : Res :=
  match s.kmap k with
  | some _ => .ok s
  | none =>
    .ok { s with reqs := s.reqs ++ [Req.fresh k false], kmap := upd s.kmap k (some s.reqs.length) }

/-- `async_alloc_write` (raft_repl_dev.cpp:1004-1088): a new request with a block; when the listener
holds the object already the request fails with DATA_DUPLICATED (1036-1040, 1799-1804: out of the
table, the block is not given back); else the data is written. -/
def St.propose (s : St) (k : Key) (b : Nat) (hint : Bool) : Res :=
  match s.kmap k with
  | some _ => .na
  | none =>
    let r := s.reqs.length
    match St.alloc { s with reqs := s.reqs ++ [Req.fresh k true], kmap := upd s.kmap k (some r) }
        r k.obj b hint with
    | .ok s' =>
      if hint then
        .ok { s'.setReq r (fun q => { q with err := true }) with kmap := upd s'.kmap k none }
      else .ok { s' with fly := r :: s'.fly }
    | o => o

/-- `save_pushed_data` / `save_fetched_data` and the start of the write (raft_repl_dev.cpp:1190-1203,
1624-1640): nothing when data was received before; else the write to the request's block starts.
Whether the request has been failed meanwhile is not looked at. -/
def St.save (s : St) (r : Nat) : Res :=
  match s.reqs[r]? with
  | none => .na
  | some q =>
    if q.prop = true ∨ q.blk = none then .na
    else if q.recv then .ok s
    else .ok { s.setReq r (fun q => { q with recv := true }) with fly := r :: s.fly }

/-- The write completes (raft_repl_dev.cpp:1057-1078, 1204-1238, 1641-1660). -/
def St.wdone (s : St) (r : Nat) : Res :=
  match s.reqs[r]? with
  | none => .na
  | some q =>
    match q.blk with
    | none => .na
    | some b =>
      if r ∈ s.fly then
        .ok { s.setReq r (fun q => { q with written := true }) with
              disk := upd s.disk b (some q.key.obj), fly := s.fly.erase r }
      else .na

/-- Whether the request linked to a number is on disk: it is not volatile any more
(raft_repl_dev.cpp:1789-1793). -/
def St.onDisk (s : St) : Option Nat → Bool
  | none => false
  | some l =>
    match s.lmap l with
    | none => false
    | some r =>
      match s.reqs[r]? with
      | none => false
      | some q => !q.vol

/-- `handle_error` with an error other than DATA_DUPLICATED (raft_repl_dev.cpp:1777-1833): once per
request; out of the table, whichever request is there under its key; abort when the entry of the
request's number is on disk already; its block is given back. -/
def St.handleError (s : St) (r : Nat) : Res :=
  match s.reqs[r]? with
  | none => .na
  | some q =>
    if q.err then .ok s
    else
      let s1 := { s.setReq r (fun q => { q with err := true }) with kmap := upd s.kmap q.key none }
      if s1.onDisk q.lsn then .fault else .ok (s1.release q)

/-- The write fails (raft_repl_dev.cpp:1060-1063, 1206-1210). -/
def St.wfail (s : St) (r : Nat) : Res :=
  if r ∈ s.fly then St.handleError { s with fly := s.fly.erase r } r else .na

/-- A thread looks whether data has come and finds that it has not (raft_repl_dev.cpp:1388-1394 and
2453-2456; 1499-1501). -/
def St.doomed (s : St) (r : Nat) : Res :=
  match s.reqs[r]? with
  | none => .na
  | some q => if q.prop = true ∨ q.recv = true then .na else .ok { s with doom := r :: s.doom }

/-- … and calls `handle_error` (raft_repl_dev.cpp:2454, 1500).  Only requests that came from another
member are waited for. -/
def St.giveUp (s : St) (r : Nat) : Res :=
  match s.reqs[r]? with
  | none => .na
  | some q =>
    if r ∈ s.doom ∧ q.prop = false then St.handleError { s with doom := s.doom.erase r } r else .na

/-- `propose_to_raft` fails (raft_repl_dev.cpp:1076-1077), after the data was written. -/
def St.reject (s : St) (r : Nat) : Res :=
  match s.reqs[r]? with
  | none => .na
  | some q =>
    if q.prop = true ∧ q.written = true ∧ q.lsn = none then s.handleError r else .na

/-- `ReplLogStore::append` (repl_log_store.cpp:9-25) with `localize_journal_entry_finish`
(raft_state_machine.cpp:128-183): the entry names the block of the request that the table has for its
key; the request is linked to the number (`insert` keeps an older link, 315-320).  A proposer's entry
is proposed when its data is written. -/
def St.append (s : St) (k : Key) : Res :=
  match s.kmap k with
  | none => .na
  | some r =>
    match s.reqs[r]? with
    | none => .na
    | some q =>
      match q.blk with
      | none => .na
      | some b =>
        if (q.prop = true ∧ q.written = false) ∨ q.lsn ≠ none ∨
            (∃ e ∈ s.log.drop s.upto, e.1 = k) then .na
        else
          let l := s.log.length + 1
          .ok { s.setReq r (fun q => { q with lsn := some l }) with
                log := s.log ++ [(k, b)],
                lmap := if (s.lmap l).isSome then s.lmap else upd s.lmap l (some r) }

/-- `end_of_append_batch` (repl_log_store.cpp:41-110) for entry `dur + 1`: wait until the data of the
request linked to the number is written (a proposer's is); the entry goes to disk; the request is
marked. -/
def St.flush (s : St) : Res :=
  if s.dur < s.log.length then
    match s.lmap (s.dur + 1) with
    | none => .ok { s with dur := s.dur + 1 }
    | some r =>
      match s.reqs[r]? with
      | none => .na
      | some q =>
        if q.prop = true ∨ q.written = true then
          .ok { s.setReq r (fun q => { q with flushed := true, vol := q.err && q.vol }) with
                dur := s.dur + 1 }
        else .na
  else .na

/-- `handle_rollback` (raft_repl_dev.cpp:1683-1701) of the last entry, which then leaves the log. -/
def St.rollback (s : St) : Res :=
  let l := s.log.length
  if s.dur = l ∧ s.upto < l then
    let s1 := { s with log := s.log.dropLast, dur := l - 1 }
    match s.lmap l with
    | none => .ok s1
    | some r =>
      match s.reqs[r]? with
      | none => .na
      | some q =>
        .ok (St.release { s1 with lmap := upd s1.lmap l none, kmap := upd s1.kmap q.key none } q)
  else .na

/-- `handle_commit` (raft_repl_dev.cpp:1703-1752) of the next entry.  The listener's index gets the
pair of object and block; a pair that is there stays. -/
def St.commit (s : St) : Res :=
  let l := s.upto + 1
  if l ≤ s.dur then
    match s.lmap l with
    | none => .fault
    | some r =>
      match s.reqs[r]? with
      | none => .na
      | some q =>
        match q.blk with
        | none => .fault
        | some b =>
          .ok { s with upto := l, app := if (q.key.obj, b) ∈ s.app then s.app else (q.key.obj, b) :: s.app,
                       kmap := upd s.kmap q.key none, lmap := upd s.lmap l none }
  else .na

/-- The user frees a block it holds (`async_free_blks`, raft_repl_dev.cpp:1977-1991). -/
def St.free (s : St) (o b : Nat) : Res :=
  if (o, b) ∈ s.app then
    .ok { s with app := s.app.filter (fun p => decide (p ≠ (o, b))), used := upd s.used b false }
  else .na

/-- `gc_repl_reqs` (raft_repl_dev.cpp:2614-2696): a request of the table that this member has not
proposed and whose entry is not on disk gives back its block and leaves the table. -/
def St.gc (s : St) (r : Nat) : Res :=
  match s.reqs[r]? with
  | none => .na
  | some q =>
    if s.kmap q.key = some r ∧ q.prop = false ∧ q.flushed = false then
      .ok (St.release { s with kmap := upd s.kmap q.key none } q)
    else .na

/-- `clear_chunk_req` (raft_repl_dev.cpp:2899-2933): a request of the table with a block gives it back
and leaves the table. -/
def St.clear (s : St) (r : Nat) : Res :=
  match s.reqs[r]? with
  | none => .na
  | some q =>
    if s.kmap q.key = some r ∧ q.blk ≠ none then
      .ok (St.release { s with kmap := upd s.kmap q.key none } q)
    else .na

/-- The entries on disk that are not committed. -/
def St.pending (s : St) : List (Key × Nat) := (s.log.take s.dur).drop s.upto

/-- The request that replay makes of an entry (raft_repl_dev.cpp:2747-2785). -/
def Req.replayed (e : Key × Nat) (l : Nat) : Req :=
  { key := e.1, prop := false, blk := some e.2, recv := true, written := true, comm := false,
    flushed := true, err := false, vol := true, lsn := some l }

/-- Restart: memory is lost; the entries on disk that are not committed are replayed
(raft_repl_dev.cpp:2700-2800), their blocks are allocated, as those that the listener holds. -/
def St.restart (s : St) : St :=
  let seg := s.pending
  { s with
    reqs := seg.zipIdx.map (fun p => Req.replayed p.1 (s.upto + p.2 + 1)),
    kmap := fun k => seg.findIdx? (fun e => decide (e.1 = k)),
    lmap := fun l => if s.upto < l ∧ l ≤ s.upto + seg.length then some (l - s.upto - 1) else none,
    log := s.log.take s.dur,
    used := fun b => decide (b ∈ seg.map (·.2)) || decide (b ∈ s.app.map (·.2)),
    fly := [], doom := [] }

/-- One step. -/
def St.step (s : St) : Op → Res
  | .create k b h => s.create k b h
  | .createFail k => s.createFail k
  | .propose k b h => s.propose k b h
  | .save r => s.save r
  | .wdone r => s.wdone r
  | .wfail r => s.wfail r
  | .doom r => s.doomed r
  | .err r => s.giveUp r
  | .reject r => s.reject r
  | .append k => s.append k
  | .flush => s.flush
  | .rollback => s.rollback
  | .commit => s.commit
  | .free o b => s.free o b
  | .gc r => s.gc r
  | .clear r => s.clear r
  | .restart => .ok s.restart

/-- A history. -/
def St.run (s : St) : List Op → Res
  | [] => .ok s
  | op :: ops =>
    match s.step op with
    | .ok s' => s'.run ops
    | o => o

end HS.Repl.Data
