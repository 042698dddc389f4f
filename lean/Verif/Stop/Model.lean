/-
  Graceful shutdown: how calls and stops of the services meet.

  Every service and device of HomeStore guards its calls with the same pattern: a call looks whether
  the object is stopping, counts itself as pending, works, and takes itself off the count; a stop sets
  the flag, waits until the count is zero, and goes on.  The model keeps of every function exactly
  this: the order in which it looks at flags, counts, touches the objects, hands work to other threads
  and gives the counts back, on every path.

  Modelled code: `src/lib/logstore/log_store.cpp`, `log_dev.cpp`, `log_store_service.cpp`,
  `src/lib/blkdata_svc/blkdata_service.cpp`, `src/lib/index/index_service.cpp`,
  `src/include/homestore/index/index_table.hpp`, `src/lib/replication/repl_dev/solo_repl_dev.cpp`,
  `src/include/homestore/replication/repl_dev.h`, `src/lib/replication/service/generic_repl_svc.cpp`,
  `src/lib/replication/service/raft_repl_service.cpp`, `src/lib/replication/repl_dev/raft_repl_dev.cpp`.

  Simplifications, for the whole file:
  * flags and counts are read and written one at a time, in one order that all threads see;
  * what a function computes is left out: a branch on anything but a flag is taken either way (`alt`);
  * mutexes are left out (where one matters the definition says so);
  * a loop that only works on the object is one `use`; a loop that calls other guarded functions is
    `each`, over a list of any length;
  * a stop's loop that sleeps until the count is zero is one step that is possible when it is zero.
-/
namespace HS.Stop

/-- The objects that have a stopping flag and a count of pending requests. -/
inductive Obj
  /-- the replication service: `src/lib/replication/service/generic_repl_svc.h:72-84` -/
  | repl
  /-- a replication device: `src/include/homestore/replication/repl_dev.h:674-686` -/
  | rdev (g : Nat)
  /-- the log store service: `src/include/homestore/logstore_service.hpp:200-212` -/
  | logs
  /-- a log device: `src/lib/logstore/log_dev.hpp:824-835` -/
  | ldev (d : Nat)
  /-- a log store on a log device: `src/include/homestore/logstore/log_store.hpp:308-319`.  Touching it
  includes touching the log device underneath in the functions of the device that are not guarded
  themselves (`flush_under_guard`, the body of `truncate`): the device's stop takes the device down only
  after the stop of each of its stores. -/
  | store (d n : Nat)
  /-- the data service: `src/include/homestore/blkdata_service.hpp:305-316` -/
  | data
  /-- the index service: `src/include/homestore/index_service.hpp:108-119` -/
  | index
  /-- an index table: `src/include/homestore/index/index_table.hpp:40-52` -/
  | table (t : Nat)
deriving DecidableEq, Repr

/-- What a thread still has to do. -/
inductive Prog
  /-- the call has returned -/
  | done
  /-- `if (is_stopping()) a else b` -/
  | test (o : Obj) (a b : Prog)
  /-- `incr_pending_request_num()`; also the constructor of `init_req_counter`
  (`src/lib/replication/repl_dev/common.h:106-133`) -/
  | inc (o : Obj) (k : Prog)
  /-- `decr_pending_request_num()`; also the destructor of `init_req_counter` -/
  | dec (o : Obj) (k : Prog)
  /-- work that touches the object -/
  | use (o : Obj) (k : Prog)
  /-- a branch on something the model leaves out -/
  | alt (a b : Prog)
  /-- work handed to another thread: a posted message, a continuation of a future, a callback -/
  | fork (body k : Prog)
  /-- `start_stopping()`, and then `await` -/
  | stop (o : Obj) (k : Prog)
  /-- `while (get_pending_request_num()) sleep` -/
  | await (o : Obj) (k : Prog)
deriving Repr

open Prog Obj

/-- `f` for each of `xs`, and then `k` -/
def each {α : Type} (xs : List α) (f : α → Prog → Prog) (k : Prog) : Prog := xs.foldr f k

/-! ### The log device (`src/lib/logstore/log_dev.cpp`) -/

/-- The part of `LogDev::flush_if_necessary` that runs on a thread that may flush:
`log_dev.cpp:438-439, 447-464`.  The flush itself runs after the count is given back (459-460) but under
the flush mutex, which the stop takes before it goes on (145); it is modelled as still counted. -/
def flushHere (d : Nat) (k : Prog) : Prog :=
  test (ldev d) k (inc (ldev d) (alt (use (ldev d) (dec (ldev d) k)) (dec (ldev d) k)))

/-- `LogDev::flush_if_necessary`: `log_dev.cpp:437-464`.  On another thread (440-444) the call is posted
to the flush thread. -/
def flushIfNecessary (d : Nat) (k : Prog) : Prog :=
  test (ldev d) k (inc (ldev d)
    (alt (fork (flushHere d done) (dec (ldev d) k))
         (alt (use (ldev d) (dec (ldev d) k)) (dec (ldev d) k))))

/-- `LogDev::append_async`: `log_dev.cpp:289-301`; `refused` is the path that returns -1. -/
def devAppend (d : Nat) (refused k : Prog) : Prog :=
  test (ldev d) refused (inc (ldev d) (use (ldev d) (alt (flushIfNecessary d (dec (ldev d) k))
    (dec (ldev d) k))))

/-- `LogDev::read`: `log_dev.cpp:303-332`.  When the read fails (309-312) the count is not given back. -/
def devRead (d : Nat) (k : Prog) : Prog :=
  test (ldev d) k (inc (ldev d) (use (ldev d) (alt k (dec (ldev d) k))))

/-- `LogDev::read` when the read does not fail. -/
def devReadOk (d : Nat) (k : Prog) : Prog :=
  test (ldev d) k (inc (ldev d) (use (ldev d) (dec (ldev d) k)))

/-- The log device's functions that look, count, work and give the count back:
`read_record_header` (`log_dev.cpp:334-350`), `get_registered_store_ids` (387-401), `rollback` (693-700),
`create_new_log_store` (726-742), `remove_log_store` (763-779). -/
def devCall (d : Nat) (k : Prog) : Prog :=
  test (ldev d) k (inc (ldev d) (use (ldev d) (alt (dec (ldev d) k) (dec (ldev d) k))))

/-- `LogDev::truncate`: `log_dev.cpp:616-691`.  It counts itself but does not refuse while the device
stops.  Its callers are counted on `cover`: a store, or the log store service. -/
def devTruncate (d : Nat) (cover : Obj) (k : Prog) : Prog :=
  alt k (inc (ldev d) (use cover (alt (dec (ldev d) k) (dec (ldev d) k))))

/-- `HomeLogStore::stop`: `log_store.cpp:283-289`. -/
def storeStop (d n : Nat) (k : Prog) : Prog := stop (store d n) k

/-- `LogDev::stop`: `log_dev.cpp:136-177`, with the stores `ns` in its map.  The waits for the callbacks
and the flush of what is left (143-152, 160-171) are left out; the truncation at the end counts itself
(174). -/
def devStop (d : Nat) (ns : List Nat) (k : Prog) : Prog :=
  stop (ldev d) (each ns (storeStop d) (inc (ldev d) (dec (ldev d) k)))

/-! ### A log store (`src/lib/logstore/log_store.cpp`) -/

/-- `HomeLogStore::write_async(req, cb)`: `log_store.cpp:48-67`; `refused`: the store or the device
refused, and the callback will not be called; `k`: the device has the record. -/
def storeWriteReq (d n : Nat) (refused k : Prog) : Prog :=
  test (store d n) refused (inc (store d n) (use (store d n)
    (devAppend d (dec (store d n) refused) (dec (store d n) k))))

/-- `HomeLogStore::write_async(seq_num, …)`: `log_store.cpp:69-83`. -/
def storeWrite (d n : Nat) (refused k : Prog) : Prog :=
  test (store d n) refused (inc (store d n) (use (store d n)
    (storeWriteReq d n (dec (store d n) refused) (dec (store d n) k))))

/-- `HomeLogStore::append_async`: `log_store.cpp:85-93`. -/
def storeAppend (d n : Nat) (refused k : Prog) : Prog :=
  test (store d n) refused (inc (store d n) (use (store d n)
    (storeWrite d n (dec (store d n) refused) (dec (store d n) k))))

/-- `HomeLogStore::write_and_flush`: `log_store.cpp:95-114`.  The path that reports a thread that cannot
block to the fault containment service (98-105) returns without giving the count back. -/
def storeWriteAndFlush (d n : Nat) (k : Prog) : Prog :=
  test (store d n) k (inc (store d n) (alt k
    (storeWrite d n (use (store d n) (dec (store d n) k)) (use (store d n) (dec (store d n) k)))))

/-- `HomeLogStore::write_and_flush` on a thread that can block. -/
def storeWriteAndFlushOk (d n : Nat) (k : Prog) : Prog :=
  test (store d n) k (inc (store d n)
    (storeWrite d n (use (store d n) (dec (store d n) k)) (use (store d n) (dec (store d n) k))))

/-- `HomeLogStore::read_sync`: `log_store.cpp:116-146`, with the read of the device `rd`. -/
def storeReadWith (rd : Nat → Prog → Prog) (d n : Nat) (k : Prog) : Prog :=
  test (store d n) k (inc (store d n) (use (store d n) (alt (dec (store d n) k)
    (alt (dec (store d n) k) (rd d (dec (store d n) k))))))

/-- `HomeLogStore::foreach` and `dump_log_store`: `log_store.cpp:291-340`; `m` records are read, and for a
dump their headers too (307). -/
def storeEachWith (rd : Nat → Prog → Prog) (d n m : Nat) (k : Prog) : Prog :=
  test (store d n) k (inc (store d n) (use (store d n)
    (each (List.range m) (fun _ k => rd d (use (store d n) (alt (devCall d k) k)))
      (dec (store d n) k))))

/-- `HomeLogStore::flush`: `log_store.cpp:350-356`; also `fill_gap` (271-281), `get_status` (413-425). -/
def storeCall (d n : Nat) (k : Prog) : Prog :=
  test (store d n) k (inc (store d n) (use (store d n) (dec (store d n) k)))

/-- `HomeLogStore::truncate`: `log_store.cpp:208-259`. -/
def storeTruncate (d n : Nat) (k : Prog) : Prog :=
  test (store d n) k (inc (store d n) (use (store d n) (alt (dec (store d n) k)
    (storeCall d n (use (store d n) (devTruncate d (store d n) (dec (store d n) k)))))))

/-- `HomeLogStore::rollback`: `log_store.cpp:358-411`. -/
def storeRollback (d n : Nat) (k : Prog) : Prog :=
  test (store d n) k (inc (store d n) (use (store d n) (alt (dec (store d n) k)
    (devCall d (use (store d n) (dec (store d n) k))))))

/-! ### The log store service (`src/lib/logstore/log_store_service.cpp`) -/

/-- `LogStoreService::stop`: `log_store_service.cpp:122-132`, with the devices `ds` in its map and the
stores of each. -/
def logsStop (ds : List (Nat × List Nat)) (k : Prog) : Prog :=
  stop logs (each ds (fun x => devStop x.1 x.2) k)

/-- `create_new_logdev` (`log_store_service.cpp:145-156`), `get_all_logdevs` (215-226), `flush`
(335-341): the devices are touched under the service's count.  (`flush` goes over the map of devices without
its lock; a device that is destroyed at the same time is a race that is not modelled.) -/
def logsCall (k : Prog) : Prog :=
  test logs k (inc logs (use logs (dec logs k)))

/-- `LogStoreService::destroy_log_dev`: `log_store_service.cpp:158-183`.  When the device is not found
(164-167) the count is not given back. -/
def logsDestroyDev (d : Nat) (ns : List Nat) (k : Prog) : Prog :=
  test logs k (inc logs (use logs (alt k (devStop d ns (use logs (dec logs k))))))

/-- `LogStoreService::destroy_log_dev` of a device that exists. -/
def logsDestroyDevOk (d : Nat) (ns : List Nat) (k : Prog) : Prog :=
  test logs k (inc logs (use logs (devStop d ns (use logs (dec logs k)))))

/-- `LogStoreService::create_new_log_store`: `log_store_service.cpp:285-295`. -/
def logsCreateStore (d : Nat) (k : Prog) : Prog :=
  test logs k (inc logs (use logs (devCall d (dec logs k))))

/-- `LogStoreService::remove_log_store`: `log_store_service.cpp:307-321`.  When the device is not found
(313-316) the count is not given back. -/
def logsRemoveStore (d : Nat) (k : Prog) : Prog :=
  test logs k (inc logs (use logs (alt k (devCall d (dec logs k)))))

/-- `LogStoreService::remove_log_store` on a device that exists. -/
def logsRemoveStoreOk (d : Nat) (k : Prog) : Prog :=
  test logs k (inc logs (use logs (devCall d (dec logs k))))

/-- `LogStoreService::device_truncate`: `log_store_service.cpp:323-333`.  (A device that is destroyed at
the same time is stopped under the write lock of the map, so that the two exclude each other.) -/
def logsTruncate (ds : List Nat) (k : Prog) : Prog :=
  test logs k (inc logs (use logs (each ds (fun d => devTruncate d logs) (dec logs k))))

/-- `LogStoreService::get_status`: `log_store_service.cpp:387-396`, which calls the function of the same
name of each store (`log_dev.cpp:840-867`). -/
def logsStatus (hs : List (Nat × Nat)) (k : Prog) : Prog :=
  test logs k (inc logs (use logs (each hs (fun x => storeCall x.1 x.2) (dec logs k))))

/-! ### The data service (`src/lib/blkdata_svc/blkdata_service.cpp`) -/

/-- `BlkDataService::stop`: `blkdata_service.cpp:321-332`.  It sleeps three seconds before it looks at the
count; time is not modelled. -/
def dataStop (k : Prog) : Prog := stop data k

/-- `alloc_blks` (`blkdata_service.cpp:231-252`), `commit_blk` (254-274), `free_blk_now` (298-311). -/
def dataCall (k : Prog) : Prog :=
  test data k (inc data (use data (alt (dec data k) (dec data k))))

/-- `BlkDataService::async_read` (both): `blkdata_service.cpp:81-145`.  One piece: the count is given back
(95, 130) before the read is issued.  Several: after they are issued (107, 142).  In both cases the
completion, which takes the read out of the tracker of the service, is not counted. -/
def dataRead (k : Prog) : Prog :=
  test data k (inc data (alt (dec data (use data (fork (use data done) k)))
    (use data (fork (use data done) (dec data k)))))

/-- `BlkDataService::async_write` (all three): `blkdata_service.cpp:162-227`.  One piece: the count is
given back (168, 195) before the write is issued.  The completion of the write does not touch the
service. -/
def dataWrite (k : Prog) : Prog :=
  test data k (inc data (alt (dec data (use data k)) (use data (dec data k))))

/-- `BlkDataService::async_write` of several pieces. -/
def dataWriteMany (k : Prog) : Prog :=
  test data k (inc data (use data (dec data k)))

/-- `BlkDataService::async_free_blk`: `blkdata_service.cpp:276-296`.  The blocks are freed when the reads
in progress are over (289), perhaps after the count is given back (294). -/
def dataFree (k : Prog) : Prog :=
  test data k (inc data (use data (alt (dec data k) (alt (use data (dec data k))
    (fork (use data done) (dec data k))))))

/-- `BlkDataService::async_alloc_write`: `blkdata_service.cpp:147-160`, with the write `wr`. -/
def dataAllocWriteWith (wr : Prog → Prog) (k : Prog) : Prog :=
  test data k (inc data (dataCall (alt (dec data k) (wr (dec data k)))))

/-! ### The index service and tables -/

/-- `IndexTable::stop`: `index_table.hpp:54-61`. -/
def tableStop (t : Nat) (k : Prog) : Prog := stop (table t) k

/-- `IndexService::stop`: `index_service.cpp:145-154`, with the tables `ts` in its map. -/
def indexStop (ts : List Nat) (k : Prog) : Prog := stop index (each ts tableStop k)

/-- `write_sb` (`index_service.cpp:126-133`), `add_index_table` (161-169), `remove_index_table`
(171-183), `get_index_table` (185-203). -/
def indexCall (k : Prog) : Prog :=
  test index k (inc index (use index (alt (dec index k) (dec index k))))

/-- `IndexTable::put`, `remove`, `get`, `destroy`: `index_table.hpp:135-148, 156-199`. -/
def tableCall (t : Nat) (k : Prog) : Prog :=
  test (table t) k (inc (table t) (use (table t) (dec (table t) k)))

/-- `IndexTable`'s queries, which it takes from `Btree` as they are (`btree.hpp:104-105`,
`btree.ipp:264-310`): they are not guarded. -/
def tableQuery (t : Nat) (k : Prog) : Prog := use (table t) k

/-! ### Replication without peers (`src/lib/replication/repl_dev/solo_repl_dev.cpp`) -/

/-- `SoloReplDev::write_journal`: `solo_repl_dev.cpp:76-94`, with the journal on store `n` of log device
`d`.  The count is given back by the callback of the append (92), which does not come when the store or
the device refuses. -/
def soloJournal (g d n : Nat) (k : Prog) : Prog :=
  use (rdev g) (storeAppend d n k (fork (use (rdev g) (dataCall (dec (rdev g) done))) k))

/-- `SoloReplDev::async_write_journal`: `solo_repl_dev.cpp:156-172`. -/
def soloWriteJournal (g d n : Nat) (k : Prog) : Prog :=
  test (rdev g) k (inc (rdev g) (soloJournal g d n k))

/-- `SoloReplDev::async_alloc_write`: `solo_repl_dev.cpp:42-61`.  It does not look whether the device is
stopping. -/
def soloAllocWrite (g d n : Nat) (k : Prog) : Prog :=
  inc (rdev g) (use (rdev g) (alt (soloJournal g d n k)
    (dataWriteMany (fork (soloJournal g d n done) k))))

/-- `SoloReplDev::alloc_blks` (`solo_repl_dev.cpp:96-114`), `async_read` (226-235), `async_free_blks`
(237-245), as far as the replication device is concerned. -/
def soloCall (g : Nat) (k : Prog) : Prog :=
  test (rdev g) k (inc (rdev g) (use (rdev g) (alt (dec (rdev g) k) (dec (rdev g) k))))

/-- `SoloReplDev::async_write`: `solo_repl_dev.cpp:116-154`, in which `m` writes are issued.  When the sizes
of the next do not match (136-139) the count is not given back; otherwise when all writes are over (145). -/
def soloWrite (g m : Nat) (k : Prog) : Prog :=
  test (rdev g) k (inc (rdev g) (use (rdev g) (each (List.range m) (fun _ => dataWriteMany)
    (alt k (fork (use (rdev g) (dec (rdev g) done)) k)))))

/-- `SoloReplDev::async_write` when the sizes match. -/
def soloWriteOk (g m : Nat) (k : Prog) : Prog :=
  test (rdev g) k (inc (rdev g) (use (rdev g) (each (List.range m) (fun _ => dataWriteMany)
    (fork (use (rdev g) (dec (rdev g) done)) k))))

/-- `ReplDev::stop`: `repl_dev.h:636-644`. -/
def rdevStop (g : Nat) (k : Prog) : Prog := stop (rdev g) k

/-- `SoloReplService::stop` and `RaftReplService::stop`: `generic_repl_svc.cpp:100-118`,
`raft_repl_service.cpp:212-246`, with the replication devices `gs`. -/
def replStop (gs : List Nat) (ds : List (Nat × List Nat)) (k : Prog) : Prog :=
  stop repl (each gs rdevStop (logsStop ds (dataStop k)))

/-- `SoloReplService::remove_repl_dev`: `generic_repl_svc.cpp:147-174`, which does not look whether the
service is stopping; `SoloReplDev::destroy`: `solo_repl_dev.cpp:64-74`. -/
def soloRemove (g d : Nat) (ns : List Nat) (k : Prog) : Prog :=
  rdevStop g (logsRemoveStoreOk d (logsDestroyDevOk d ns k))

/-- `SoloReplService::create_repl_dev` (`generic_repl_svc.cpp:120-145`), `RaftReplService::create_repl_dev`
(`raft_repl_service.cpp:375-419`), `remove_repl_dev` (448-458), `list_replace_member_tasks` (575-591): counted by `init_req_counter` as
long as the function runs. -/
def replCall (k : Prog) : Prog :=
  test repl k (inc repl (use repl (alt (dec repl k) (dec repl k))))

/-- `RaftReplDev`'s membership calls: `start_replace_member` (`raft_repl_dev.cpp:205-372`),
`complete_replace_member` (374-453), `get_replace_member_status` (455-524), `remove_member` (561-608),
`flip_learner_flag` (664-685), `clean_replace_member_task` (735-782): they look, and are counted by
`init_req_counter` as long as the function runs. -/
def raftDevCall (g : Nat) (k : Prog) : Prog :=
  test (rdev g) k (inc (rdev g) (use (rdev g) (alt (dec (rdev g) k) (dec (rdev g) k))))

/-- `RaftReplDev::become_leader`: `raft_repl_dev.cpp:1991-2008`.  The counter is moved into the continuation
of the call on the messaging service. -/
def raftLead (g : Nat) (k : Prog) : Prog :=
  test (rdev g) k (inc (rdev g) (use (rdev g) (fork (use (rdev g) (dec (rdev g) done)) k)))

/-- `RaftReplService::replace_member`, `flip_learner_flag`, `remove_member`, `clean_replace_member_task`:
`raft_repl_service.cpp:510-573`.  The counter is moved into the continuation of the call on the
replication device. -/
def raftMember (g : Nat) (k : Prog) : Prog :=
  test repl k (inc repl (use repl (alt (dec repl k)
    (raftDevCall g (fork (use repl (dec repl done)) k)))))

/-- `RaftReplService::gc_repl_devs`: `raft_repl_service.cpp:708-744`.  It counts itself first and looks
then. -/
def raftGc (k : Prog) : Prog :=
  inc repl (test repl (dec repl k) (use repl (dec repl k)))

/-! ### Threads -/

/-- All threads together. -/
structure St where
  /-- the stopping flags (`m_stopping`) -/
  flag : Obj → Bool
  /-- the counts (`pending_request_num`; unsigned in the code, see `C99_counts_stay_right`) -/
  pend : Obj → Int
  /-- the stop of the object has seen the count at zero, and goes on to take the object down -/
  down : Obj → Bool
  /-- what each thread still has to do -/
  pool : List Prog
  /-- some thread has touched an object whose stop had gone on -/
  bad : Bool

/-- After a start nothing is stopping and nothing pending:
`src/include/homestore/logstore_service.hpp:202-203` and the like. -/
def St.init : St :=
  { flag := fun _ => false, pend := fun _ => 0, down := fun _ => false, pool := [], bad := false }

/-- A function with one value changed. -/
def upd {β : Type} (f : Obj → β) (o : Obj) (v : β) : Obj → β := fun x => if x = o then v else f x

/-- Thread `i` goes on as `k`. -/
def St.next (s : St) (i : Nat) (k : Prog) : St := { s with pool := s.pool.set i k }

/-- One step of thread `i`; `c` chooses between the branches the model leaves open. -/
def St.exec (s : St) (i : Nat) (c : Bool) : Prog → Option St
  | done => none
  | test o a b => some (s.next i (if s.flag o then a else b))
  | inc o k => some ({ s with pend := upd s.pend o (s.pend o + 1) }.next i k)
  | dec o k => some ({ s with pend := upd s.pend o (s.pend o - 1) }.next i k)
  | use o k => some ({ s with bad := s.bad || s.down o }.next i k)
  | alt a b => some (s.next i (if c then a else b))
  | fork body k => some { s.next i k with pool := s.pool.set i k ++ [body] }
  | stop o k => some ({ s with flag := upd s.flag o true }.next i (await o k))
  | await o k => if s.pend o = 0 then some ({ s with down := upd s.down o true }.next i k) else none

/-- What can happen: a client makes a call on a thread of its own, or a thread takes a step. -/
inductive Ev
  | call (p : Prog)
  | run (i : Nat) (c : Bool)

/-- One event. -/
def St.step (s : St) : Ev → Option St
  | .call p => some { s with pool := s.pool ++ [p] }
  | .run i c => match s.pool[i]? with
    | some p => s.exec i c p
    | none => none

/-- A history. -/
def St.runs (s : St) : List Ev → Option St
  | [] => some s
  | e :: es => match s.step e with
    | some t => t.runs es
    | none => none

end HS.Stop
