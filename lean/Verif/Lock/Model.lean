/-
The mutexes, the counts of running calls and the callbacks of the log service: `HomeLogStore`
(log_store.cpp), `LogDev` (log_dev.cpp, log_dev.hpp) and `LogStoreService` (log_store_service.cpp), as
programs of threads that take and release them.  What the calls do to the data is modelled elsewhere
(Verif/Log, Verif/Stream, Verif/Pipe); the counts alone, with the calls that test them, in Verif/Stop.

Not modelled: the locks inside the containers of sisl (`StreamTracker`), of the journal device (its pool
of chunks is Verif/Pool) and of the I/O manager; the calls that return without taking their count down
again (`LogDev::read` when the read fails, `destroy_log_dev` and `remove_log_store` of a device that is
not there; Verif/Stop has the lost counts); and the opening of a device that exists (`LogDev::start` with
`format = false`), which happens before there are other calls.
-/
namespace HS.Lock

/-- The things that threads wait for.  `d` is a log device and `s` a log store.
`svcCnt` : `pending_request_num` of the service (log_store_service.cpp 118);
`devMap` : `m_logdev_map_mtx` (logstore_service.hpp 192);
`devCnt d` : `m_pending_request_num` of the device (log_dev.cpp 138);
`storeCnt d s` : that of the store (log_store.cpp 296);
`flush d` : `m_flush_mtx` (log_dev.hpp 812);
`cbCnt d` : `m_pending_callback` (log_dev.cpp 146);
`storeMap d` : `m_store_map_mtx` (log_dev.hpp 786);
`metaMtx d` : `m_meta_mutex` (log_dev.hpp 799);
`metaSvc` : `m_meta_mtx` of the meta service (meta_service.hpp 84);
`flushThr` : the flush thread, which runs one task at a time (log_store_service.cpp 343-367);
`stream d` : `m_stream_tracker_mtx` (log_dev.hpp 813). -/
inductive Res where
  | svcCnt
  | devMap
  | devCnt (d : Nat)
  | storeCnt (d s : Nat)
  | flush (d : Nat)
  | cbCnt (d : Nat)
  | storeMap (d : Nat)
  | metaMtx (d : Nat)
  | metaSvc
  | flushThr
  | stream (d : Nat)
  deriving DecidableEq, Repr

/-- How a thread holds a thing: a mutex exclusively (`unique_lock`, `WriteHolder`), a mutex shared
(`ReadHolder`), or a count that it has raised. -/
inductive Hold where
  | ex
  | sh
  | cnt
  deriving DecidableEq, Repr

/-- What a thread still has to do.
`lock`, `unlock` : an exclusive lock; `lockS`, `unlockS` : a shared one;
`enter`, `leave` : a count goes up, goes down; `drain` : wait until a count is zero (the loops with
`sleep_for`, log_dev.cpp 137-140, 146-150);
`tryLock r k l` : go on with `k` if the lock is had at once, with `l` otherwise;
`choice` : a test of something that is not modelled;
`spawn r p k` : the count `r` goes up, and another thread runs `p`
(`iomanager.run_on_forget`, log_dev.cpp 610). -/
inductive Prog where
  | done
  | lock (r : Res) (k : Prog)
  | unlock (r : Res) (k : Prog)
  | lockS (r : Res) (k : Prog)
  | unlockS (r : Res) (k : Prog)
  | enter (r : Res) (k : Prog)
  | leave (r : Res) (k : Prog)
  | drain (r : Res) (k : Prog)
  | tryLock (r : Res) (k l : Prog)
  | choice (k l : Prog)
  | spawn (r : Res) (p k : Prog)
  deriving DecidableEq, Repr

/-- A thread: what it holds, what it has to do, and whether it queues for an exclusive lock. -/
structure Thread where
  held : List (Res × Hold)
  prog : Prog
  waiting : Bool
  deriving DecidableEq, Repr

abbrev State := List Thread

/-- Nobody holds the lock. -/
def noHolder (s : State) (r : Res) : Bool :=
  s.all fun t => !t.held.contains (r, .ex) && !t.held.contains (r, .sh)

/-- The thread queues for the exclusive lock `r`. -/
def queues (t : Thread) (r : Res) : Bool :=
  t.waiting && match t.prog with
    | .lock r' _ => r' == r
    | _ => false

/-- A shared lock of a `folly::SharedMutexWritePriority` is given when nobody holds the lock exclusively
and nobody queues for that.  (folly/SharedMutex.h, which is not part of /repo: readers block once a writer
waits.) -/
def sharedOk (s : State) (r : Res) : Bool :=
  s.all fun t => !t.held.contains (r, .ex) && !queues t r

/-- The count is zero. -/
def isZero (s : State) (r : Res) : Bool :=
  s.all fun t => !t.held.contains (r, .cnt)

/-- One step of the thread `t` of `s`: the thread afterwards and the threads it starts; `b` decides a
`choice`, and whether `tryLock` of a free lock fails (it may).  `none` : the thread has to wait, is at its
end, or lets go of something that it does not hold. -/
def tstep (s : State) (t : Thread) (b : Bool) : Option (Thread × List Thread) :=
  match t.prog with
  | .done => none
  | .lock r k =>
      if noHolder s r then some (⟨(r, .ex) :: t.held, k, false⟩, [])
      else if t.waiting then none
      else some ({ t with waiting := true }, [])
  | .unlock r k => if (r, .ex) ∈ t.held then some (⟨t.held.erase (r, .ex), k, false⟩, []) else none
  | .lockS r k => if sharedOk s r then some (⟨(r, .sh) :: t.held, k, false⟩, []) else none
  | .unlockS r k => if (r, .sh) ∈ t.held then some (⟨t.held.erase (r, .sh), k, false⟩, []) else none
  | .enter r k => some (⟨(r, .cnt) :: t.held, k, false⟩, [])
  | .leave r k => if (r, .cnt) ∈ t.held then some (⟨t.held.erase (r, .cnt), k, false⟩, []) else none
  | .drain r k => if isZero s r then some (⟨t.held, k, false⟩, []) else none
  | .tryLock r k l =>
      if noHolder s r && b then some (⟨(r, .ex) :: t.held, k, false⟩, [])
      else some (⟨t.held, l, false⟩, [])
  | .choice k l => some (⟨t.held, if b then k else l, false⟩, [])
  | .spawn r p k => some (⟨t.held, k, false⟩, [⟨[(r, .cnt)], p, false⟩])

/-- One step of the `i`-th thread. -/
def step (s : State) (i : Nat) (b : Bool) : Option State :=
  match s[i]? with
  | none => none
  | some t =>
    match tstep s t b with
    | none => none
    | some (t', new) => some (s.set i t' ++ new)

/-! ### The calls -/

/-- `cb x` runs, before `k`, the callback of a record of the kind `x`. -/
abbrev Cb := Nat → Prog → Prog

/-- The set-up: `sync` : there is a replication service, so that callbacks are run by the thread that
flushes (log_dev.cpp 605-611). -/
structure Cfg where
  sync : Bool

section
variable (c : Cfg) (cb : Cb)

/-- `if (is_stopping()) return;`, the count, the body, the count (log_store.cpp 89-98 and all the others). -/
def counted (r : Res) (body : Prog → Prog) (k : Prog) : Prog :=
  .choice k (.enter r (body (.leave r k)))

/-- `superblk::write` (superblk_handler.hpp 90-100): `add_sub_sb`, `update_sub_sb` take the mutex of the
meta service (meta_blk_service.cpp 401, 806). -/
def metaWrite (k : Prog) : Prog := .lock .metaSvc (.unlock .metaSvc k)

/-- The locks for the records of a flush (log_dev.cpp 554-585). -/
def markAll (d : Nat) (recs : List Nat) (k : Prog) : Prog :=
  recs.foldr (fun _ k => .lock (.stream d) (.unlock (.stream d) k)) k

/-- The callbacks of the records of a flush (log_dev.cpp 594-613). -/
def callbacks (d : Nat) (recs : List Nat) (k : Prog) : Prog :=
  recs.foldr (fun x k =>
    if c.sync then .enter (.cbCnt d) (cb x (.leave (.cbCnt d) k))
    else .spawn (.cbCnt d) (cb x (.leave (.cbCnt d) .done)) k) k

/-- `LogDev::flush` (log_dev.cpp 480-542) with `on_flush_completion` (544-614): `recs` are the records that
this flush finds; one group (several groups are several of these). -/
def flushBody (d : Nat) (recs : List Nat) (k : Prog) : Prog :=
  markAll d recs (callbacks c cb d recs k)

/-- `LogDev::flush_under_guard` (log_dev.cpp 467-478). -/
def flushUnderGuard (d : Nat) (recs : List Nat) (k : Prog) : Prog :=
  .lock (.flush d) (flushBody c cb d recs (.unlock (.flush d) k))

/-- `LogDev::flush_if_necessary` (log_dev.cpp 434-465); posting it to the flush thread is the call
`flushTask`. -/
def flushIfNecessary (d : Nat) (recs : List Nat) (k : Prog) : Prog :=
  .choice k (.enter (.devCnt d) (.choice (.leave (.devCnt d) k)
    (.tryLock (.flush d)
      (.leave (.devCnt d) (flushBody c cb d recs (.unlock (.flush d) k)))
      (.leave (.devCnt d) k))))

/-- `LogDev::append_async` (log_dev.cpp 289-302); `inl` : the device flushes inline. -/
def devAppend (d : Nat) (inl : Bool) (recs : List Nat) (k : Prog) : Prog :=
  counted (.devCnt d) (fun k => .lockS (.stream d) (.unlockS (.stream d)
    (if inl then flushIfNecessary c cb d recs k else k))) k

/-- `HomeLogStore::write_async` (log_store.cpp 48-67). -/
def writeReq (d s : Nat) (inl : Bool) (recs : List Nat) (k : Prog) : Prog :=
  counted (.storeCnt d s) (devAppend c cb d inl recs) k

/-- `HomeLogStore::write_async` (log_store.cpp 69-83). -/
def writeAsync (d s : Nat) (inl : Bool) (recs : List Nat) (k : Prog) : Prog :=
  counted (.storeCnt d s) (writeReq c cb d s inl recs) k

/-- `LogDev::read`, `LogDev::read_record_header` (log_dev.cpp 303-352). -/
def devRead (d : Nat) (k : Prog) : Prog :=
  .choice k (.enter (.devCnt d) (.lock (.flush d) (.leave (.devCnt d) (.unlock (.flush d) k))))

/-- `LogDev::truncate` (log_dev.cpp 616-691). -/
def devTruncate (d : Nat) (k : Prog) : Prog :=
  .choice k (.enter (.devCnt d) (.lock (.flush d) (.lockS (.storeMap d) (.lock (.metaMtx d)
    (metaWrite (.leave (.devCnt d) (.unlock (.metaMtx d) (.unlockS (.storeMap d)
      (.unlock (.flush d) k)))))))))

/-- `LogDev::rollback` (log_dev.cpp 693-700). -/
def devRollback (d : Nat) (k : Prog) : Prog :=
  .choice k (.enter (.devCnt d) (.lock (.metaMtx d) (metaWrite (.leave (.devCnt d) (.unlock (.metaMtx d) k)))))

/-- `n` times. -/
def times (n : Nat) (f : Prog → Prog) (k : Prog) : Prog := Nat.repeat f n k

/-- `HomeLogStore::dump_log_store` (log_store.cpp 304-343) of `n` records. -/
def dumpStore (d s n : Nat) (k : Prog) : Prog :=
  counted (.storeCnt d s) (times n fun k => devRead d (devRead d k)) k

/-- `stop_timer`, and `run_on_wait` in `start_timer` (log_dev.cpp 182-214): wait for the flush thread. -/
def waitFlushThread (k : Prog) : Prog := .lock .flushThr (.unlock .flushThr k)

/-- `LogDev::stop` (log_dev.cpp 135-178); `recs` are the records that its flush finds. -/
def devStop (d : Nat) (stores : List Nat) (recs : List Nat) (k : Prog) : Prog :=
  .drain (.devCnt d) (.lock (.flush d) (.drain (.cbCnt d) (.unlock (.flush d)
    (.lockS (.storeMap d)
      (stores.foldr (fun s k => .drain (.storeCnt d s) k)
        (flushUnderGuard c cb d recs
          (.lock (.flush d) (.drain (.cbCnt d) (.unlock (.flush d)
            (devTruncate d
              (.choice (waitFlushThread (.unlockS (.storeMap d) k))
                (.unlockS (.storeMap d) k)))))))))))) 

/-- `LogDev::start` with `format = true` (log_dev.cpp 44-110), `handle_unopened_log_stores` (703-723). -/
def devStart (d : Nat) (k : Prog) : Prog :=
  metaWrite (metaWrite (.choice
    (waitFlushThread (.lock (.storeMap d) (.unlock (.storeMap d)
      (.lock (.storeMap d) (.unlock (.storeMap d) k)))))
    (.lock (.storeMap d) (.unlock (.storeMap d) (.lock (.storeMap d) (.unlock (.storeMap d) k))))))

/-- The calls that a thread may make, with what they find on their way. -/
inductive Call where
  /-- `HomeLogStore::append_async` -/
  | append (d s : Nat) (inl : Bool) (recs : List Nat)
  /-- `HomeLogStore::write_and_flush` -/
  | writeAndFlush (d s : Nat) (inl : Bool) (recs recs' : List Nat)
  /-- `HomeLogStore::read_sync`; it may flush first -/
  | read (d s : Nat) (first : Option (List Nat))
  /-- `HomeLogStore::flush` -/
  | flush (d s : Nat) (recs : List Nat)
  /-- `HomeLogStore::truncate` -/
  | truncate (d s : Nat) (inMem : Bool) (recs : List Nat)
  /-- `HomeLogStore::rollback`, with the flushes it has to do first -/
  | rollback (d s : Nat) (rounds : List (List Nat))
  /-- `HomeLogStore::foreach` of `n` records -/
  | foreach (d s n : Nat)
  /-- `HomeLogStore::dump_log_store` of `n` records -/
  | dump (d s n : Nat)
  /-- a task of the flush thread -/
  | flushTask (d : Nat) (recs : List Nat)
  /-- `LogStoreService::create_new_logdev` -/
  | createDev (d : Nat)
  /-- `LogStoreService::open_logdev` -/
  | openDev
  /-- `LogStoreService::get_logdev` -/
  | getDev
  /-- `LogStoreService::get_all_logdevs` -/
  | getAllDevs
  /-- `LogStoreService::destroy_log_dev` -/
  | destroyDev (d : Nat) (stores : List Nat) (recs : List Nat)
  /-- `LogStoreService::create_new_log_store` -/
  | createStore (d : Nat)
  /-- `LogStoreService::open_log_store` -/
  | openStore (d : Nat)
  /-- `LogStoreService::remove_log_store` -/
  | removeStore (d : Nat)
  /-- `LogStoreService::device_truncate` -/
  | truncateAll (ds : List Nat)
  /-- `LogStoreService::flush` -/
  | flushAll (ds : List (Nat × List Nat))
  /-- `LogStoreService::dump_log_store` of all stores: the devices, their stores and the number of their
  records -/
  | dumpAll (ds : List (Nat × List (Nat × Nat)))
  /-- `LogStoreService::get_status` -/
  | status (ds : List (Nat × List Nat))
  /-- `LogStoreService::stop` -/
  | stop (ds : List (Nat × List Nat × List Nat))
  deriving Repr

/-- The program of a call. -/
def Call.prog (k : Prog) : Call → Prog
  -- log_store.cpp 85-93
  | .append d s inl recs => counted (.storeCnt d s) (writeAsync c cb d s inl recs) k
  -- log_store.cpp 95-115
  | .writeAndFlush d s inl recs recs' =>
      counted (.storeCnt d s) (fun k => writeAsync c cb d s inl recs (flushUnderGuard c cb d recs' k)) k
  -- log_store.cpp 117-149; the exceptions take the count down as well
  | .read d s first =>
      counted (.storeCnt d s) (fun k =>
        match first with
        | none => .choice k (devRead d k)
        | some recs => flushUnderGuard c cb d recs (.choice k (devRead d k))) k
  -- log_store.cpp 367-373
  | .flush d s recs => counted (.storeCnt d s) (flushUnderGuard c cb d recs) k
  -- log_store.cpp 216-271
  | .truncate d s inMem recs =>
      counted (.storeCnt d s) (fun k => .choice k
        (counted (.storeCnt d s) (flushUnderGuard c cb d recs)
          (if inMem then k else devTruncate d k))) k
  -- log_store.cpp 375-425
  | .rollback d s rounds =>
      counted (.storeCnt d s) (fun k => .choice k
        (rounds.foldr (fun recs k => .lock (.flush d) (.unlock (.flush d) (flushUnderGuard c cb d recs k)))
          (.lock (.flush d) (devRollback d (.unlock (.flush d) k))))) k
  -- log_store.cpp 345-354
  | .foreach d s n => counted (.storeCnt d s) (times n (devRead d)) k
  | .dump d s n => counted .svcCnt (dumpStore d s n) k
  -- log_dev.cpp 437-439, 184-188
  | .flushTask d recs => .lock .flushThr (flushIfNecessary c cb d recs (.unlock .flushThr k))
  -- log_store_service.cpp 145-156
  | .createDev d =>
      .choice k (.enter .svcCnt (.lock .devMap (metaWrite (devStart d
        (.leave .svcCnt (.unlock .devMap k))))))
  -- log_store_service.cpp 203-213
  | .openDev => .lock .devMap (.unlock .devMap k)
  -- log_store_service.cpp 228-233
  | .getDev => .lockS .devMap (.unlockS .devMap k)
  -- log_store_service.cpp 215-226
  | .getAllDevs => .choice k (.enter .svcCnt (.lockS .devMap (.leave .svcCnt (.unlockS .devMap k))))
  -- log_store_service.cpp 158-183
  | .destroyDev d stores recs =>
      .choice k (.enter .svcCnt (.lock .devMap (devStop c cb d stores recs
        (metaWrite (metaWrite (.leave .svcCnt (.unlock .devMap k)))))))
  -- log_store_service.cpp 285-295; log_dev.cpp 725-742, 373-376
  | .createStore d =>
      .choice k (.enter .svcCnt (.lock .devMap
        (counted (.devCnt d) (fun k => .lock (.metaMtx d) (metaWrite (.unlock (.metaMtx d)
          (.lock (.storeMap d) (.unlock (.storeMap d) k)))))
          (.leave .svcCnt (.unlock .devMap k)))))
  -- log_store_service.cpp 297-305; log_dev.cpp 744-760
  | .openStore d => .lockS .devMap (.lock (.storeMap d) (.unlock (.storeMap d) (.unlockS .devMap k)))
  -- log_store_service.cpp 307-321; log_dev.cpp 762-779, 378-385
  | .removeStore d =>
      .choice k (.enter .svcCnt (.lock .devMap
        (counted (.devCnt d) (fun k => .lock (.storeMap d) (.unlock (.storeMap d)
          (.choice k (.lock (.metaMtx d) (.unlock (.metaMtx d) k)))))
          (.leave .svcCnt (.unlock .devMap k)))))
  -- log_store_service.cpp 323-333
  | .truncateAll ds =>
      .choice k (.enter .svcCnt (.lockS .devMap (ds.foldr devTruncate
        (.leave .svcCnt (.unlockS .devMap k)))))
  -- log_store_service.cpp 335-341
  | .flushAll ds =>
      counted .svcCnt (fun k => ds.foldr (fun p k => flushUnderGuard c cb p.1 p.2 k) k) k
  -- log_store_service.cpp 369-379; log_dev.cpp 820-838
  | .dumpAll ds =>
      counted .svcCnt (fun k => ds.foldr (fun p k => .lockS (.storeMap p.1)
        (p.2.foldr (fun q k => dumpStore p.1 q.1 q.2 k) (.unlockS (.storeMap p.1) k))) k) k
  -- log_store_service.cpp 390-397; log_dev.cpp 840-867; log_store.cpp 427-440
  | .status ds =>
      counted .svcCnt (fun k => ds.foldr (fun p k => .lockS (.storeMap p.1)
        (p.2.foldr (fun s k => counted (.storeCnt p.1 s) (fun k => k) k) (.unlockS (.storeMap p.1) k))) k) k
  -- log_store_service.cpp 118-128
  | .stop ds => .drain .svcCnt (ds.foldr (fun p k => devStop c cb p.1 p.2.1 p.2.2 k) k)

/-- The program of several calls, one after the other. -/
def progs (cs : List Call) (k : Prog) : Prog := cs.foldr (fun call k => call.prog c cb k) k

end

/-- The callback of a record of the kind `x` makes the calls `u x` of the user; `n` : how deep callbacks of
records that callbacks have written are followed. -/
def cbProg (c : Cfg) (u : Nat → List Call) : Nat → Cb
  | 0, _, k => k
  | n + 1, x, k => progs c (cbProg c u n) (u x) k

/-- Threads that make calls. -/
def start (c : Cfg) (u : Nat → List Call) (n : Nat) (calls : List (List Call)) : State :=
  calls.map fun cs => ⟨[], progs c (cbProg c u n) cs .done, false⟩

end HS.Lock
