/-!
# Life of a replication group on one member: creation, removal, collection, restart

Models how one member creates a group (`RaftReplService::create_state_mgr`,
/repo/src/lib/replication/service/raft_repl_service.cpp 342-372, and the `RaftReplDev` constructor,
/repo/src/lib/replication/repl_dev/raft_repl_dev.cpp 32-100), how the group is removed
(`RaftReplDev::destroy_group` 842-884, `leave` 2331-2356), how its leavings are collected
(`RaftReplService::gc_repl_devs` 708-745, `RaftReplDev::permanent_destroy` 2317-2329,
`LogStoreService::destroy_log_dev`, /repo/src/lib/logstore/log_store_service.cpp 158-183), how a
checkpoint writes the superblock of the group (`RaftReplDev::cp_flush` 2568-2595) and how a start
finds what is on disk (`RaftReplService::start` 140-205).

Simplifications, for the whole file:
* one group and one log device. Log device ids are not used twice (`get_next_logdev_id`,
  log_store_service.cpp 139-143) and a start deletes every log device that no group opened before
  it ends, so at most one log device of a group exists at a time;
* each write or removal of a metadata block is atomic (properties C20-C23 are about that);
* the log stores within the log device, the data channel, the Raft server and the other members
  are not modelled: what a Raft server may do to the device (commit the entry that removes the
  group, accept or refuse a proposal) may happen at any moment.
-/
namespace HS.Life

/-- `repl_dev_stage_t`, /repo/src/include/homestore/replication/repl_dev.h 73: `INIT`, `ACTIVE`,
`DESTROYING`, `DESTROYED`, `PERMANENT_DESTROYED`. `UNREADY`, which only the application sets, is
left out. -/
inductive Stage
  | init | active | destroying | destroyed | permanent
deriving DecidableEq, Repr

/-- What of a group is on the disk of the member. -/
structure Disk where
  /-- The superblock of the group (`raft_repl_dev_superblk`, raft_repl_dev.h 30-55); if there, its
  field `destroy_pending`. -/
  rd : Option Bool
  /-- The block with the Raft configuration of the group (raft_repl_service.cpp 358-361). -/
  cfg : Bool
  /-- The superblock of the group's log device (`LogDevMetadata::m_sb`). -/
  ld : Bool
  /-- The block with the rollback records of that log device (`LogDevMetadata::m_rollback_sb`). -/
  rb : Bool
  /-- The chunks of the journal that hold the log. -/
  chunks : Bool
deriving DecidableEq, Repr

/-- An instance of `RaftReplDev` in the map of groups `m_rd_map`. -/
structure Dev where
  /-- `m_stage` (raft_repl_dev.h 192). -/
  stage : Stage
  /-- A listener was attached (`attach_listener`). -/
  listener : Bool
  /-- `destroy_pending` in the copy of the superblock in memory. -/
  pend : Bool
  /-- The future of `m_destroy_promise` was handed out. -/
  taken : Bool
  /-- `m_destroy_promise` was fulfilled. -/
  done : Bool
deriving DecidableEq, Repr

/-- A running member. -/
structure Mem where
  /-- The group's device, if it is in the map. -/
  dev : Option Dev
  /-- A creation is going on: how many blocks it has written. -/
  cr : Option Nat
  /-- `leave` is going on: how many of its steps are done. -/
  lv : Option Nat
  /-- The collector works on the group: how many of its steps are done. -/
  gc : Option Nat
  /-- A checkpoint has looked at the stage and is about to write the superblock. -/
  cp : Bool
  /-- Calls of `remove_repl_dev` that have set the stage and not yet returned. -/
  calls : Nat
deriving DecidableEq, Repr

/-- A start of the member: how many of its steps are done, the device it has loaded, and whether a
device has opened the log device (it is then no longer in `m_unopened_logdev`). -/
structure Boot where
  k : Nat
  dev : Option Dev
  opened : Bool
deriving DecidableEq, Repr

/-- The member's process: not running, starting, running, or ended by the program itself (an
assertion, a null pointer, an exception that nobody catches). -/
inductive Proc
  | down
  | boot (b : Boot)
  | up (m : Mem)
  | dead
deriving DecidableEq, Repr

/-- The whole state. `app`: the application holds persistent structures for the group, which it
drops when its listener is told `on_destroy`. -/
structure St where
  disk : Disk
  proc : Proc
  app : Bool
deriving DecidableEq, Repr

/-- Nothing of the group is on disk. -/
def Disk.empty : Disk := { rd := none, cfg := false, ld := false, rb := false, chunks := false }

/-- A member that runs and does not have the group. -/
def Mem.idle : Mem := { dev := none, cr := none, lv := none, gc := none, cp := false, calls := 0 }

/-- The first state: a member that runs, before the group is created. -/
def St.init : St := { disk := Disk.empty, proc := .up Mem.idle, app := false }

/-- The steps. -/
inductive Op
  /-- `create_state_mgr` begins: there is no such group in the map (raft_repl_service.cpp 348). -/
  | create
  /-- The next write of a creation. -/
  | mkStep
  /-- The group accepts a write of its user. -/
  | write
  /-- `remove_repl_dev` sets the stage to `DESTROYING` (raft_repl_dev.cpp 844). -/
  | rmBegin
  /-- The call cannot set up its request: the device is quiesced (866-870, 2944-2948). -/
  | rmInitFail
  /-- Raft does not accept the proposal: not the leader, for one (875-880). -/
  | rmProposeFail
  /-- Raft accepts the proposal (882-883). -/
  | rmProposed
  /-- The removal is committed on this member: `leave` begins (2343-2347). -/
  | leave
  /-- `leave` writes the superblock, then fulfils the promise (2351-2355). -/
  | leaveStep
  /-- The collector chooses the group (721-727). -/
  | gcBegin
  /-- The next step of `permanent_destroy` and `gc_repl_devs`. -/
  | gcStep
  /-- A checkpoint looks at the stage (2569). -/
  | cpCheck
  /-- A checkpoint writes the superblock (2585-2592). -/
  | cpWrite
  /-- The machine fails. -/
  | crash
  /-- The next step of a start; from `down`, the first. -/
  | bootStep
deriving DecidableEq, Repr

/-- A crash: memory is gone (the disk and what the application persisted stay). -/
def crash (s : St) : St := { s with proc := .down }

/-- The process ends itself. -/
def die (s : St) : St := { s with proc := .dead }

/-- One write of a creation, by the number of writes done. `LogDevMetadata::create`
(/repo/src/lib/logstore/log_dev.cpp 872-888) writes the superblock of the log device (0), then its
rollback block (1); the constructor of `RaftReplDev` writes the superblock of the group (2,
raft_repl_dev.cpp 86); `create_state_mgr` writes the Raft configuration (3, raft_repl_service.cpp
361), attaches the listener and adds the device to the map (4, 365-370). `become_ready`
(raft_repl_dev.cpp 2309-2311), which Raft calls next, is part of step 4. -/
def mkStep (s : St) (m : Mem) : Nat → Option St
  | 0 => some { s with disk := { s.disk with ld := true }, proc := .up { m with cr := some 1 } }
  | 1 => some { s with disk := { s.disk with rb := true }, proc := .up { m with cr := some 2 } }
  | 2 => some { s with disk := { s.disk with rd := some false }, proc := .up { m with cr := some 3 } }
  | 3 => some { s with disk := { s.disk with cfg := true }, proc := .up { m with cr := some 4 } }
  | 4 => some { s with proc := .up { m with
            cr := none
            dev := some { stage := .active, listener := true, pend := false, taken := false,
                          done := false } } }
  | _ => none

/-- `async_alloc_write`: only a device whose stage is `ACTIVE` accepts it (raft_repl_dev.cpp
1008-1017). The write is logged, which takes a chunk of the journal, and what the listener does at
its commit is on the application's disk. -/
def write (s : St) (m : Mem) (d : Dev) : Option St :=
  if d.stage = .active then
    some { s with disk := { s.disk with chunks := true }, app := true, proc := .up m }
  else none

/-- `leave` begins: nothing to do if the stage is `DESTROYED`, else set it (raft_repl_dev.cpp
2343-2347). -/
def leave (s : St) (m : Mem) (d : Dev) : Option St :=
  match m.lv with
  | some _ => none
  | none =>
    if d.stage = .destroyed then some s
    else some { s with proc := .up { m with dev := some { d with stage := .destroyed }, lv := some 0 } }

/-- `leave` goes on: it sets `destroy_pending` and writes the superblock (0, raft_repl_dev.cpp
2351-2352; the superblock in memory is gone once the collector has removed it), then it fulfils the
promise, which throws if that was done before (1, 2355; folly's `PromiseAlreadySatisfied`, in the
thread in which Raft commits). -/
def leaveStep (s : St) (m : Mem) (d : Dev) : Nat → Option St
  | 0 =>
    match s.disk.rd with
    | none => some (die s)
    | some _ => some { s with disk := { s.disk with rd := some true },
                              proc := .up { m with dev := some { d with pend := true }, lv := some 1 } }
  | 1 =>
    if d.done then some (die s)
    else some { s with proc := .up { m with dev := some { d with done := true }, lv := none } }
  | _ => none

/-- A step of the collector, by the number of steps done: the listener is told `on_destroy` (0,
raft_repl_dev.cpp 2320), the Raft configuration is removed (1, 2321), the chunks of the journal are
given back (2, log_store_service.cpp 174), the rollback block and the superblock of the log device
are removed (3 and 4, `LogDevMetadata::destroy`, log_dev.cpp 1118-1121), the stage becomes
`PERMANENT_DESTROYED` (5, raft_repl_dev.cpp 2324), the superblock of the group is removed (6,
2328), and the device leaves the map (7, raft_repl_service.cpp 741-742; that needs the map's lock,
which a checkpoint holds while it goes over the devices). -/
def gcStep (s : St) (m : Mem) (d : Dev) : Nat → Option St
  | 0 => if d.listener then some { s with app := false, proc := .up { m with gc := some 1 } }
         else some (die s)
  | 1 => some { s with disk := { s.disk with cfg := false }, proc := .up { m with gc := some 2 } }
  | 2 => some { s with disk := { s.disk with chunks := false }, proc := .up { m with gc := some 3 } }
  | 3 => some { s with disk := { s.disk with rb := false }, proc := .up { m with gc := some 4 } }
  | 4 => some { s with disk := { s.disk with ld := false }, proc := .up { m with gc := some 5 } }
  | 5 => some { s with proc := .up { m with dev := some { d with stage := .permanent }, gc := some 6 } }
  | 6 => some { s with disk := { s.disk with rd := none }, proc := .up { m with gc := some 7 } }
  | 7 => if m.cp then none else some { s with proc := .up Mem.idle }
  | _ => none

/-- A step of a start, by the number of steps done.
* 0: the metadata blocks are read. A rollback block without the superblock of its log device fails
  an assertion (`rollback_super_blk_found`, log_store_service.cpp 266-283);
* 1: `load_repl_dev` (raft_repl_service.cpp 460-499): a superblock with `destroy_pending` is
  removed, any other makes a device, which opens its log device;
* 2: `raft_group_config_found` (307-333): a configuration without a device is removed, else the
  device gets its listener;
* 3: `LogStoreService::start` (log_store_service.cpp 107-120) starts every log device that was
  found or opened; `LogDevMetadata::load` (log_dev.cpp 908-940) needs the superblock and the
  rollback block of the log device, both in memory: an assertion fails without the first (919), a
  null pointer is followed without the second (934);
* 4: the device joins its Raft group, which tells its listener what the member becomes and what is
  committed (raft_repl_dev.cpp 2965, 2482; raft_repl_dev.h 372): a null pointer without listener.
  `become_ready` then makes it `ACTIVE`;
* 5, 6, 7: `delete_unopened_logdevs` (log_store_service.cpp 185-191): if no device opened the log
  device, its chunks, its rollback block and its superblock are removed, in this order;
* 8: the member runs. -/
def bootStep (s : St) (b : Boot) : Nat → Option St
  | 0 => if s.disk.rb = true ∧ s.disk.ld = false then some (die s)
         else some { s with proc := .boot { b with k := 1 } }
  | 1 =>
    match s.disk.rd with
    | none => some { s with proc := .boot { b with k := 2 } }
    | some true => some { s with disk := { s.disk with rd := none }, proc := .boot { b with k := 2 } }
    | some false => some { s with proc := .boot { k := 2, opened := true, dev := some (
        { stage := .init, listener := false, pend := false, taken := false, done := false } : Dev) } }
  | 2 =>
    if s.disk.cfg then
      match b.dev with
      | none => some { s with disk := { s.disk with cfg := false }, proc := .boot { b with k := 3 } }
      | some d => some { s with proc := .boot { b with k := 3, dev := some { d with listener := true } } }
    else some { s with proc := .boot { b with k := 3 } }
  | 3 =>
    if s.disk.ld then
      if s.disk.rb then some { s with proc := .boot { b with k := 4 } } else some (die s)
    else if b.opened then some (die s)
    else some { s with proc := .boot { b with k := 4 } }
  | 4 =>
    match b.dev with
    | none => some { s with proc := .boot { b with k := 5 } }
    | some d =>
      if d.listener then
        some { s with proc := .boot { b with k := 5, dev := some { d with stage := .active } } }
      else some (die s)
  | 5 => some { s with disk := (if b.opened then s.disk else { s.disk with chunks := false }),
                       proc := .boot { b with k := 6 } }
  | 6 => some { s with disk := (if b.opened then s.disk else { s.disk with rb := false }),
                       proc := .boot { b with k := 7 } }
  | 7 => some { s with disk := (if b.opened then s.disk else { s.disk with ld := false }),
                       proc := .boot { b with k := 8 } }
  | 8 => some { s with proc := .up { Mem.idle with dev := b.dev } }
  | _ => none

/-- A step that needs the running member. -/
def upStep (s : St) (m : Mem) : Op → Option St
  | .create =>
    match m.dev, m.cr with
    | none, none => some { s with proc := .up { m with cr := some 0 } }
    | _, _ => none
  | .mkStep =>
    match m.cr with
    | none => none
    | some k => mkStep s m k
  | .write =>
    match m.dev with
    | none => none
    | some d => write s m d
  | .rmBegin =>
    match m.dev with
    | none => none
    | some d => some { s with proc := .up { m with dev := some { d with stage := .destroying },
                                                   calls := m.calls + 1 } }
  | .rmInitFail =>
    match m.dev with
    | none => none
    | some _ => if m.calls = 0 then none
                else some { s with proc := .up { m with calls := m.calls - 1 } }
  | .rmProposeFail =>
    match m.dev with
    | none => none
    | some d => if m.calls = 0 then none
                else some { s with proc := .up { m with dev := some { d with stage := .active },
                                                        calls := m.calls - 1 } }
  | .rmProposed =>
    match m.dev with
    | none => none
    | some d => if m.calls = 0 then none
                else some { s with proc := .up { m with dev := some { d with taken := true },
                                                        calls := m.calls - 1 } }
  | .leave =>
    match m.dev with
    | none => none
    | some d => leave s m d
  | .leaveStep =>
    match m.dev, m.lv with
    | some d, some k => leaveStep s m d k
    | _, _ => none
  | .gcBegin =>
    match m.dev, m.lv, m.gc with
    | some d, none, none =>
      if d.stage = .destroyed then some { s with proc := .up { m with gc := some 0 } } else none
    | _, _, _ => none
  | .gcStep =>
    match m.dev, m.gc with
    | some d, some k => gcStep s m d k
    | _, _ => none
  | .cpCheck =>
    match m.dev with
    | none => none
    | some d => if d.stage = .permanent ∨ m.cp = true then none
                else some { s with proc := .up { m with cp := true } }
  | .cpWrite =>
    match m.dev with
    | none => none
    | some d =>
      if m.cp then
        match s.disk.rd with
        | none => some (die s)
        | some _ => some { s with disk := { s.disk with rd := some d.pend },
                                  proc := .up { m with cp := false } }
      else none
  | _ => none

/-- A step. The calls of `remove_repl_dev` may come from any number of threads; the collector, the
thread in which Raft commits and the checkpoint are one thread each. In `gcBegin` the collector
waits for `leave`: `repl_dev_cleanup_interval_sec` is far longer than a write of a superblock.
`getSemiFuture` throws when it is called a second time (the field `taken`); the caller of
`remove_repl_dev` gets that exception, and the model goes on as if it were caught. A process that
is `dead` can only be started again, as after a crash. -/
def step (s : St) (op : Op) : Option St :=
  match s.proc with
  | .dead => if op = .crash then some (crash s) else none
  | .down => if op = .bootStep then some { s with proc := .boot { k := 0, dev := none, opened := false } }
             else none
  | .boot b =>
    match op with
    | .crash => some (crash s)
    | .bootStep => bootStep s b b.k
    | _ => none
  | .up m =>
    match op with
    | .crash => some (crash s)
    | op => upStep s m op

/-- A run. -/
def run (s : St) : List Op → Option St
  | [] => some s
  | op :: ops =>
    match step s op with
    | none => none
    | some s' => run s' ops

end HS.Life
