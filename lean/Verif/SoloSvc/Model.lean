/-!
# The service of solo replication devices: creation, removal, checkpoints, failures, starts

Models `SoloReplService` (/repo/src/lib/replication/service/generic_repl_svc.cpp 84-188), the
constructor of `SoloReplDev`, its `destroy`, `cp_flush` and what it appends to its journal
(/repo/src/lib/replication/repl_dev/solo_repl_dev.cpp 33-57, 83-94, 96-113, 246-257), and of the log
service what these call: `create_new_logdev`, `get_next_logdev_id`, `create_new_log_store`,
`destroy_log_dev`, `open_logdev`, `open_log_store`, `start`
(/repo/src/lib/logstore/log_store_service.cpp 112-183, 197-216, 278-310), `LogDev::start`, `stop`,
`truncate`, `destroy` (/repo/src/lib/logstore/log_dev.cpp 54-107, 133-181, 617-691) and
`LogDevMetadata::create`, `load`, `destroy` (872-940, 1118-1121).

Each write or removal of a metadata block is one step, so that a failure can come between any two
of them, and steps of any number of calls may be interleaved.

Simplifications, for the whole file:
* each write or removal of a metadata block is atomic (C20-C23 are about that), and so is an append
  to a journal together with its acknowledgement (C94, C95 are about that);
* a log device has the one log store that the solo device makes in it;
* a release build: `DEBUG_ASSERT` and `HS_DBG_ASSERT` do nothing (generic_repl_svc.cpp 136, 186);
* a service that is being stopped is not modelled (C99 is about that), nor are the truncation of a
  journal by checkpoints and the data blocks (C64 is about those);
* log device ids are numbers without a bound.
-/
namespace HS.SoloSvc

/-- A log device on disk. -/
structure LD where
  /-- The group it was made for (`logdev_superblk::pid`, log_dev.cpp 882). -/
  gid : Nat
  /-- Its superblock (`LogDevMetadata::m_sb`) is there. -/
  sb : Bool
  /-- The block with its rollback records (`m_rollback_sb`) is there. -/
  rb : Bool
  /-- The superblock lists the log store of the journal. -/
  store : Bool
  /-- The entries in its chunks. -/
  recs : List Nat
deriving DecidableEq, Repr

/-- The superblock of a device (`solo_repl_dev_superblk`, solo_repl_dev.h 34-39): the group and the
log device of its journal. -/
structure Rd where
  gid : Nat
  ld : Nat
deriving DecidableEq, Repr

/-- What is on disk. -/
structure Disk where
  /-- `m_last_logdev_id` in the superblock of the log service. -/
  last : Nat
  lds : Nat → LD
  /-- The superblocks of devices, in the order in which a start finds them. -/
  rds : List Rd

/-- A running process. An instance of `SoloReplDev` is named by its log device. -/
structure Mem where
  /-- `m_rd_map`: the device of a group. -/
  map : Nat → Option Nat
  /-- `m_rd_sb` of the instance is there: its pointer is not null. -/
  sb : Nat → Bool
  /-- `m_data_journal` of the instance is set, and so is `m_is_recovered`. -/
  jr : Nat → Bool
  /-- A call of `create_repl_dev` is making the log device: how far it is. -/
  cr : Nat → Option Nat
  /-- The calls of `remove_repl_dev` that work on the instance: how far each is. -/
  rms : Nat → List Nat

/-- The process: not running, running, ended by the program itself (an assertion, a null pointer),
or in undefined behaviour. -/
inductive Proc
  | down
  | up (m : Mem)
  | failed
  | ub

/-- What the user knows of a group: it is not there (never created, or the removal has returned); it
is there (the creation has returned); either (a call is going on, or the machine failed in one). -/
inductive Status
  | absent | present | either
deriving DecidableEq, Repr

/-- The whole state. `st`, `acked`, `wrote` are the user's view: what they know of the groups, the
entries acknowledged by a group since it was created, and all entries ever given to it. -/
structure St where
  disk : Disk
  proc : Proc
  st : Nat → Status
  acked : Nat → List Nat
  wrote : Nat → List Nat

/-- The steps. -/
inductive Op
  /-- `create_repl_dev` is called for a group, up to the write of the log service's superblock
  with the id of the new log device (log_store_service.cpp 139-143). -/
  | create (g : Nat)
  /-- The next step of the call that makes log device `l`; a new superblock of a device comes at
  place `k` of those that a start finds. -/
  | crStep (l k : Nat)
  /-- `remove_repl_dev` is called for a group, up to `stop` (generic_repl_svc.cpp 147-155). -/
  | remove (g : Nat)
  /-- The next step of a call that removes the instance with log device `l` and is at `k`; `t`: the
  truncation in `LogDev::stop` finds something to truncate. -/
  | rmStep (l k : Nat) (t : Bool)
  /-- The group's device appends an entry to its journal and acknowledges it. -/
  | write (g v : Nat)
  /-- A checkpoint flushes the device of a group. -/
  | cp (g : Nat)
  /-- The machine fails. -/
  | crash
  /-- The process starts. -/
  | boot
deriving DecidableEq, Repr

/-- A function changed at one place. -/
def upd {α : Type} (f : Nat → α) (i : Nat) (a : α) : Nat → α := fun j => if j = i then a else f j

/-- No log device. -/
def LD.blank : LD := { gid := 0, sb := false, rb := false, store := false, recs := [] }

/-- A process that has just started on an empty disk. -/
def Mem.new : Mem :=
  { map := fun _ => none, sb := fun _ => false, jr := fun _ => false, cr := fun _ => none,
    rms := fun _ => [] }

/-- The first state: a store that was formatted and runs. -/
def St.init : St :=
  { disk := { last := 0, lds := fun _ => LD.blank, rds := [] }, proc := .up Mem.new,
    st := fun _ => .absent, acked := fun _ => [], wrote := fun _ => [] }

/-- `create_repl_dev`, generic_repl_svc.cpp 118-124, as far as `get_next_logdev_id`,
log_store_service.cpp 139-143: the map of groups is not looked at. -/
def doCreate (s : St) (m : Mem) (g : Nat) : St :=
  let l := s.disk.last + 1
  { s with
    disk := { s.disk with last := l, lds := upd s.disk.lds l { LD.blank with gid := g } },
    proc := .up { m with cr := upd m.cr l (some 1) },
    st := if s.st g = .absent then upd s.st g .either else s.st }

/-- The next step of `create_repl_dev`: `LogDevMetadata::create` writes the superblock and then the
rollback block (log_dev.cpp 883-886), `reserve_store` writes the superblock with the log store
(942-953), the constructor of `SoloReplDev` writes the superblock of the device (solo_repl_dev.cpp
49-54), and the device is put into the map unless there is one (generic_repl_svc.cpp 131-139); if
there is one the call returns `SERVER_ALREADY_EXISTS` and what it has written stays. -/
def doCrStep (s : St) (m : Mem) (l k : Nat) : Option St :=
  let d := s.disk.lds l
  let go (d' : LD) (n : Nat) : St :=
    { s with disk := { s.disk with lds := upd s.disk.lds l d' },
             proc := .up { m with cr := upd m.cr l (some n) } }
  match m.cr l with
  | some 1 => some (go { d with sb := true } 2)
  | some 2 => some (go { d with rb := true } 3)
  | some 3 => some (go { d with store := true } 4)
  | some 4 => some { s with
      disk := { s.disk with rds := s.disk.rds.insertIdx (min k s.disk.rds.length) ⟨d.gid, l⟩ },
      proc := .up { m with cr := upd m.cr l (some 5), sb := upd m.sb l true, jr := upd m.jr l true } }
  | some 5 =>
    if (m.map d.gid).isNone then
      some { s with proc := .up { m with cr := upd m.cr l none, map := upd m.map d.gid (some l) },
                    st := upd s.st d.gid .present }
    else some { s with proc := .up { m with cr := upd m.cr l none } }
  | _ => none

/-- `remove_repl_dev`, generic_repl_svc.cpp 147-155: `SERVER_NOT_FOUND` if there is no such group. -/
def doRemove (s : St) (m : Mem) (g : Nat) : St :=
  match m.map g with
  | none => s
  | some l => { s with proc := .up { m with rms := upd m.rms l (0 :: m.rms l) },
                       st := upd s.st g .either }

/-- The next step of `remove_repl_dev`. At 0, `destroy` waits for `m_is_recovered` and removes the
log store, which changes nothing on disk yet (solo_repl_dev.cpp 85-89, log_dev.cpp 378-385). At 1,
`destroy_log_dev` (log_store_service.cpp 158-183) takes the lock of the map of log devices, which it
holds through 4, and returns if there is no such log device; `LogDev::stop` truncates: if there is
something to truncate, the removed log store leaves the superblock (log_dev.cpp 171-172, 664-688).
At 2 the chunks are released (log_store_service.cpp 173), at 3 the rollback block and at 4 the
superblock of the log device are removed (log_dev.cpp 1118-1121), at 5 the superblock of the device
(solo_repl_dev.cpp 92, superblk_handler.hpp 98-105); at 6 the group leaves the map and the call
returns (generic_repl_svc.cpp 163-174). -/
def doRmStep (s : St) (m : Mem) (l k : Nat) (t : Bool) : Option St :=
  if k ∈ m.rms l then
    let d := s.disk.lds l
    let rest := (m.rms l).erase k
    let go (d' : LD) (n : Nat) : St :=
      { s with disk := { s.disk with lds := upd s.disk.lds l d' },
               proc := .up { m with rms := upd m.rms l (n :: rest) } }
    match k with
    | 0 => if m.jr l then some (go d 1) else none
    | 1 =>
      if (m.rms l).any (fun j => 2 ≤ j && j ≤ 4) then none
      else if d.sb then some (go (if t then { d with store := false, recs := [] } else d) 2)
      else some (go d 5)
    | 2 => some (go { d with recs := [] } 3)
    | 3 => some (go { d with rb := false } 4)
    | 4 => some (go { d with sb := false } 5)
    | 5 => some { s with
        disk := { s.disk with rds := s.disk.rds.filter (fun r => r.ld ≠ l) },
        proc := .up { m with rms := upd m.rms l (6 :: rest), sb := upd m.sb l false } }
    | _ => some { s with
        proc := .up { m with rms := upd m.rms l rest, map := upd m.map d.gid none },
        st := upd s.st d.gid .absent, acked := upd s.acked d.gid [] }
  else none

/-- `async_alloc_write`, `async_write_journal` and the completion in `write_journal`
(solo_repl_dev.cpp 59-79, 96-113, 157-173): without a journal, `m_data_journal` is a null pointer.
Writes to a group whose removal was called are left out: the user does not make them. -/
def doWrite (s : St) (m : Mem) (g v : Nat) : Option St :=
  match m.map g with
  | none => none
  | some l =>
    if m.rms l = [] then
      if m.jr l then
        let d := s.disk.lds l
        some { s with
          disk := { s.disk with lds := upd s.disk.lds l { d with recs := d.recs ++ [v] } },
          acked := upd s.acked g (s.acked g ++ [v]), wrote := upd s.wrote g (s.wrote g ++ [v]) }
      else some { s with proc := .failed }
    else none

/-- `SoloReplServiceCPHandler::cp_flush` (generic_repl_svc.cpp 242-247) comes to the device of a
group: `SoloReplDev::cp_flush` (solo_repl_dev.cpp 246-257) writes through `m_rd_sb`, a null pointer
once the superblock was destroyed (superblk_handler.hpp 103-104). The fields that it writes are
those of `Repl/Solo.lean`. -/
def doCp (s : St) (m : Mem) (g : Nat) : Option St :=
  match m.map g with
  | none => none
  | some l => if m.sb l then some s else some { s with proc := .failed }

/-- The first superblock found for a group decides: `m_rd_map.emplace` keeps what is there
(generic_repl_svc.cpp 183). -/
def loaded (rds : List Rd) (g : Nat) : Option Nat := (rds.find? (fun r => r.gid = g)).map (·.ld)

/-- The process ends in `LogDev::start`: a log device has one of its two blocks only
(`rollback_super_blk_found`, log_store_service.cpp 269-272; `LogDevMetadata::load`, log_dev.cpp
934), or a device opened a log device that is not on disk (`open_logdev` makes one,
log_store_service.cpp 200-204; `LogDevMetadata::load`, log_dev.cpp 911-918). Log devices that no
device opened are started too and stay. -/
def stops (d : Disk) : Bool :=
  (List.range (d.last + 1)).any (fun i => (d.lds i).sb != (d.lds i).rb) ||
  d.rds.any (fun r => !(d.lds r.ld).sb)

/-- A device that did not get into the map is gone when the log store it opened is found, and the
continuation of `open_log_store` runs on it (solo_repl_dev.cpp 40-45; log_dev.cpp 799). -/
def dangles (d : Disk) : Bool :=
  d.rds.any (fun r => loaded d.rds r.gid != some r.ld && (d.lds r.ld).store)

/-- What is in memory after `SoloReplService::start` (generic_repl_svc.cpp 87-104). -/
def started (d : Disk) : Mem :=
  { map := loaded d.rds, sb := fun _ => true, jr := fun l => (d.lds l).store, cr := fun _ => none,
    rms := fun _ => [] }

/-- `SoloReplService::start`, generic_repl_svc.cpp 87-104. It writes nothing. With the devices
loaded the user knows of every group again whether it is there. -/
def doBoot (s : St) : St :=
  if stops s.disk then { s with proc := .failed }
  else if dangles s.disk then { s with proc := .ub }
  else { s with
    proc := .up (started s.disk),
    st := fun g => if s.st g = .either then
        (if (loaded s.disk.rds g).isSome then .present else .absent) else s.st g,
    acked := fun g => if s.st g = .either ∧ loaded s.disk.rds g = none then [] else s.acked g }

/-- One step, if it is possible. -/
def step (s : St) (o : Op) : Option St :=
  match s.proc, o with
  | .up m, .create g => some (doCreate s m g)
  | .up m, .crStep l k => doCrStep s m l k
  | .up m, .remove g => some (doRemove s m g)
  | .up m, .rmStep l k t => doRmStep s m l k t
  | .up m, .write g v => doWrite s m g v
  | .up m, .cp g => doCp s m g
  | .up _, .crash => some { s with proc := .down }
  | .down, .boot => some (doBoot s)
  | .failed, .boot => some (doBoot s)
  | _, _ => none

/-- States reached by steps that `ok` allows. -/
inductive Reach (ok : St → Op → Prop) : St → Prop
  | init : Reach ok St.init
  | step {s s' : St} (o : Op) : Reach ok s → ok s o → step s o = some s' → Reach ok s'

/-- Any history. -/
def anyHistory (_ : St) (_ : Op) : Prop := True

/-- Histories in which a group is created only when it is not there and nobody creates it, and
removed only when nobody removes it; the machine does not fail between the two blocks of a new log
device, nor between the first step of a removal that changes the disk and the last; and no
checkpoint comes to a device between the removal of its superblock and its leaving the map. -/
def careful (s : St) (o : Op) : Prop :=
  match s.proc, o with
  | .up m, .create g => m.map g = none ∧ ∀ l ≤ s.disk.last, (s.disk.lds l).gid = g → m.cr l = none
  | .up m, .remove g => ∀ l ≤ s.disk.last, m.map g = some l → m.rms l = []
  | .up m, .cp g => ∀ l ≤ s.disk.last, m.map g = some l → 6 ∉ m.rms l
  | .up m, .crash => ∀ l ≤ s.disk.last, m.cr l ≠ some 2 ∧ ∀ k ∈ m.rms l, k ≤ 1 ∨ 6 ≤ k
  | _, _ => True

/-- Histories in which, beyond that, the machine does not fail while a creation has begun a log
device and not yet written the superblock of the device. -/
def careful2 (s : St) (o : Op) : Prop :=
  careful s o ∧
  match s.proc, o with
  | .up m, .crash => ∀ l ≤ s.disk.last, m.cr l = none ∨ m.cr l = some 1 ∨ m.cr l = some 5
  | _, _ => True

end HS.SoloSvc
