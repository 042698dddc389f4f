/-!
# Baseline resync: a member that is brought up to date by a snapshot

Models, in `/repo/src/lib/replication`:

* `repl_dev/raft_state_machine.cpp` — `commit_ext` (204-221), `commit_config` (223-252),
  `save_logical_snp_obj` (389-429), `apply_snapshot` (431-444), `last_commit_index` (300-303);
* `repl_dev/raft_repl_dev.cpp` — the constructor's loading of the superblock (42-58), `handle_commit`
  (1702-1752), `handle_config_commit` (1754-1766), `update_truncation_boundary` (1921-1949),
  `flush_durable_commit_lsn` (2480-2495), `cp_flush` (2568-2596), `get_cp_ctx` (2598-2611),
  `on_log_found` (2700-2797), `save_snp_resync_data` (2811-2846);
* `repl_dev/raft_repl_dev.h:457` — `need_skip_processing`;
* `log_store/repl_log_store.cpp:117-125` and `log_store/home_raft_log_store.cpp:361-374` — `compact`,
  also past the end of the log.

Simplifications.

* As in `Verif.Repl.Raft`, the log is the numbered durable list that C59–C61 prove the log store to
  be, a checkpoint makes durable the listener's state as it was when the checkpoint pointer was
  exchanged, and replay is one step.  Blocks are left out (C65, C78, C79).
* An application entry is a value, and the listener's state is the list of the (number, value) pairs
  that it has been given, by `on_commit` or inside a snapshot.
* The Raft library (NuRaft) is represented by what it may do.  `glog` is a ghost: the entries that
  the group has committed.  The library commits entry `sm + 1` if this member holds, on disk, the
  entry that the group has committed there; it removes entries only above those that it ever
  committed here; it starts a snapshot only beyond its commit index `sm`; with the last object it
  compacts the log and calls `apply_snapshot`, and commits nothing between the two; after a restart
  it goes on from `last_commit_index`, or from the beginning of the log if the log begins later
  (raft_state_machine.cpp:432-434 says so).
* What the listener does with the objects of a snapshot before the last one is arbitrary; after the
  last one it holds exactly what the group committed up to the number of the snapshot.
* A message that fails its check (raft_repl_dev.cpp:2813-2830) changes nothing, and is left out.
-/
namespace HS.Snap

/-- A log entry: configuration, or application with its value. -/
inductive Ent where
  | conf
  | app (v : Nat)
  deriving DecidableEq, Repr

/-- Where the running checkpoint is. -/
inductive Phase where
  | idle
  | captured (lsn : Nat)                           -- the sealer has switched over
  | swapped (lsn : Nat) (snap : List (Nat × Nat))  -- new operations go to the next checkpoint
  | dataDone (lsn : Nat)                           -- the listener's state is on disk
  | replDone
  deriving DecidableEq, Repr

/-- Where the transfer of a snapshot is. -/
inductive Resync where
  | none
  | recv (l : Nat)        -- the first message has been received
  | saved (l : Nat)       -- the last object has been written, the limit raised
  | ckpt (l : Nat)        -- the checkpoint that it waits for has exchanged the pointer
  | flushed (l : Nat)     -- … and is done
  | compacted (l : Nat)   -- the log is compacted
  deriving DecidableEq, Repr

/-- A member's device. -/
structure Dev where
  glog : List Ent                        -- ghost: committed by the group; entry `n` is `glog[n-1]`
  log : List Ent                         -- entry `n` is `log[n-first-1]`
  first : Nat                            -- entries 1..first are compacted
  flushed : Nat                          -- entries up to here survive a crash
  map : List Nat                         -- numbers with a request in `m_lsn_req_map`
  sm : Nat                               -- the library's commit index
  cidx : Nat                             -- ghost: the highest number ever committed here
  upto : Nat                             -- `m_commit_upto_lsn`
  work : Option Bool                     -- commit of `sm+1` running: has the listener been called?
  app : List (Nat × Nat)                 -- the listener's state
  appDisk : List (Nat × Nat)
  dc : Nat                               -- superblock: `durable_commit_lsn`
  cp : Nat                               -- superblock: `checkpoint_lsn`
  snp : Nat                              -- superblock: `last_snapshot_lsn`
  lastCp : Nat                           -- `m_last_flushed_cp_lsn`
  phase : Phase
  load : Option Nat                      -- `flush_durable_commit_lsn` running: the number it read
  limit : Nat                            -- `m_truncation_upper_limit`
  res : Resync
  pend : Bool                            -- ghost: a resync was announced here and not completed
  deriving DecidableEq, Repr

/-- A new device (raft_repl_dev.cpp:69-88). -/
def Dev.create : Dev :=
  { glog := [], log := [], first := 0, flushed := 0, map := [], sm := 0, cidx := 0, upto := 0,
    work := none, app := [], appDisk := [], dc := 0, cp := 0, snp := 0, lastCp := 0, phase := .idle,
    load := none, limit := 0, res := .none, pend := false }

/-- Entry `n` of this member's log. -/
def Dev.entry? (d : Dev) (n : Nat) : Option Ent :=
  if d.first < n then d.log[n - d.first - 1]? else none

/-- The application entries among the entries numbered from `i + 1` on. -/
def appsFrom (i : Nat) : List Ent → List (Nat × Nat)
  | [] => []
  | .app v :: es => (i + 1, v) :: appsFrom (i + 1) es
  | .conf :: es => appsFrom (i + 1) es

/-- `need_skip_processing` (raft_repl_dev.h:457). -/
def Dev.skips (d : Dev) (n : Nat) : Bool := decide (n ≤ d.snp)

/-- `on_log_found` for entry `n` (raft_repl_dev.cpp:2700-2797): nothing for an entry that a snapshot
is to bring, at or below `checkpoint_lsn`, or a configuration entry; above `durable_commit_lsn` the
request is linked for the state machine to decide; in between the entry is committed. -/
def Dev.logFound (d : Dev) (n : Nat) : Dev :=
  if d.skips n then d
  else if n ≤ d.cp then d
  else match d.entry? n with
    | some (.app v) =>
      if n > d.dc then { d with map := n :: d.map } else { d with app := d.app ++ [(n, v)] }
    | _ => d

/-- `on_log_found` for the `k` entries from `n` on. -/
def Dev.replay (d : Dev) (n : Nat) : (k : Nat) → Dev
  | 0 => d
  | k + 1 => (d.logFound n).replay (n + 1) k

/-- What a crash leaves (raft_repl_dev.cpp:42-58): `m_commit_upto_lsn` is loaded from
`durable_commit_lsn`; the truncation limit, the request map and the transfer of a snapshot are in
memory only. -/
def Dev.crash (d : Dev) : Dev :=
  { d with log := d.log.take (d.flushed - d.first), map := [], upto := d.dc, sm := max d.dc d.first,
           work := none, app := d.appDisk, lastCp := d.cp, phase := .idle, load := none, limit := 0,
           res := .none }

/-- Crash and restart. -/
def Dev.restart (d : Dev) : Dev := d.crash.replay (d.first + 1) (d.flushed - d.first)

/-- What can happen. -/
inductive Op where
  | group (e : Ent)          -- the group commits another entry
  | append (e : Ent)
  | flush
  | rollback (n : Nat)       -- entries `n` and above are removed (overwritten by the next appends)
  | commitBegin              -- `commit_ext` / `commit_config` of the next entry
  | commitApp                -- … `on_commit`
  | commitEnd                -- … `m_commit_upto_lsn.exchange`, request removed
  | cpCapture                -- a checkpoint starts: the replication service switches over first
  | cpSwap                   -- … then the others, and the checkpoint pointer is exchanged
  | cpData                   -- … the listener's state is written
  | cpRepl (dirty : Bool)    -- … `RaftReplDev::cp_flush`; `dirty`: `m_compact_lsn` has changed
  | cpDone
  | dcLoad                   -- `flush_durable_commit_lsn` reads `m_commit_upto_lsn` …
  | dcStore                  -- … and, after calling the listener, writes it to the superblock
  | boundary (limit : Int)   -- `update_truncation_boundary`
  | compact (n : Nat)        -- `ReplLogStore::compact`, for a snapshot of this member's own
  | snpBegin (l : Nat)       -- the first message of a snapshot with number `l`
  | snpObj (content : List (Nat × Nat))  -- `write_snapshot_obj`, not the last
  | snpLast                  -- `write_snapshot_obj` of the last object; the limit is raised
  | snpCompact               -- the library compacts the log …
  | snpApply                 -- … and calls `apply_snapshot`
  | crash
  deriving DecidableEq, Repr

/-- The outcome of a step: impossible in this state, a dereferenced null request, or a new state. -/
inductive Res where
  | na
  | fault
  | ok (d : Dev)
  deriving DecidableEq, Repr

/-- `HomeRaftLogStore::compact` up to `n`, also past the end of the log
(home_raft_log_store.cpp:361-374). -/
def Dev.cut (d : Dev) (n : Nat) : Dev :=
  if n ≤ d.first then d
  else { d with log := d.log.drop (n - d.first), first := n, flushed := max d.flushed n }

/-- The waiting transfer goes on when the checkpoint exchanges the pointer … -/
def Resync.swap : Resync → Resync
  | .saved l => .ckpt l
  | r => r

/-- … and when it is done (`trigger_cp_flush(true).wait()`, raft_state_machine.cpp:417). -/
def Resync.done : Resync → Resync
  | .ckpt l => .flushed l
  | r => r

/-- The library is between compacting the log and having called `apply_snapshot`. -/
def Resync.between : Resync → Bool
  | .compacted _ => true
  | _ => false

/-- One step. -/
def Dev.step (d : Dev) : Op → Res
  | .group e => .ok { d with glog := d.glog ++ [e] }
  | .append e =>
    -- repl_log_store.cpp:10-27: an application entry's request is linked to its number
    .ok { d with log := d.log ++ [e],
                 map := match e with
                   | .app _ => (d.first + d.log.length + 1) :: d.map
                   | .conf => d.map }
  | .flush => .ok { d with flushed := d.first + d.log.length }
  | .rollback n =>
    if d.cidx < n then
      .ok { d with log := d.log.take (n - d.first - 1), flushed := min d.flushed (n - 1),
                   map := d.map.filter (· < n) }
    else .na
  | .commitBegin =>
    -- raft_state_machine.cpp:204-252; a missing request is dereferenced
    if d.work = none ∧ d.res.between = false ∧ d.sm < d.flushed ∧
        d.entry? (d.sm + 1) = d.glog[d.sm]? then
      match d.entry? (d.sm + 1) with
      | some (.app _) =>
        if d.skips (d.sm + 1) then .ok { d with sm := d.sm + 1, cidx := max d.cidx (d.sm + 1) }
        else if d.sm + 1 ∈ d.map then
          .ok { d with work := some false, cidx := max d.cidx (d.sm + 1) }
        else .fault
      | some .conf =>
        if d.skips (d.sm + 1) then .ok { d with sm := d.sm + 1, cidx := max d.cidx (d.sm + 1) }
        else .ok { d with upto := d.sm + 1, sm := d.sm + 1, cidx := max d.cidx (d.sm + 1) }
      | none => .na
    else .na
  | .commitApp =>
    match d.work, d.entry? (d.sm + 1) with
    | some false, some (.app v) => .ok { d with work := some true, app := d.app ++ [(d.sm + 1, v)] }
    | _, _ => .na
  | .commitEnd =>
    match d.work with
    | some true => .ok { d with work := none, upto := d.sm + 1, sm := d.sm + 1,
                                map := d.map.filter (· ≠ d.sm + 1) }
    | _ => .na
  | .cpCapture => if d.phase = .idle then .ok { d with phase := .captured d.upto } else .na
  | .cpSwap =>
    match d.phase with
    | .captured lsn => .ok { d with phase := .swapped lsn d.app, res := d.res.swap }
    | _ => .na
  | .cpData =>
    match d.phase with
    | .swapped lsn snap => .ok { d with phase := .dataDone lsn, appDisk := snap }
    | _ => .na
  | .cpRepl dirty =>
    match d.phase with
    | .dataDone lsn =>
      if lsn = d.lastCp ∧ dirty = false then .ok { d with phase := .replDone }
      else .ok { d with phase := .replDone, dc := max lsn d.dc, cp := lsn, lastCp := lsn }
    | _ => .na
  | .cpDone => if d.phase = .replDone then .ok { d with phase := .idle, res := d.res.done } else .na
  | .dcLoad => if d.load = none then .ok { d with load := some d.upto } else .na
  | .dcStore =>
    match d.load with
    | some lsn => .ok { d with dc := lsn, load := none }
    | none => .na
  | .boundary limit =>
    let exp := min limit (d.cp : Int)
    if exp ≤ d.limit then .ok d else .ok { d with limit := exp.toNat }
  | .compact n => if n ≤ d.sm then .ok (d.cut (min n d.limit)) else .na
  | .snpBegin l =>
    -- raft_repl_dev.cpp:2831-2838; the library refuses a snapshot that it does not need
    if d.sm < l ∧ l ≤ d.glog.length ∧ d.res.between = false then
      .ok { d with snp := l, res := .recv l, pend := true }
    else .na
  | .snpObj content =>
    match d.res with
    | .recv _ => .ok { d with app := content }
    | _ => .na
  | .snpLast =>
    -- raft_state_machine.cpp:412-417
    match d.res with
    | .recv l => if d.sm ≤ l then
        .ok { d with app := appsFrom 0 (d.glog.take l), limit := l, res := .saved l } else .na
    | _ => .na
  | .snpCompact =>
    match d.res with
    | .flushed l => if d.sm ≤ l ∧ d.work = none then
        .ok { d.cut (min l d.limit) with res := .compacted l, pend := false, cidx := max d.cidx l } else .na
    | _ => .na
  | .snpApply =>
    match d.res with
    | .compacted l => .ok { d with upto := l, sm := l, res := .none }
    | _ => .na
  | .crash => .ok d.restart

/-- A history; it ends at the first step that is impossible or dereferences a null request. -/
def Dev.run (d : Dev) : List Op → Res
  | [] => .ok d
  | op :: ops =>
    match d.step op with
    | .ok d' => d'.run ops
    | r => r

end HS.Snap
