/-!
# The Raft replicated device of one member across checkpoints and crashes

Models, in `/repo/src/lib/replication`:

* `repl_dev/raft_repl_dev.cpp` — the constructor's loading of the superblock (42-58), `handle_commit`
  (1702-1752), `handle_config_commit` (1754-1766), `update_truncation_boundary` (1921-1949),
  `flush_durable_commit_lsn` (2480-2495), `cp_flush` (2568-2596), `get_cp_ctx` (2598-2611),
  `on_log_found` (2700-2800);
* `repl_dev/raft_state_machine.cpp` — `commit_ext` (204-221), `link_lsn_to_req` /
  `unlink_lsn_to_req` (311-330), `last_commit_index` (300-303);
* `log_store/repl_log_store.cpp` — `append` (10-27), `write_at` (29-41), `compact` (117-126);
* `service/raft_repl_service.cpp:781-812` — the checkpoint callbacks, and `checkpoint/cp_mgr.cpp:
  229-261` — the replication service (the sealer) switches over first and flushes last.

Simplifications.

* The Raft log is the numbered durable list that C59–C61 prove the log store to be: entry `lsn`
  (numbered from 1) is `log[lsn-1]`, the first `flushed` survive a crash, the first `first` are
  compacted.  An entry is either a configuration entry or an application entry, represented by the
  blocks its id names (C62).
* The Raft library (NuRaft) is represented by what it may do: append entries; remove entries above
  the highest entry that was ever committed; commit entry `m_commit_upto_lsn + 1` once it is on this
  member's disk; ask for compaction at any number.  `cidx` is a ghost: the highest number that the
  group has committed as far as this member has heard.
* Data service and listener are represented as in `Verif.Repl.Solo`: `commit_blk` sets blocks,
  `on_commit` adds to the listener's state, a checkpoint makes durable the bitmap as it is and the
  calls that were made before the exchange of the checkpoint pointer.  Freeing blocks is left out
  (also the freeing of a removed entry's blocks).
* Snapshots (baseline resync), membership changes and destruction are not modelled:
  `last_snapshot_lsn` is 0 and the stage is ACTIVE.
* Replay is one step, as in `Verif.Repl.Solo`.
-/
namespace HS.Repl.Raft

/-- A log entry: configuration, or application with the blocks of its data. -/
inductive Ent where
  | conf
  | app (blks : List Nat)
  deriving DecidableEq, Repr

/-- Where the running checkpoint is. -/
inductive Phase where
  | idle
  | captured (lsn : Nat)                    -- the sealer has switched over
  | swapped (lsn : Nat) (snap : List Nat)   -- new operations go to the next checkpoint
  | dataDone (lsn : Nat)                    -- index and data service have flushed
  | replDone
  deriving DecidableEq, Repr

/-- A member's device. -/
structure Dev where
  log : List Ent
  flushed : Nat
  first : Nat                            -- entries 1..first are compacted
  map : List Nat                         -- numbers with a request in `m_lsn_req_map`
  upto : Nat                             -- `m_commit_upto_lsn`
  cidx : Nat                             -- ghost: committed by the group
  work : Option (List Nat × Bool)        -- commit of `upto+1` running: blocks left, listener called
  bits : List Nat
  dataDisk : List Nat
  app : List Nat
  appDisk : List Nat
  dc : Nat                               -- superblock: `durable_commit_lsn`
  cp : Nat                               -- superblock: `checkpoint_lsn`
  lastCp : Nat                           -- `m_last_flushed_cp_lsn`
  phase : Phase
  load : Option Nat                      -- `flush_durable_commit_lsn` running: the number it read
  limit : Nat                            -- `m_truncation_upper_limit`
  acked : List Nat                       -- ghost: every `on_commit` call ever
  deriving DecidableEq, Repr

/-- A new device (raft_repl_dev.cpp:69-88): the superblock is value-initialised, so both numbers are
0; the log is numbered from 1. -/
def Dev.create : Dev :=
  { log := [], flushed := 0, first := 0, map := [], upto := 0, cidx := 0, work := none, bits := [],
    dataDisk := [], app := [], appDisk := [], dc := 0, cp := 0, lastCp := 0, phase := .idle,
    load := none, limit := 0, acked := [] }

/-- `on_log_found` for entry `lsn` (raft_repl_dev.cpp:2713-2799): nothing for an entry at or below
`checkpoint_lsn` or a configuration entry; above `durable_commit_lsn` the blocks are committed and
the request is linked for the state machine to decide; in between the entry is committed. -/
def Dev.logFound (d : Dev) (lsn : Nat) : Dev :=
  if lsn ≤ d.cp then d
  else match d.log[lsn - 1]? with
    | some (.app blks) =>
      if lsn > d.dc then { d with bits := d.bits ++ blks, map := lsn :: d.map }
      else { d with bits := d.bits ++ blks, app := d.app ++ [lsn], acked := d.acked ++ [lsn] }
    | _ => d

/-- `on_log_found` for the `k` entries from `lsn` on. -/
def Dev.replay (d : Dev) (lsn : Nat) : (k : Nat) → Dev
  | 0 => d
  | k + 1 => (d.logFound lsn).replay (lsn + 1) k

/-- What a crash leaves (raft_repl_dev.cpp:42-58): `m_commit_upto_lsn` is loaded from
`durable_commit_lsn`, `m_last_flushed_cp_lsn` from `checkpoint_lsn`; the truncation limit and the
request map are in memory only. -/
def Dev.crash (d : Dev) : Dev :=
  { d with log := d.log.take d.flushed, map := [], upto := d.dc, work := none, bits := d.dataDisk,
           app := d.appDisk, lastCp := d.cp, phase := .idle, load := none, limit := 0 }

/-- Crash and restart. -/
def Dev.restart (d : Dev) : Dev := d.crash.replay (d.first + 1) (d.flushed - d.first)

/-- What can happen. -/
inductive Op where
  | append (e : Ent)
  | flush
  | rollback (lsn : Nat)     -- entries `lsn` and above are removed (overwritten by the next appends)
  | commitBegin              -- `commit_ext` / `commit_config` of the next entry
  | commitBlk                -- … `commit_blk` of one block
  | commitApp                -- … `on_commit`
  | commitEnd                -- … `m_commit_upto_lsn.exchange`, request removed
  | cpCapture                -- a checkpoint starts: the replication service switches over first
  | cpSwap                   -- … then the others, and the checkpoint pointer is exchanged
  | cpData                   -- … index and data service flush
  | cpRepl (dirty : Bool)    -- … `RaftReplDev::cp_flush`; `dirty`: `m_compact_lsn` has changed
  | cpDone
  | dcLoad                   -- `flush_durable_commit_lsn` reads `m_commit_upto_lsn` …
  | dcStore                  -- … and, after calling the listener, writes it to the superblock
  | boundary (limit : Int)   -- `update_truncation_boundary`
  | compact (lsn : Nat)      -- `ReplLogStore::compact`
  | crash
  deriving DecidableEq, Repr

/-- The outcome of a step: impossible in this state, a dereferenced null request, or a new state. -/
inductive Res where
  | na
  | fault
  | ok (d : Dev)
  deriving DecidableEq, Repr

/-- One step. -/
def Dev.step (d : Dev) : Op → Res
  | .append e =>
    -- repl_log_store.cpp:10-27: an application entry's request is linked to its number
    .ok { d with log := d.log ++ [e],
                 map := match e with | .app _ => (d.log.length + 1) :: d.map | .conf => d.map }
  | .flush => .ok { d with flushed := d.log.length }
  | .rollback lsn =>
    if d.cidx < lsn then
      .ok { d with log := d.log.take (lsn - 1), flushed := min d.flushed (lsn - 1),
                   map := d.map.filter (· < lsn) }
    else .na
  | .commitBegin =>
    -- raft_state_machine.cpp:204-221 and 223-252; a missing request is dereferenced
    if d.work = none ∧ d.upto < d.flushed then
      match d.log[d.upto]? with
      | some (.app blks) =>
        if d.upto + 1 ∈ d.map then
          .ok { d with work := some (blks, false), cidx := max d.cidx (d.upto + 1) }
        else .fault
      | some .conf => .ok { d with upto := d.upto + 1, cidx := max d.cidx (d.upto + 1) }
      | none => .na
    else .na
  | .commitBlk =>
    match d.work with
    | some (b :: bs, false) => .ok { d with work := some (bs, false), bits := d.bits ++ [b] }
    | _ => .na
  | .commitApp =>
    match d.work with
    | some ([], false) => .ok { d with work := some ([], true), app := d.app ++ [d.upto + 1],
                                       acked := d.acked ++ [d.upto + 1] }
    | _ => .na
  | .commitEnd =>
    match d.work with
    | some ([], true) => .ok { d with work := none, upto := d.upto + 1,
                                      map := d.map.filter (· ≠ d.upto + 1) }
    | _ => .na
  | .cpCapture => if d.phase = .idle then .ok { d with phase := .captured d.upto } else .na
  | .cpSwap =>
    match d.phase with
    | .captured lsn => .ok { d with phase := .swapped lsn d.app }
    | _ => .na
  | .cpData =>
    match d.phase with
    | .swapped lsn snap => .ok { d with phase := .dataDone lsn, dataDisk := d.bits, appDisk := snap }
    | _ => .na
  | .cpRepl dirty =>
    match d.phase with
    | .dataDone lsn =>
      if lsn = d.lastCp ∧ dirty = false then .ok { d with phase := .replDone }
      else .ok { d with phase := .replDone, dc := max lsn d.dc, cp := lsn, lastCp := lsn }
    | _ => .na
  | .cpDone => if d.phase = .replDone then .ok { d with phase := .idle } else .na
  | .dcLoad => if d.load = none then .ok { d with load := some d.upto } else .na
  | .dcStore =>
    match d.load with
    | some lsn => .ok { d with dc := lsn, load := none }
    | none => .na
  | .boundary limit =>
    let exp := min limit (d.cp : Int)
    if exp ≤ d.limit then .ok d else .ok { d with limit := exp.toNat }
  | .compact lsn => .ok { d with first := max d.first (min lsn d.limit) }
  | .crash => .ok d.restart

/-- A history; it ends at the first step that is impossible or dereferences a null request. -/
def Dev.run (d : Dev) : List Op → Res
  | [] => .ok d
  | op :: ops =>
    match d.step op with
    | .ok d' => d'.run ops
    | r => r

end HS.Repl.Raft
