/-!
# The single-copy replicated device across checkpoints and crashes

Models `/repo/src/lib/replication/repl_dev/solo_repl_dev.cpp` — the constructor (16-41),
`write_journal`'s completion (76-95), `on_log_found` (176-224), `cp_flush` (249-259), `truncate`
(261-270), `cp_cleanup` (272-279) — with `solo_repl_dev.h:34-39` (superblock), the start-up order of
`service/generic_repl_svc.cpp:80-95`, and the order of the consumers of a checkpoint
(`checkpoint/cp_mgr.cpp`: data service and index first, the replication service last).

Simplifications.

* The journal is the numbered durable list that C34–C37 prove the log store to be: entry number
  `lsn` is `log[lsn]`, the first `flushed` entries survive a crash, entries below `first` have been
  truncated.  An entry is represented by the blocks its ids name (C62: they come back as written).
* The data service is represented by the set of blocks that its bitmap has as allocated, in memory
  (`bits`) and on disk (`dataDisk`); `commit_blk` sets them, a checkpoint writes the bitmap as it is
  at that moment (C10, C15).  Freeing is left out.
* The listener's own durable state is represented by the set of entries whose `on_commit` it has
  seen (`app`), and by that set as of its last checkpoint (`appDisk`): a checkpoint makes durable
  the calls made before its switchover (this is what `IndexTable`, the B-tree of this library,
  provides).
* Completions of the log device arrive one at a time and in order (C36).
* Replay after a restart is one step: it writes nothing to disk, so a crash in the middle of it is
  the same as a crash just before it.
* The `solo_force_replay` option is not modelled (off).
-/
namespace HS.Repl.Solo

/-- `solo_repl_dev_superblk` (solo_repl_dev.h:34-39, common.h:60-76): `durable_commit_lsn`,
`checkpoint_lsn`, `last_checkpoint_lsn_1`, `last_checkpoint_lsn_2`.  `m_rd_sb.write()` is
synchronous, so memory and disk agree. -/
structure Sb where
  durable : Int
  cp : Int
  cp1 : Int
  cp2 : Int
  deriving DecidableEq, Repr

/-- Where the running checkpoint is. -/
inductive Phase where
  | idle
  | started (snap : List Nat)   -- after the switchover: the `on_commit` calls that belong to it
  | dataDone                    -- index and data service have flushed
  | replDone                    -- the replication service has flushed
  deriving DecidableEq, Repr

/-- A device. -/
structure Dev where
  log : List (List Nat)        -- the blocks of every entry appended
  flushed : Nat                -- number of entries on disk
  first : Nat                  -- number of entries truncated
  next : Nat                   -- the entry whose completion comes next
  work : Option (List Nat)     -- completion of `next` running: blocks still to commit
  upto : Int                   -- `m_commit_upto`
  bits : List Nat
  dataDisk : List Nat
  app : List Nat
  appDisk : List Nat
  sb : Sb
  phase : Phase
  acked : List Nat             -- ghost: every entry whose `on_commit` was ever called
  cps : List Int               -- ghost: `durable_commit_lsn` of every checkpoint, newest first
  deriving DecidableEq, Repr

/-- A new device (solo_repl_dev.cpp:31-39).  `superblk::create` value-initialises the superblock
(superblk_handler.hpp:83), so every field without an initialiser is **zero**, and
`durable_commit_lsn` has none; `checkpoint_lsn` is set to −1 by the constructor, the other two by
their initialisers; `m_commit_upto` starts at −1. -/
def Dev.create : Dev :=
  { log := [], flushed := 0, first := 0, next := 0, work := none, upto := -1, bits := [],
    dataDisk := [], app := [], appDisk := [], sb := ⟨0, -1, -1, -1⟩, phase := .idle, acked := [],
    cps := [] }

/-- `on_log_found` for entry `lsn` (solo_repl_dev.cpp:176-224): skipped if
`m_commit_upto >= lsn`; else `m_commit_upto` becomes `lsn`, the blocks are committed, `on_commit` is
called. -/
def Dev.logFound (d : Dev) (lsn : Nat) : Dev :=
  if d.upto ≥ lsn then d
  else { d with upto := lsn, bits := d.bits ++ d.log.getD lsn [], app := d.app ++ [lsn],
                acked := d.acked ++ [lsn] }

/-- `on_log_found` for the `k` entries from `lsn` on, in order (the log device replays a store in
the order of its numbers, C35). -/
def Dev.replay (d : Dev) (lsn : Nat) : (k : Nat) → Dev
  | 0 => d
  | k + 1 => (d.logFound lsn).replay (lsn + 1) k

/-- What a crash leaves: the flushed entries, the bitmap and the listener's state as of their last
checkpoint, the superblock; `m_commit_upto` is loaded from it (solo_repl_dev.cpp:30). -/
def Dev.crash (d : Dev) : Dev :=
  { d with log := d.log.take d.flushed, next := d.flushed, work := none, upto := d.sb.durable,
           bits := d.dataDisk, app := d.appDisk, phase := .idle }

/-- Crash and restart: every entry still in the journal is found again. -/
def Dev.restart (d : Dev) : Dev := d.crash.replay d.first (d.flushed - d.first)

/-- What can happen. -/
inductive Op where
  | append (blks : List Nat)   -- `write_journal`: `append_async`
  | flush                      -- the log device flushes everything appended
  | advance                    -- completion of the next entry: `on_pre_commit`, then `m_commit_upto`
  | commitBlk                  -- … `commit_blk` of one block
  | commit                     -- … `on_commit`
  | cpStart                    -- a checkpoint starts: switchover
  | cpData                     -- … data service and index flush
  | cpRepl                     -- … `SoloReplDev::cp_flush`
  | cpDone                     -- … `cp_cleanup`
  | crash
  deriving DecidableEq, Repr

/-- One step; `none` if it cannot happen in this state. -/
def Dev.step (d : Dev) : Op → Option Dev
  | .append blks => some { d with log := d.log ++ [blks] }
  | .flush => some { d with flushed := d.log.length }
  | .advance =>
    -- solo_repl_dev.cpp:82-86; the callback runs only for an entry on disk
    if d.work = none ∧ d.next < d.flushed then
      some { d with work := some (d.log.getD d.next []),
                    upto := if d.upto < d.next then (d.next : Int) else d.upto }
    else none
  | .commitBlk =>
    -- solo_repl_dev.cpp:88-90
    match d.work with
    | some (b :: bs) => some { d with work := some bs, bits := d.bits ++ [b] }
    | _ => none
  | .commit =>
    -- solo_repl_dev.cpp:91-92
    match d.work with
    | some [] => some { d with work := none, next := d.next + 1, app := d.app ++ [d.next],
                               acked := d.acked ++ [d.next] }
    | _ => none
  | .cpStart => if d.phase = .idle then some { d with phase := .started d.app } else none
  | .cpData =>
    match d.phase with
    | .started snap => some { d with phase := .dataDone, dataDisk := d.bits, appDisk := snap }
    | _ => none
  | .cpRepl =>
    -- solo_repl_dev.cpp:249-259
    if d.phase = .dataDone then
      some { d with phase := .replDone, sb := ⟨d.upto, d.upto, d.sb.cp, d.sb.cp1⟩,
                    cps := d.upto :: d.cps }
    else none
  | .cpDone =>
    -- solo_repl_dev.cpp:261-279: truncate if `last_checkpoint_lsn_2` > 0
    if d.phase = .replDone then
      some { d with phase := .idle,
                    first := if d.sb.cp2 ≤ 0 then d.first else max d.first (d.sb.cp2 + 1).toNat }
    else none
  | .crash => some d.restart

/-- A history. -/
def Dev.run (d : Dev) : List Op → Option Dev
  | [] => some d
  | op :: ops => (d.step op).bind (fun d' => d'.run ops)

end HS.Repl.Solo
