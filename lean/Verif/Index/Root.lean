import Verif.Common
/-!
# The root named by the superblock of an index table

Models `/repo/src/include/homestore/index/index_table.hpp`: the constructors (62-103), `on_root_changed` (375-393),
`update_sb` (396-405), and the changes of the root in recovery: `update_root` (535-564), called by `repair_links`
(871) before the new nodes are written (904), and the end of `repair_node` (277-283);
`/repo/src/lib/index/wb_cache.cpp`: `refresh_meta_buf` (199-220), `write_buf` (127-143), the writing of a superblock
buffer in `do_flush_one_buf` (908-920) and the end of a flush in `process_write_completion` (954-966);
`/repo/src/lib/index/index_service.cpp`: `write_sb` (125-132).

Run-time buffers never get their `m_index_ordinal` (index_internal.hpp:141), so at the end of a flush only the
table with ordinal 0 is given to `write_sb`.

Simplifications.

* One table; nodes are numbers without contents.
* A superblock buffer is written after the root it names (`Verif.Index.LinkProps`, C68, gives the cases where this
  is so) and all buffers of a checkpoint before it is completed (C67).
* An operation of the previous checkpoint cannot change a root that the current one has changed: it needs a write
  lock on the root, which is refused (wb_cache.cpp:172-176).
* No root split fails half way (C68).
-/
namespace HS.Index.Root

abbrev Node := Nat

inductive Stage where
  | idle         -- no checkpoint is being taken
  | drain        -- operations of the previous checkpoint are still running
  | flush        -- it is being written
  | recovering   -- after a restart
  deriving DecidableEq, Repr

structure St where
  zero : Bool              -- the table's ordinal is 0
  live : Option Node       -- `m_sb->root_node`
  tree : Option Node       -- `m_root_node_info`: the root that operations start from
  mdirty : Nat             -- `m_sb_buffer->m_dirtied_cp_id`; 0 for -1
  cp : Nat                 -- the current checkpoint, from 1 on
  bufCur : Option Node     -- the superblock buffer on the dirty list of the current checkpoint
  bufPrev : Option Node    -- … of the previous one
  disk : Option Node       -- the root in the superblock on disk
  stored : Node → Bool     -- the node is on disk
  stage : Stage
  base : Option Node       -- ghost: the root at the end of the last checkpoint completed
  rootPrev : Option Node   -- ghost: the root at the end of the checkpoint being taken
  pend : Option Node       -- in recovery: the new root that is still to be written

/-- A new table (index_table.hpp:62-93): its superblock is written without a root. -/
def St.init (zero : Bool) : St :=
  { zero, live := none, tree := none, mdirty := 0, cp := 1, bufCur := none, bufPrev := none, disk := none,
    stored := fun _ => false, stage := .idle, base := none, rootPrev := none, pend := none }

inductive Op where
  | rootChange (p : Bool) (n : Node)   -- `p`: by an operation of the previous checkpoint
  | switchover
  | startFlush
  | store (n : Node)       -- a node is written
  | writeMeta              -- the superblock buffer is written
  | finish                 -- the last buffer is written
  | skip                   -- … or there was none
  | crash                  -- and restart
  | recUpdateRoot (n : Node)    -- `update_root`
  | recStore               -- … its node is written
  | recRepaired (n : Node)      -- the end of `repair_node` for a node under the superblock
  | recDone
  deriving DecidableEq, Repr

/-- `on_root_changed` (375-393) with `refresh_meta_buf` at run time, in the current checkpoint. -/
def St.rootCur (s : St) (n : Node) : St :=
  { s with live := some n, tree := some n, mdirty := s.cp,
           bufCur := if s.mdirty = s.cp then (if s.bufCur.isSome then some n else none) else some n }

/-- The same by an operation of the previous checkpoint. -/
def St.rootOld (s : St) (n : Node) : St :=
  { s with live := some n, tree := some n, mdirty := s.cp - 1, rootPrev := some n,
           bufPrev := if s.mdirty = s.cp - 1 then (if s.bufPrev.isSome then some n else none) else some n }

/-- The same in recovery: `write_buf` writes the superblock at once (wb_cache.cpp:129-133), but a second change in
the same checkpoint only goes to the buffer (wb_cache.cpp:202-208). -/
def St.rootRec (s : St) (n : Node) : St :=
  { s with live := some n, mdirty := s.cp, disk := if s.mdirty = s.cp then s.disk else some n,
           base := if s.mdirty = s.cp then s.base else some n }

/-- One step; `none`: not possible now. -/
def St.step (s : St) : Op → Option St
  | .rootChange false n => if s.stage = .recovering then none else some (s.rootCur n)
  | .rootChange true n => if s.stage = .drain ∧ s.mdirty < s.cp then some (s.rootOld n) else none
  | .switchover =>
    if s.stage = .idle then
      some { s with cp := s.cp + 1, bufPrev := s.bufCur, bufCur := none, rootPrev := s.tree, stage := .drain }
    else none
  | .startFlush => if s.stage = .drain then some { s with stage := .flush } else none
  | .store n => if s.stage = .flush then some { s with stored := fun x => x == n || s.stored x } else none
  | .writeMeta =>
    match s.bufPrev with
    | none => none
    | some r =>
      if s.stage = .flush ∧ s.stored r = true then some { s with disk := some r, bufPrev := none } else none
  | .finish =>
    if s.stage = .flush ∧ s.bufPrev = none then
      some { s with disk := if s.zero then s.live else s.disk, base := s.rootPrev, stage := .idle }
    else none
  | .skip =>
    if s.stage = .flush ∧ s.bufPrev = none then some { s with base := s.rootPrev, stage := .idle } else none
  | .crash =>
    some { s with live := s.disk, tree := s.disk, mdirty := 0, bufCur := none, bufPrev := none, base := s.disk,
                  cp := if s.stage = .drain ∨ s.stage = .flush then s.cp - 1 else s.cp,
                  stage := .recovering, pend := none }
  | .recUpdateRoot n =>
    if s.stage = .recovering ∧ s.pend = none then some { s.rootRec n with tree := some n, pend := some n } else none
  | .recStore =>
    match s.pend with
    | none => none
    | some n =>
      if s.stage = .recovering then some { s with stored := fun x => x == n || s.stored x, pend := none } else none
  | .recRepaired n =>
    if s.stage = .recovering ∧ s.pend = none ∧ s.stored n = true then some (s.rootRec n) else none
  | .recDone => if s.stage = .recovering ∧ s.pend = none then some { s with stage := .idle } else none

def St.run (s : St) : List Op → Option St
  | [] => some s
  | op :: ops => (s.step op).bind (fun s' => s'.run ops)

/-! ## Specification -/

/-- The superblock on disk names a root that is on disk (or no root). -/
def RootOnDisk (s : St) : Prop := ∀ r, s.disk = some r → s.stored r = true

/-- The steps in which the code is right:
* the root of the table with ordinal 0 is not changed by the next checkpoint while one is being taken;
* after a recovery that changed the root it is not changed again in the same checkpoint;
* recovery does not crash between writing the superblock and the root;
* a node repaired in recovery under the superblock is the root. -/
def Good (s : St) : Op → Prop
  | .rootChange false _ => (s.zero = true → s.stage = .idle) ∧ (s.mdirty = s.cp → s.bufCur ≠ none)
  | .rootChange true _ => s.mdirty = s.cp - 1 → s.bufPrev ≠ none
  | .recUpdateRoot _ => s.mdirty ≠ s.cp
  | .crash => s.pend = none
  | .recRepaired n => s.live = some n
  | _ => True

def AllGood (s : St) : List Op → Prop
  | [] => True
  | op :: ops => Good s op ∧ ∀ s', s.step op = some s' → AllGood s' ops

end HS.Index.Root
