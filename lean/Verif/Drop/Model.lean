import Verif.Common
/-!
# Destroying an index

Models `IndexTable::destroy` (/repo/src/include/homestore/index/index_table.hpp:135-149), `Btree::destroy_btree`
(/repo/src/include/homestore/btree/btree.ipp:62-80), `do_destroy` and the two `post_order_traversal`
(/repo/src/include/homestore/btree/detail/btree_common.ipp:23-76, 88-96), `IndexWBCache::free_buf`
(/repo/src/lib/index/wb_cache.cpp:444-456), and what the flush of a checkpoint does with the freed nodes
(wb_cache.cpp:827-850, 886-940, 960-977) and with the buffer of the superblock (index_internal.hpp:164-172).

Two parts: the traversal of the tree, with reads that can fail; and the steps of a destruction between those of
checkpoints, to say what a crash finds.  Not modelled: an index service with a chunk selector of its own (index_table.hpp:139: then
no node is freed and the owner of the chunks resets them); calls on the index while it is destroyed.
-/
namespace HS.Drop

/-! ## The traversal -/

/-- A node: its block, and for an interior node its children: one for each entry and the edge if it is valid
(btree_common.ipp:59-65). -/
inductive Nd where
  | leaf (b : Nat)
  | inner (b : Nat) (kids : List Nd)

def Nd.blk : Nd → Nat
  | .leaf b => b
  | .inner b _ => b

inductive Ret | freed | failed
deriving DecidableEq, Repr

mutual
/-- `post_order_traversal(node, ltype, cb)` with the callback of `do_destroy` (btree_common.ipp:51-76, 90-95): the blocks
freed, in this order, and what is returned. -/
def visit (bad : Nat → Bool) : Nd → List Nat × Ret
  | .leaf b => ([b], .freed)
  | .inner b ks =>
    let r := visitKids bad ks
    if r.2 then (r.1 ++ [b], .freed) else (r.1, .failed)
/-- The loop of btree_common.ipp:58-73: a child that cannot be read ends it; what the traversal of a child returns is
only looked at to unlock it. -/
def visitKids (bad : Nat → Bool) : List Nd → List Nat × Bool
  | [] => ([], true)
  | k :: ks =>
    if bad k.blk then ([], false)
    else
      let r := visit bad k
      let r' := visitKids bad ks
      (r.1 ++ r'.1, r'.2)
end

/-- `post_order_traversal(ltype, cb)` (btree_common.ipp:24-48): what reading the root returns is not looked at; a null
root is dereferenced (`none`: the process dies). -/
def doDestroy (bad : Nat → Bool) (root : Nd) : Option (List Nat × Ret) :=
  if bad root.blk then none else some (visit bad root)

/-- `IndexTable::destroy` (index_table.hpp:135-149) as its caller sees it: the blocks freed; the result of
`destroy_btree` is dropped and `success` returned. -/
def destroyCall (bad : Nat → Bool) (root : Nd) : Option (List Nat) := (doDestroy bad root).map (·.1)

/-! ## Destruction and checkpoints -/

/-- Where the call of `destroy` and its caller are. -/
inductive Stage where
  | live                       -- not called
  | freeing (rest : List Nat)  -- inside `destroy_btree`, with a guard of the current checkpoint
  | left                       -- the guard is released (index_table.hpp:142)
  | removed                    -- `m_sb.destroy()` is done (143)
  | invalid                    -- `m_sb_buffer->m_valid = false` is done (144), the call returns
  | dropped                    -- the caller has dropped its reference and the table is deleted
deriving DecidableEq, Repr

/-- One index and the checkpoints.  A node is known by its block; its content by a version number. -/
structure St where
  nodes : List Nat             -- blocks of the index, in the order of the traversal
  stage : Stage
  inMap : Bool                 -- the index service has the table (`remove_index_table` was not called)
  sb : Bool                    -- the superblock of the index is on disk
  ver : Nat → Nat              -- version of a node in memory
  pver : Nat → Nat             -- version in the buffers of the checkpoint that is flushed
  dver : Nat → Nat             -- version on disk
  curDirty : List Nat          -- nodes on the dirty list of the current checkpoint
  prevDirty : List Nat         -- nodes on that of the one that is flushed, not yet processed
  curFreed : List Nat          -- nodes whose buffer of the current checkpoint has `m_node_freed`
  prevFreed : List Nat         -- the same for the one that is flushed
  curFree : List Nat           -- `free_blk` list of the context of the current checkpoint
  prevFree : List Nat
  other : Bool                 -- another index has dirty buffers in the current checkpoint
  flushing : Bool
  anyDirty : Bool              -- `any_dirty_buffers()` was true when the flush began
  mem : Nat → Bool             -- bitmap in memory
  disk : Nat → Bool            -- bitmap on disk
  metaCur : Option Bool        -- superblock buffer on the current dirty list: its `m_valid`
  metaPrev : Option Bool       -- the one on the dirty list of the checkpoint that is flushed, not yet processed
  touched : Bool               -- a buffer of the index was processed by this flush (`m_updated_ordinals`)
  ub : Bool                    -- the superblock of a deleted table was read, or one that is already destroyed
  rver : Nat → Nat             -- bookkeeping: version of a node in the last completed checkpoint

inductive Op where
  | change (b : Nat)           -- a node of the index is changed in the current checkpoint
  | rootChange                 -- `on_root_changed`: a new superblock buffer (wb_cache.cpp:209-216)
  | otherChange                -- a node of another index is changed
  | begin                      -- `destroy` is called and `destroy_btree` has its lock
  | freeOne                    -- `free_node` of the next node
  | leave | sbDestroy | invalidate | drop
  | unreg                      -- `remove_index_table`
  | startFlush                 -- the current checkpoint begins to be flushed
  | write (b : Nat)            -- `do_flush_one_buf` and its completion
  | writeMeta                  -- the same for a superblock buffer
  | finish                     -- all is written: the bitmap, then the frees (wb_cache.cpp:968-974)
deriving DecidableEq, Repr

def upd {α : Type} (f : Nat → α) (i : Nat) (v : α) : Nat → α := fun x => if x = i then v else f x

/-- A node on the dirty list of the current checkpoint: `add_to_dirty_list` once per checkpoint
(index_table.hpp:301-313).  If the one being flushed has it too, the current one has a copy (wb_cache.cpp:180-196). -/
def St.dirtyIt (s : St) (b : Nat) : St :=
  { s with ver := upd s.ver b (s.ver b + 1), curDirty := if b ∈ s.curDirty then s.curDirty else b :: s.curDirty }

/-- `free_buf` (wb_cache.cpp:444-456): the flag is set in the buffer the node has now: that of the current checkpoint if the node is on its dirty
list, else the one the flushing checkpoint has, if any. -/
def St.freeBuf (s : St) (b : Nat) : St :=
  { s with curFree := b :: s.curFree,
           curFreed := if b ∈ s.curDirty then b :: s.curFreed else s.curFreed,
           prevFreed := if b ∈ s.curDirty then s.prevFreed else b :: s.prevFreed }

/-- `async_cp_flush` begins (wb_cache.cpp:827-888).  There is no guard inside the checkpoint any more (C24). -/
def St.start (s : St) : St :=
  { s with flushing := true, anyDirty := s.curDirty ≠ [] || s.metaCur.isSome || s.other,
           pver := s.ver, prevDirty := s.curDirty, curDirty := [], prevFreed := s.curFreed, curFreed := [],
           prevFree := s.curFree, curFree := [], metaPrev := s.metaCur, metaCur := none, other := false }

/-- The end of a flush: without dirty buffers it is over at once (wb_cache.cpp:841-850), else `m_vdev->cp_flush` writes the
bitmap and then applies the frees (virtual_dev.cpp:740-769).  Before that the superblocks of the indexes with processed buffers are written
(wb_cache.cpp:961-965, index_service.cpp:126-133, index_table.hpp:396-405): of a table in the map whose buffer is still valid, through a pointer
that `m_sb.destroy()` sets to null (superblk_handler.hpp:97-104). -/
def St.fin (s : St) : St :=
  if s.anyDirty then
    { s with flushing := false, touched := false, ub := s.ub || (s.touched && s.inMap && s.stage = .removed), disk := s.mem, mem := fun b => s.mem b && !s.prevFree.contains b, prevFree := [], prevFreed := [],
             rver := s.pver }
  else { s with flushing := false, touched := false, prevFree := [], prevFreed := [], rver := s.pver }

def step (s : St) : Op → Option St
  | .change b => if s.stage = .live ∧ b ∈ s.nodes then some (s.dirtyIt b) else none
  | .rootChange => if s.stage = .live then some { s with metaCur := some true } else none
  | .otherChange => some { s with other := true }
  | .begin => if s.stage = .live then some { s with stage := .freeing s.nodes } else none
  | .freeOne => match s.stage with
    | .freeing (b :: rest) => some { s.freeBuf b with stage := .freeing rest }
    | _ => none
  | .leave => if s.stage = .freeing [] then some { s with stage := .left } else none
  | .sbDestroy => if s.stage = .left then some { s with stage := .removed, sb := false } else none
  | .invalidate =>
    -- `m_sb_buffer` is the newest one
    if s.stage = .removed then
      some { s with stage := .invalid, metaCur := s.metaCur.map fun _ => false,
                    metaPrev := if s.metaCur.isSome then s.metaPrev else s.metaPrev.map fun _ => false }
    else none
  | .drop => if s.stage = .invalid ∧ s.inMap = false then some { s with stage := .dropped } else none
  | .unreg =>
    -- `tbl->ordinal()` is read from the superblock (index_service.cpp:171-183, index_table.hpp:152-153)
    match s.stage with
    | .dropped => none
    | .removed | .invalid => some { s with ub := true }
    | _ => some { s with inMap := false }
  | .startFlush => match s.stage with
    | .freeing _ => none
    | _ => if s.flushing then none else some s.start
  | .write b =>
    if s.flushing ∧ b ∈ s.prevDirty then
      some { s with prevDirty := s.prevDirty.erase b,
                    dver := if b ∈ s.prevFreed then s.dver else upd s.dver b (s.pver b), touched := true }
    else none
  | .writeMeta => match s.metaPrev with
    | none => none
    | some v =>
      if s.flushing then
        -- `m_valid`, then `m_sb.is_empty()` through a reference into the table (wb_cache.cpp:911-915)
        some { s with metaPrev := none, touched := true, ub := s.ub || (v && s.stage = .dropped) }
      else none
  | .finish => if s.flushing ∧ s.prevDirty = [] ∧ s.metaPrev = none then some s.fin else none

/-- An index as a completed checkpoint left it; `oth` are blocks of other indexes. -/
def St.init (nodes oth : List Nat) : St :=
  { nodes := nodes, stage := .live, inMap := true, sb := true, ver := fun _ => 0, pver := fun _ => 0, dver := fun _ => 0,
    curDirty := [], prevDirty := [], curFreed := [], prevFreed := [], curFree := [], prevFree := [], other := false, flushing := false,
    anyDirty := false, mem := fun b => nodes.contains b || oth.contains b, disk := fun b => nodes.contains b || oth.contains b, metaCur := none, metaPrev := none, touched := false, ub := false,
    rver := fun _ => 0 }

/-- States reached by steps that satisfy `ok`. -/
inductive Reach (nodes oth : List Nat) (ok : St → Op → Prop) : St → Prop
  | init : Reach nodes oth ok (St.init nodes oth)
  | step {s o s'} : Reach nodes oth ok s → ok s o → step s o = some s' → Reach nodes oth ok s'

/-! ## What is claimed -/

/-- What a crash would find: the index is not there, or all its nodes are allocated and at least as new as the last completed checkpoint. -/
def St.WholeOrGone (s : St) : Prop := s.sb = true → ∀ b ∈ s.nodes, s.disk b = true ∧ s.rver b ≤ s.dver b

/-- A schedule in which the index is taken off the service before it is destroyed, no checkpoint is being flushed while the nodes are freed, and none completes between that and
the removal of the superblock. -/
def Calm (s : St) : Op → Prop
  | .begin => s.flushing = false ∧ s.inMap = false
  | .finish => s.stage ≠ .left
  | .unreg => s.stage = .live
  | _ => True

/-- Besides: a checkpoint that frees blocks has dirty buffers. -/
def Busy (s : St) : Op → Prop
  | .startFlush => s.curFree = [] ∨ s.curDirty ≠ [] ∨ s.metaCur.isSome = true ∨ s.other = true
  | _ => True

end HS.Drop
