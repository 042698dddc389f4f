import Verif.Index.Flush
/-!
# Which index buffers wait for which: the links made by the tree operations of one checkpoint

Models `/repo/src/lib/index/wb_cache.cpp`: `write_buf` (127-143), `refresh_meta_buf` (200-220),
`transact_bufs` (281-361), `link_buf` (363-443); `IndexBuffer::add_down_buffer`,
`remove_down_buffer` (`/repo/src/lib/index/index_service.cpp:306-335`); the callers
`IndexTable::write_node_impl`, `transact_nodes`, `on_root_changed`
(`/repo/src/include/homestore/index/index_table.hpp:296-349, 375-394`); and, as far as they write nodes
and issue transactions, `check_split_root`, `split_node`
(`/repo/src/include/homestore/btree/detail/btree_mutate_impl.ipp:199-304`), `check_collapse_root`,
`merge_nodes` (`btree_remove_impl.ipp:180-240, 242-`), `create_root_node` (`btree_node_mgr.ipp:32-51`).

Simplifications.

* Buffers are numbers; a superblock buffer is a number like the others.  The buffers are those of one
  checkpoint: a node that the previous checkpoint is still writing has been copied to a fresh buffer
  (`Verif.Index.Cow`), a clean one carries no links (`C67_flush_order_partial`).
* Transactions are executed one after the other; in the code the counters are atomic and the nodes of
  one transaction are locked.
* The debug assertions are left out; the null pointer that `link_buf` would follow when a new up
  buffer has no up buffer is the outcome `none`.
-/
namespace HS.Index.Link
open HS.Index.Flush (Buf BState)

/-- The part of `IndexBuffer` that linking uses. -/
structure B where
  new : Bool           -- `m_created_cp_id` is the current checkpoint
  dirty : Bool         -- on the dirty list of the current checkpoint
  up : Option Nat      -- `m_up_buffer`
  wait : Int           -- `m_wait_for_down_buffers`
  deriving DecidableEq, Repr

/-- A buffer that the checkpoint has not touched. -/
def B.idle : B := { new := false, dirty := false, up := none, wait := 0 }

structure St where
  buf : Nat → B
  list : List Nat      -- `m_dirty_buf_list`

def St.init : St := { buf := fun _ => B.idle, list := [] }

def St.set (s : St) (b : Nat) (x : B) : St := { s with buf := fun i => if i = b then x else s.buf i }

/-- `alloc_buf` (wb_cache.cpp:95-125): `m_created_cp_id` is the current checkpoint. -/
def St.alloc (s : St) (b : Nat) : St := s.set b { s.buf b with new := true }

/-- `write_node_impl` (index_table.hpp:296-322) with `write_buf`, `add_to_dirty_list`
(index_cp.cpp:67-71); for a superblock buffer `refresh_meta_buf` (wb_cache.cpp:200-220): put on the
list the first time. -/
def St.write (s : St) (b : Nat) : St :=
  if (s.buf b).dirty then s
  else { (s.set b { s.buf b with dirty := true }) with list := s.list ++ [b] }

/-- `down_buf->m_up_buffer = real_up_buf; real_up_buf->add_down_buffer` (wb_cache.cpp:432-442). -/
def St.attach (s : St) (real down : Nat) : St :=
  let s1 := s.set down { s.buf down with up := some real }
  s1.set real { s1.buf real with wait := (s1.buf real).wait + 1 }

/-- `m_up_buffer->remove_down_buffer` (wb_cache.cpp:428-431). -/
def St.release (s : St) (u : Nat) : St := s.set u { s.buf u with wait := (s.buf u).wait - 1 }

/-- `link_buf` (wb_cache.cpp:363-443). -/
def St.link (s : St) (upb down : Nat) (sib : Bool) : Option St :=
  -- wb_cache.cpp:373-377
  match (if (s.buf upb).new then (s.buf upb).up else some upb) with
  | none => none
  | some real =>
    match (s.buf down).up with
    | none => some (s.attach real down)
    | some u =>
      -- wb_cache.cpp:407-425
      if sib = false ∨ u = real then some s else some ((s.release u).attach real down)

/-- The loops of `transact_bufs` over the new nodes (wb_cache.cpp:291-293). -/
def St.linkNew (s : St) (c : Nat) : List Nat → Option St
  | [] => some s
  | n :: ns => (s.link c n true).bind (fun s' => s'.linkNew c ns)

/-- … and over the freed nodes (wb_cache.cpp:295-304). -/
def St.linkFreed (s : St) (c : Nat) : List Nat → Option St
  | [] => some s
  | f :: fs =>
    if (s.buf f).wait ≠ 0 then (s.link c f true).bind (fun s' => s'.linkFreed c fs)
    else s.linkFreed c fs

/-- `transact_nodes` (index_table.hpp:324-349): the nodes are written, then `transact_bufs`. -/
def St.writes (s : St) : List Nat → St
  | [] => s
  | b :: bs => (s.write b).writes bs

def St.transact (s : St) (p c : Nat) (news freed : List Nat) : Option St :=
  let s1 := ((s.writes news).write c).write p
  ((s1.link p c false).bind (fun s2 => s2.linkNew c news)).bind (fun s3 => s3.linkFreed c freed)

/-- `on_root_changed` (index_table.hpp:375-394): the superblock buffer is put on the list and the
root linked to it. -/
def St.rootChanged (s : St) (m r : Nat) : Option St := (s.write m).link m r false

/-- All the new nodes of a transaction are allocated first. -/
def St.allocs (s : St) : List Nat → St
  | [] => s
  | b :: bs => (s.alloc b).allocs bs

/-- The structural changes of the tree in one checkpoint. -/
inductive Op where
  | write (b : Nat)                             -- a node changes in place
  | split (p c n : Nat)                         -- `split_node`: child `c` of `p` gives entries to `n`
  | merge (p l : Nat) (news freed : List Nat)   -- `merge_nodes`: `l` and `freed` become `l` and `news`
  | create (m r : Nat)                          -- `create_root_node`
  | rootSplit (m r c n : Nat)                   -- `check_split_root`: new root `r` over `c` and `n`
  | collapse (m c : Nat)                        -- `check_collapse_root`: the only child becomes root
  | rootSplitFail (m r c : Nat)                 -- `check_split_root`: no space for `n`
  deriving DecidableEq, Repr

def St.step (s : St) : Op → Option St
  | .write b => some (s.write b)
  | .split p c n => (s.alloc n).transact p c [n] []
  | .merge p l news freed => (s.allocs news).transact p l news freed
  | .create m r => (((s.alloc r).write r).rootChanged m r)
  | .rootSplit m r c n =>
    -- btree_mutate_impl.ipp:215-246, split_node 254-304
    ((s.alloc r).rootChanged m r).bind (fun s1 => (s1.alloc n).transact r c [n] [])
  | .collapse m c => (s.write c).rootChanged m c
  | .rootSplitFail m r c =>
    -- btree_mutate_impl.ipp:228-240: the new root is never written
    ((s.alloc r).rootChanged m r).bind (fun s1 => s1.rootChanged m c)

def St.run (s : St) : List Op → Option St
  | [] => some s
  | op :: ops => (s.step op).bind (fun s' => s'.run ops)

/-- What the flush (`Verif.Index.Flush`) sees. -/
def St.flushBuf (s : St) (b : Nat) : Buf :=
  { state := if (s.buf b).dirty then .dirty else .clean, mine := true, up := (s.buf b).up,
    wait := (s.buf b).wait }

/-! ## What the tree guarantees

`lvl` is the level of a node (leaves 0, superblocks above everything) and `pos` its place among the
nodes of its level, from left to right, freed nodes included. -/

/-- `u` is above `d`, or at the same level and to the left of it. -/
def Over (lvl pos : Nat → Nat) (u d : Nat) : Prop := lvl d < lvl u ∨ (lvl d = lvl u ∧ pos u < pos d)

/-- What holds of the nodes of an operation in a tree: the parent is above the child; a new node, or
the nodes being merged away, are right siblings of the child; new nodes are not in use; a new root is
above the old one and below the superblock.  `rootSplitFail` is not among them. -/
def Op.Ok (lvl pos : Nat → Nat) (s : St) : Op → Prop
  | .write _ => True
  | .split p c n => lvl c < lvl p ∧ lvl n = lvl c ∧ pos c < pos n ∧ s.buf n = B.idle ∧ n ≠ p ∧ n ≠ c
  | .merge p l news freed => lvl l < lvl p ∧ news.Nodup ∧
      (∀ n ∈ news, lvl n = lvl l ∧ pos l < pos n ∧ s.buf n = B.idle) ∧
      (∀ f ∈ freed, lvl f = lvl l ∧ pos l < pos f ∧ f ∉ news)
  | .create m r => lvl r < lvl m ∧ s.buf r = B.idle ∧ (s.buf m).new = false
  | .rootSplit m r c n => lvl r < lvl m ∧ lvl c < lvl r ∧ lvl n = lvl c ∧ pos c < pos n ∧
      s.buf r = B.idle ∧ s.buf n = B.idle ∧ (s.buf m).new = false
  | .collapse m c => lvl c < lvl m ∧ (s.buf m).new = false
  | .rootSplitFail _ _ _ => False

/-- Every operation of the history is such an operation when it is executed. -/
def Ok (lvl pos : Nat → Nat) (s : St) : List Op → Prop
  | [] => True
  | op :: ops => op.Ok lvl pos s ∧ ∀ s', s.step op = some s' → Ok lvl pos s' ops

end HS.Index.Link
