/-!
# The blocks of an index over checkpoints and crashes

Models `/repo/src/lib/index/wb_cache.cpp`: `alloc_buf` (95-125), `free_buf` (445-456), `async_cp_flush` (831-885),
the end of a flush in `process_write_completion` (960-977), and what `recover` (552-762) does with blocks;
`/repo/src/lib/index/index_service.cpp`: the forced checkpoint at the end of `start` (112-124);
`/repo/src/lib/device/virtual_dev.cpp`: `free_blk` (343-362), `cp_flush` (740-769); and
`/repo/src/lib/blkalloc/bitmap_blk_allocator.cpp`: `cp_flush` (57-71), `reserve_on_disk` (86-123) and
`free_on_disk` (125-146), which does not set the dirty flag.

Simplifications.

* Blocks are numbers; the trees are the sets of the blocks of their nodes.
* The writing of the bitmap is one step (`Verif.Vdev` has its small steps), and so is the freeing of the
  blocks of a checkpoint.
* A block is free for the allocator exactly when its bit is not set (`Verif.Fixed` and `Verif.Vdev` relate
  the two).
* Recovery may decide in any way which of the journalled nodes are kept: of the created ones, those in `keep`
  are in the tree after it, and of the freed ones, those in `drop` are not.  After a recovery from a journal
  the bitmap counts as dirty (it is if a node was kept).
* The checkpoint forced at the end of a start has no operation but recovery in it.
-/
namespace HS.Index.Space

abbrev Blk := Nat
abbrev Set := Blk → Bool

def upd (f : Set) (b : Blk) (v : Bool) : Set := fun x => if x = b then v else f x

/-- The part of a checkpoint's context that matters here. -/
structure Ctx where
  new : Set         -- blocks of created nodes (in the journal)
  freed : Set       -- `m_free_blkid_list`, and the freed nodes in the journal
  struc : Bool      -- there is a journal
  dirty : Bool      -- there are dirty buffers

def Ctx.empty : Ctx := { new := fun _ => false, freed := fun _ => false, struc := false, dirty := false }

/-- Where the checkpoint being taken is. -/
inductive Stage where
  | idle         -- none is being taken
  | drain        -- operations of the previous one are still running
  | nodes        -- the journal is written; nodes are being written
  | bitmap       -- all nodes and the bitmap are written
  | frees        -- … and the blocks are freed
  | skip         -- nothing dirty: nothing is written
  deriving DecidableEq, Repr

structure St where
  bm : Set            -- the bitmap in memory
  bmDirty : Bool      -- `m_is_disk_bm_dirty`
  img : Set           -- the bitmap on disk
  live : Set          -- the tree, as operations see it
  stable : Set        -- the tree on disk at the end of the last checkpoint completed
  cur : Ctx
  prev : Ctx
  stage : Stage
  jnl : Option (Set × Set)   -- the journal on disk, if its checkpoint is not completed
  exposed : Bool      -- ghost: recovered from a journal, and no bitmap written since

/-- A new index; block 0 is the root of its tree, and on disk. -/
def St.init : St :=
  { bm := fun b => b == 0, bmDirty := false, img := fun b => b == 0, live := fun b => b == 0, stable := fun b => b == 0,
    cur := .empty, prev := .empty, stage := .idle, jnl := none, exposed := false }

/-- What can happen.  `p`: by an operation of the previous checkpoint. -/
inductive Op where
  | alloc (p : Bool) (b : Blk)
  | free (p : Bool) (b : Blk)
  | change (p : Bool)           -- a node is changed, no block allocated or freed
  | switchover
  | startFlush
  | flushBitmap
  | applyFrees
  | complete
  | crash (keep drop : Set)     -- … and restart

/-- The context of an operation. -/
def St.ctx (s : St) (p : Bool) : Ctx := if p then s.prev else s.cur

def St.setCtx (s : St) (p : Bool) (c : Ctx) : St := if p then { s with prev := c } else { s with cur := c }

/-- The bitmap after a restart: the one on disk (bitmap_blk_allocator.cpp:47-55), with the kept new nodes
committed (wb_cache.cpp:650). -/
def committed (img keep : Set) : Set := fun b => img b || keep b

/-- One step; `none`: not possible now. -/
def St.step (s : St) : Op → Option St
  | .alloc p b =>
    -- wb_cache.cpp:95-125: allocated and committed at once
    if (p = true → s.stage = .drain) ∧ s.bm b = false then
      let c := s.ctx p
      some ({ s with bm := upd s.bm b true, bmDirty := true, live := upd s.live b true }.setCtx p
        { c with new := upd c.new b true, struc := true, dirty := true })
    else none
  | .free p b =>
    -- wb_cache.cpp:445-456: put on the list of the checkpoint.  An operation of the previous checkpoint cannot
    -- have a node that the current one has dirtied (wb_cache.cpp:174)
    if (p = true → s.stage = .drain ∧ s.cur.new b = false) ∧ s.live b = true then
      let c := s.ctx p
      some ({ s with live := upd s.live b false }.setCtx p
        { c with freed := upd c.freed b true, struc := true, dirty := true })
    else none
  | .change p =>
    if p = true → s.stage = .drain then some (s.setCtx p { s.ctx p with dirty := true }) else none
  | .switchover => if s.stage = .idle then some { s with prev := s.cur, cur := .empty, stage := .drain } else none
  | .startFlush =>
    -- wb_cache.cpp:841-866
    if s.stage = .drain then
      if s.prev.dirty then
        some { s with stage := .nodes, jnl := if s.prev.struc then some (s.prev.new, s.prev.freed) else none }
      else some { s with stage := .skip }
    else none
  | .flushBitmap =>
    if s.stage = .nodes then
      some { s with stage := .bitmap, img := if s.bmDirty then s.bm else s.img, bmDirty := false, exposed := false }
    else none
  | .applyFrees =>
    if s.stage = .bitmap then some { s with stage := .frees, bm := fun b => s.bm b && !s.prev.freed b } else none
  | .complete =>
    if s.stage = .frees ∨ s.stage = .skip then
      some { s with stage := .idle, stable := fun b => (s.stable b || s.prev.new b) && !s.prev.freed b,
                    prev := .empty, jnl := none }
    else none
  | .crash keep drop =>
    match s.jnl with
    | none =>
      some { s with bm := s.img, bmDirty := false, live := s.stable, cur := .empty, prev := .empty, stage := .skip }
    | some (n, f) =>
      let k : Set := fun b => keep b && n b
      let d : Set := fun b => drop b && f b
      some { s with bm := committed s.img k, bmDirty := true,
                    live := fun b => (s.stable b || k b) && !d b, cur := .empty,
                    prev := { Ctx.empty with new := k, freed := d }, stage := .skip, exposed := true }

/-- A history. -/
def St.run (s : St) : List Op → Option St
  | [] => some s
  | op :: ops => (s.step op).bind (fun s' => s'.run ops)

/-! ## Specification -/

def Op.isCrash : Op → Bool
  | .crash _ _ => true
  | _ => false

/-- No crash between a recovery from a journal and the next time the bitmap is written. -/
def NoExposedCrash (s : St) : List Op → Prop
  | [] => True
  | op :: ops => (op.isCrash = true → s.exposed = false) ∧ ∀ s', s.step op = some s' → NoExposedCrash s' ops

/-- No crash at all. -/
def NoCrash (ops : List Op) : Prop := ∀ op ∈ ops, op.isCrash = false

end HS.Index.Space
