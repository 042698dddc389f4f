/-!
# Resetting a chunk while checkpoints and I/O go on

Models `VChunk::reset` → `Chunk::reset_block_allocator` (chunk.cpp:65-83), the `reset` of the two families
of block allocators (append_blk_allocator.cpp:157-162, bitmap_blk_allocator.cpp:189-196),
`VirtualDev::reset_chunk_blk_allocator` (virtual_dev.cpp:131-136) and `VirtualDev::cp_flush`
(virtual_dev.cpp:740-769), for one chunk, with one thread that flushes, one that resets and any number of
threads doing I/O.

Simplified: one block per allocation, commit and release; the append allocator's commit offset is the end
of the highest block in the list `disk`; each of the allocator calls of an I/O thread is one step (the steps
inside them are in `Verif/Append` and in `Verif/Vdev`); the blocks of the super block of the chunk are added,
updated and removed in one step each (their crash atomicity is C20); `free_blk_now` and the counters of
released blocks are left out; two concurrent resets of one chunk are left out.
-/
namespace HS.Reset

/-- `blk_allocator_type_t`, virtual_dev.cpp:59-83: `append`, or `varsize`/`fixed`, which keep a bitmap. -/
inductive Kind where
  | append
  | bitmap
  deriving DecidableEq, Repr

/-- One super block of the chunk's allocator on disk: the number of its block, and what it says. -/
structure Rec where
  bid : Nat
  data : List Nat
  deriving DecidableEq, Repr

/-- One allocator object. -/
structure Obj where
  mem : List Nat             -- blocks in use (`m_last_append_offset`; `m_cache_bm` or `m_free_blk_q`)
  disk : List Nat            -- blocks committed (`m_commit_offset`; `m_disk_bm`)
  acc : Option (List Nat)    -- `m_alloc_blkid_list`, bitmap_blk_allocator.cpp:143-181
  dirty : Bool               -- `m_is_dirty`; `m_is_disk_bm_dirty`
  cookie : Option Nat        -- `m_sb.m_meta_blk`; `m_meta_blk_cookie`
  sb : Bool                  -- `m_sb` is not empty; `m_disk_bm` is not null
  deriving DecidableEq, Repr

/-- The thread that flushes: `VirtualDev::cp_flush`, virtual_dev.cpp:744-758. `got i`: holds the object `i`
(line 748). `ser i d u`: `d` was copied from the bitmap (bitmap_blk_allocator.cpp:61), `u`: there was a
super block to update (line 62). -/
inductive Fl where
  | idle
  | got (i : Nat)
  | ser (i : Nat) (d : List Nat) (u : Bool)
  deriving DecidableEq, Repr

/-- The thread that resets: `Chunk::reset_block_allocator`, chunk.cpp:73 done (`resetDone`), and the new
allocator made (`created j`), virtual_dev.cpp:132, but not yet set, line 135. -/
inductive Rs where
  | idle
  | resetDone
  | created (j : Nat)
  deriving DecidableEq, Repr

structure St where
  kind : Kind
  total : Nat                -- blocks in the chunk
  objs : Nat → Obj
  nobj : Nat
  cur : Nat                  -- `Chunk::m_blk_allocator`
  reg : Bool                 -- the allocator's name is registered with the meta service
  recs : List Rec            -- on disk
  fl : Fl
  rs : Rs
  held : List Nat            -- pointers that I/O threads got from `blk_allocator_mutable`, chunk.h:69
  pend : List Nat            -- `m_free_blkid_list` of the current checkpoint, virtual_dev.cpp:347
  flFree : List Nat          -- the same of the checkpoint being flushed, not yet freed
  -- What the user did since the last reset that returned:
  ever : List Nat            -- blocks committed
  com : List Nat             -- of these, the ones not released
  snap : List Nat            -- of these, the ones committed before the flush in progress copied the bitmap
  dur : List Nat             -- of these, the ones committed before a flush that completed

def upd (f : Nat → Obj) (i : Nat) (o : Obj) : Nat → Obj := fun k => if k = i then o else f k

/-- What is left after a step. `ub`: a null pointer or freed memory is used. `abort`: a release assert. -/
inductive Out where
  | ok (s : St)
  | ub
  | abort
  | no                       -- the step is not possible here

/-- One past the highest block. -/
def hi : List Nat → Nat
  | [] => 0
  | b :: l => max (b + 1) (hi l)

/-- The super block that recovery loads last: `recover_meta_sub_type`, meta_blk_service.cpp:1141-1145, goes
through `meta_bids`, a `std::set` (meta_sb.hpp:91), and every call of `on_meta_blk_found` replaces what the
one before loaded. -/
def winner : List Rec → Option Rec
  | [] => none
  | r :: l => match winner l with
    | none => some r
    | some q => if q.bid < r.bid then some r else some q

/-- A new allocator: `AppendBlkAllocator`, append_blk_allocator.cpp:25-47, with `need_format`;
`BitmapBlkAllocator`, bitmap_blk_allocator.cpp:23-45, with `is_fresh` (dirty from the start,
bitmap_blk_allocator.h:126). -/
def fresh (k : Kind) : Obj :=
  { mem := [], disk := [], acc := none, dirty := (k == .bitmap), cookie := none, sb := true }

/-- An allocator after a restart: the same constructors with `is_init = false` (virtual_dev.cpp:120-122) and
`on_meta_blk_found`, append_blk_allocator.cpp:49-59 and bitmap_blk_allocator.cpp:47-55. Without a super
block the append allocator has its initial values, and the bitmap stays null (bitmap_blk_allocator.cpp:34). -/
def recovered (k : Kind) (rs : List Rec) : Obj :=
  match k, winner rs with
  | .append, none => fresh .append
  | .append, some r => { mem := List.range (hi r.data), disk := r.data, acc := none, dirty := false,
                         cookie := some r.bid, sb := true }
  | .bitmap, none => { fresh .bitmap with sb := false }
  | .bitmap, some r => { mem := r.data, disk := r.data, acc := none, dirty := true,
                         cookie := some r.bid, sb := true }

/-- `add_sub_sb`, meta_blk_service.cpp:400-440: a release assert unless the name is registered (line 406);
`bid` is the block it takes. -/
def addRec (s : St) (i : Nat) (bid : Nat) (d : List Nat) : Out :=
  if s.reg = false then .abort
  else if s.recs.any (fun r => r.bid == bid) then .no
  else .ok { s with recs := ⟨bid, d⟩ :: s.recs, objs := upd s.objs i { s.objs i with cookie := some bid } }

/-- `update_sub_sb` with the cookie of the object, meta_blk_service.cpp:805: the cookie is the
address of the record's buffer. -/
def updRec (s : St) (i : Nat) (d : List Nat) : Out :=
  match (s.objs i).cookie with
  | none => .ub
  | some c => if s.recs.any (fun r => r.bid == c) then
      .ok { s with recs := s.recs.map (fun r => if r.bid = c then ⟨c, d⟩ else r) }
    else .ub

/-- The object `i` is still allocated: the chunk has it, or the flush holds it (virtual_dev.cpp:746-748), or
the reset is about to set it. -/
def alive (s : St) (i : Nat) : Bool :=
  i == s.cur || (match s.fl with | .idle => false | .got k => k == i | .ser k _ _ => k == i)

inductive Op where
  | ioGet                        -- an I/O thread reads the chunk's pointer
  | ioDrop (i : Nat)             -- and is done with it
  | alloc (i b : Nat)            -- `alloc` through the pointer
  | commit (i b : Nat)           -- `reserve_on_disk` through the pointer
  | freeReq (b : Nat)            -- `VirtualDev::free_blk`
  | flushGet                     -- the checkpoint switches, and `cp_flush` takes the object
  | flushRun (bid : Nat)         -- append: all of `cp_flush`; bitmap: up to the copy
  | flushWrite (bid : Nat)       -- bitmap: the rest of `cp_flush`
  | flushFree                    -- one turn of the loop of virtual_dev.cpp:762-768
  | rsReset
  | rsCreate
  | rsSet
  | crash
  deriving DecidableEq, Repr

/-- The block an allocation can give: append_blk_allocator.cpp:70-95 gives the next one; varsize and fixed give
one that is not in use (C08 and C09). -/
def canGive (k : Kind) (o : Obj) (b : Nat) : Bool :=
  match k with
  | .append => b == o.mem.length
  | .bitmap => !o.mem.contains b

/-- `alloc` through a pointer. An allocator without its bitmap gives nothing. -/
def doAlloc (s : St) (i b : Nat) : Out :=
  if i ∉ s.held then .no
  else if alive s i = false then .ub
  else if (s.objs i).sb = false ∧ s.kind = .bitmap then .no
  else if s.total ≤ b then .no
  else if canGive s.kind (s.objs i) b then
    .ok { s with objs := upd s.objs i { s.objs i with mem := b :: (s.objs i).mem } }
  else .no

/-- `reserve_on_disk`: append_blk_allocator.cpp:98-114; bitmap_blk_allocator.cpp:85-127 (release assert at
104, null bitmap at 107, the list at 95). The user's record: a call on the object the chunk has. -/
def doCommit (s : St) (i b : Nat) : Out :=
  if i ∉ s.held then .no
  else if alive s i = false then .ub
  else
    let s1 := if i = s.cur then { s with ever := b :: s.ever, com := b :: s.com } else s
    match s.kind with
    | .append =>
      if hi (s.objs i).disk ≥ b + 1 then .ok s1
      else .ok { s1 with objs := upd s.objs i { s.objs i with disk := b :: (s.objs i).disk, dirty := true } }
    | .bitmap =>
      match (s.objs i).acc with
      | some l => .ok { s1 with objs := upd s.objs i { s.objs i with acc := some (b :: l) } }
      | none =>
        if (s.objs i).sb = false then .ub
        else if b ∈ (s.objs i).disk then .abort
        else .ok { s1 with objs := upd s.objs i { s.objs i with disk := b :: (s.objs i).disk, dirty := true } }

/-- `VirtualDev::free_blk`, virtual_dev.cpp:343-368: the append allocator only counts
(append_blk_allocator.cpp:147-150), the others wait for the checkpoint. -/
def doFreeReq (s : St) (b : Nat) : Out :=
  match s.kind with
  | .append => .ok { s with objs := upd s.objs s.cur { s.objs s.cur with dirty := true } }
  | .bitmap => .ok { s with pend := b :: s.pend, com := s.com.filter (· ≠ b),
                            snap := s.snap.filter (· ≠ b), dur := s.dur.filter (· ≠ b) }

/-- The end of a flush of object `i`, for the user's record: `d` were committed before it. -/
def flushed (s : St) (i : Nat) (d : List Nat) : St :=
  { s with fl := .idle, snap := [], dur := if i = s.cur ∧ s.rs = .idle then d else s.dur }

/-- `cp_flush` of the append allocator, append_blk_allocator.cpp:127-144, under `m_sb_mtx`, which `reset` also
takes; up to line 61 for the bitmap allocators, bitmap_blk_allocator.cpp:57-62. -/
def doFlushRun (s : St) (bid : Nat) : Out :=
  match s.fl with
  | .got i =>
    if (s.objs i).dirty = false then .ok (flushed s i s.com)
    else match s.kind with
      | .append =>
        if (s.objs i).sb = false then .ub
        else
          let s1 := { s with objs := upd s.objs i { s.objs i with dirty := false } }
          match (match (s.objs i).cookie with
            | some _ => updRec s1 i (s.objs i).disk
            | none => addRec s1 i bid (s.objs i).disk) with
          | .ok s2 => .ok (flushed s2 i s2.com)
          | o => o
      | .bitmap =>
        if (s.objs i).sb = false then .ub
        else .ok { s with fl := .ser i (s.objs i).disk (s.objs i).cookie.isSome, snap := s.com,
                          objs := upd s.objs i { s.objs i with acc := some [] } }
  | _ => .no

/-- `release_underlying_buffer`, bitmap_blk_allocator.cpp:165-179: the commits since the copy are made now;
the flag is cleared before (line 67). -/
def release (o : Obj) : Option Obj :=
  match o.acc with
  | none => some { o with dirty := false }
  | some l => if l.any (fun b => decide (b ∈ o.disk)) ∨ ¬ l.Nodup then none
    else some { o with disk := l ++ o.disk, acc := none, dirty := !l.isEmpty }

/-- `cp_flush`, bitmap_blk_allocator.cpp:62-69. -/
def doFlushWrite (s : St) (bid : Nat) : Out :=
  match s.fl with
  | .ser i d u =>
    match (if u then updRec s i d else addRec s i bid d) with
    | .ok s2 => match release (s2.objs i) with
      | none => .abort
      | some o => .ok (flushed { s2 with objs := upd s2.objs i o } i s2.snap)
    | o => o
  | _ => .no

/-- virtual_dev.cpp:762-768 with `free`, varsize_blk_allocator.cpp:660-668: `free_on_disk`
(bitmap_blk_allocator.cpp:129-150) and `free_blks_direct` (release assert at 709). -/
def doFlushFree (s : St) : Out :=
  match s.fl, s.flFree with
  | .idle, b :: l =>
    if b ∈ (s.objs s.cur).mem then
      .ok { s with flFree := l,
                   objs := upd s.objs s.cur { s.objs s.cur with
                     mem := (s.objs s.cur).mem.filter (· ≠ b),
                     disk := (s.objs s.cur).disk.filter (· ≠ b) } }
    else .abort
  | _, _ => .no

/-- `m_blk_allocator->reset()`, chunk.cpp:73. Append, append_blk_allocator.cpp:157-162: not dirty any more,
`m_sb.destroy()` (superblk_handler.hpp:96-103), name deregistered. Bitmap, bitmap_blk_allocator.cpp:189-196:
only the super block is removed and the name deregistered. The user's record of durable blocks ends here. -/
def doReset (s : St) : Out :=
  match s.rs with
  | .idle =>
    let o := s.objs s.cur
    let o' := match s.kind with
      | .append => { o with dirty := false, cookie := none, sb := false }
      | .bitmap => { o with cookie := none }
    .ok { s with rs := .resetDone, reg := false, dur := [], snap := [],
                 recs := s.recs.filter (fun r => some r.bid ≠ o.cookie),
                 objs := upd s.objs s.cur o' }
  | _ => .no

/-- `create_blk_allocator` with `is_init`, virtual_dev.cpp:132-134: the constructor registers the name. -/
def doCreate (s : St) : Out :=
  match s.rs with
  | .resetDone => .ok { s with rs := .created s.nobj, nobj := s.nobj + 1, reg := true,
                               objs := upd s.objs s.nobj (fresh s.kind) }
  | _ => .no

/-- `set_block_allocator`, virtual_dev.cpp:135, chunk.h:80-83. The reset returns: the user's record starts
anew. -/
def doSet (s : St) : Out :=
  match s.rs with
  | .created j => .ok { s with rs := .idle, cur := j, ever := [], com := [], snap := [], dur := [] }
  | _ => .no

/-- A crash at any point, and the restart. -/
def restart (s : St) : St :=
  { s with objs := upd s.objs 0 (recovered s.kind s.recs), nobj := 1, cur := 0, reg := true, fl := .idle,
           rs := .idle, held := [], pend := [], flFree := [], com := s.dur, snap := [] }

def step (s : St) : Op → Out
  | .ioGet => .ok { s with held := s.cur :: s.held }
  | .ioDrop i => .ok { s with held := s.held.erase i }
  | .alloc i b => doAlloc s i b
  | .commit i b => doCommit s i b
  | .freeReq b => doFreeReq s b
  | .flushGet => if s.fl = .idle ∧ s.flFree = [] then
      .ok { s with fl := .got s.cur, flFree := s.pend, pend := [] } else .no
  | .flushRun bid => doFlushRun s bid
  | .flushWrite bid => doFlushWrite s bid
  | .flushFree => doFlushFree s
  | .rsReset => doReset s
  | .rsCreate => doCreate s
  | .rsSet => doSet s
  | .crash => .ok (restart s)

/-- A chunk just added (virtual_dev.cpp:117-129 with `is_fresh_chunk`). -/
def init (k : Kind) (total : Nat) : St :=
  { kind := k, total := total, objs := fun _ => fresh k, nobj := 1, cur := 0, reg := true, recs := [],
    fl := .idle, rs := .idle, held := [], pend := [], flFree := [], ever := [], com := [], snap := [], dur := [] }

inductive Reach (k : Kind) (total : Nat) (ok : St → Op → Prop) : St → Prop where
  | base : Reach k total ok (init k total)
  | step {s s' : St} (op : Op) : Reach k total ok s → ok s op → step s op = .ok s' → Reach k total ok s'

/-- Run a list of steps. -/
def run (s : St) : List Op → Out
  | [] => .ok s
  | op :: l => match step s op with
    | .ok s' => run s' l
    | o => o

/-! ## What the user sees -/

/-- The block counts as used after a crash now and the restart. -/
def usedAfter (s : St) (b : Nat) : Prop := b ∈ (recovered s.kind s.recs).mem

/-- The block counts as used now. -/
def usedNow (s : St) (b : Nat) : Prop := b ∈ (s.objs s.cur).mem

/-- No reset is in progress. -/
def quiet (s : St) : Prop := s.rs = .idle

end HS.Reset
