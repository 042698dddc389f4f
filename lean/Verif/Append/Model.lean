import Verif.Common
/-!
# Model of the append block allocator

Models `src/lib/blkalloc/append_blk_allocator.cpp` and `.h`.
`blk_num_t` is `uint32_t`; arithmetic that can wrap is written with `% 2^32`.
-/
namespace HS.Append

def u32 : Nat := 2 ^ 32

/-- What a caller passes/gets: `BlkId` restricted to this chunk (block number, count). -/
structure Bid where
  num : Nat
  cnt : Nat
  deriving DecidableEq, Repr

/-- Persisted `append_blk_sb_t` fields that recovery uses. -/
structure Sb where
  commitOffset : Nat
  freeableNblks : Nat
  deriving DecidableEq, Repr

/-- Members of `AppendBlkAllocator`, append_blk_allocator.h:125-131, plus the persisted
super block (`none` = never written). `total` is `get_total_blks()`. -/
structure St where
  total : Nat
  last : Nat := 0
  commit : Nat := 0
  freeable : Nat := 0
  dirty : Bool := false
  disk : Option Sb := none
  deriving DecidableEq, Repr

inductive Out where
  | ok (b : Bid)        -- BlkAllocStatus::SUCCESS with the block id
  | spaceFull           -- BlkAllocStatus::SPACE_FULL
  | done                -- void / SUCCESS without id
  deriving DecidableEq, Repr

/-- `AppendBlkAllocator::available_blks`, append_blk_allocator.cpp:178 (unsigned
subtraction wraps). -/
def St.available (s : St) : Nat := (s.total + u32 - s.last % u32) % u32

/-- `get_used_blks`, append_blk_allocator.cpp:180. -/
def St.used (s : St) : Nat := s.last

/-- `AppendBlkAllocator::alloc` space check, append_blk_allocator.cpp:71-80. The branch at
81-86 cannot be taken: `nblks` is a `uint16_t`, so at most `max_blks_per_blkid()`. -/
def St.hasSpace (s : St) (nblks : Nat) (reserved : Option Nat) : Bool :=
  let avail := match reserved with
    | some r => if s.available > r then s.available - r else 0
    | none => s.available
  ! (avail < nblks)

/-- `AppendBlkAllocator::alloc`, append_blk_allocator.cpp:70-95, executed without
interference (`alloc_contiguous`, line 64, is `alloc 1 none`). -/
def St.alloc (s : St) (nblks : Nat) (reserved : Option Nat) : St × Out :=
  if s.hasSpace nblks reserved then
    ({ s with last := (s.last + nblks) % u32 }, .ok ⟨s.last, nblks⟩)
  else (s, .spaceFull)

/-- `reserve_on_disk`, append_blk_allocator.cpp:98-114 (the CAS loop computes the
maximum; the assertion at line 99 is debug only). -/
def St.reserveOnDisk (s : St) (b : Bid) : St :=
  let newOff := (b.num + b.cnt) % u32
  if s.commit ≥ newOff then s else { s with commit := newOff, dirty := true }

/-- `reserve_on_cache`, append_blk_allocator.cpp:118-125. -/
def St.reserveOnCache (s : St) (b : Bid) : St :=
  let newOff := (b.num + b.cnt) % u32
  if s.last ≥ newOff then s else { s with last := newOff }

/-- `free`, append_blk_allocator.cpp:147-150. -/
def St.free (s : St) (b : Bid) : St :=
  { s with freeable := (s.freeable + b.cnt) % u32, dirty := true }

/-- `cp_flush`, append_blk_allocator.cpp:127-144; `m_sb.write()` is one atomic metablk
update (crash atomicity of that update is property C20). -/
def St.cpFlush (s : St) : St :=
  if s.dirty then { s with dirty := false, disk := some ⟨s.commit, s.freeable⟩ } else s

/-- Crash and restart: constructor, append_blk_allocator.cpp:25-47, with
`need_format = false`, then `on_meta_blk_found`, lines 49-59, if a super block exists. -/
def St.restart (s : St) : St :=
  match s.disk with
  | some sb => { total := s.total, last := sb.commitOffset, commit := sb.commitOffset,
                 freeable := sb.freeableNblks, dirty := false, disk := s.disk }
  | none => { total := s.total, disk := none }

inductive Op where
  | alloc (nblks : Nat) (reserved : Option Nat)
  | free (b : Bid)
  | commit (b : Bid)         -- reserve_on_disk
  | reserveCache (b : Bid)   -- reserve_on_cache (log replay after restart)
  | cpFlush
  | crash
  deriving DecidableEq, Repr

def step (s : St) : Op → St × Out
  | .alloc n r => s.alloc n r
  | .free b => (s.free b, .done)
  | .commit b => (s.reserveOnDisk b, .done)
  | .reserveCache b => (s.reserveOnCache b, .done)
  | .cpFlush => (s.cpFlush, .done)
  | .crash => (s.restart, .done)

/-! ## Concurrent model

Each thread executes one allocator call at a time; every access to a shared atomic
variable is one step. -/

inductive PC where
  | idle
  | checked (nblks : Nat)         -- passed the check of line 75, before fetch_add of line 89
  | casDone (off : Nat)           -- line 110 succeeded, before `m_is_dirty.store` of line 112
  | flushXchg (snap : List Nat)   -- holds m_sb_mtx, line 137 returned true
  | flushLoad (snap : List Nat) (c : Nat)  -- line 138 done, before the write of line 142
  deriving DecidableEq, Repr

/-- `outs`: ranges returned so far; `committed`: end offsets of `reserve_on_disk` calls that
have returned; `flushed`: the `committed` list as it was when the most recently *finished*
`cp_flush` *started*.  These three are history variables; `snap` in a `PC` is one too. -/
structure CSt where
  total : Nat
  last : Nat := 0
  commit : Nat := 0
  dirty : Bool := false
  disk : Nat := 0
  mtx : Option Nat := none
  pc : Nat → PC := fun _ => .idle
  outs : List Bid := []
  committed : List Nat := []
  flushed : List Nat := []

inductive CAct where
  | allocCheck (t nblks : Nat)
  | allocAdd (t : Nat)
  | commitCas (t off : Nat)
  | commitDirty (t : Nat)
  | flushBegin (t : Nat)
  | flushLoad (t : Nat)
  | flushWrite (t : Nat)
  deriving DecidableEq, Repr

def CSt.setPc (s : CSt) (t : Nat) (p : PC) : CSt :=
  { s with pc := fun u => if u = t then p else s.pc u }

/-- One atomic step of thread `t`. -/
def cstep (s : CSt) : CAct → Option CSt
  | .allocCheck t n =>            -- append_blk_allocator.cpp:71-80 (no reservation hint)
    if s.pc t = .idle then
      if (s.total + u32 - s.last % u32) % u32 < n then some s
      else some (s.setPc t (.checked n))
    else none
  | .allocAdd t =>                -- append_blk_allocator.cpp:89
    match s.pc t with
    | .checked n => some { s.setPc t .idle with
        last := (s.last + n) % u32, outs := ⟨s.last, n⟩ :: s.outs }
    | _ => none
  | .commitCas t off =>           -- append_blk_allocator.cpp:101-110
    if s.pc t = .idle then
      if s.commit ≥ off then some { s with committed := off :: s.committed }
      else some { s.setPc t (.casDone off) with commit := off }
    else none
  | .commitDirty t =>             -- append_blk_allocator.cpp:112
    match s.pc t with
    | .casDone off => some { s.setPc t .idle with dirty := true, committed := off :: s.committed }
    | _ => none
  | .flushBegin t =>              -- append_blk_allocator.cpp:129,137
    if s.pc t = .idle ∧ s.mtx = none then
      if s.dirty then some { s.setPc t (.flushXchg s.committed) with dirty := false, mtx := some t }
      else some { s with flushed := s.committed }
    else none
  | .flushLoad t =>               -- append_blk_allocator.cpp:138
    match s.pc t with
    | .flushXchg snap => some (s.setPc t (.flushLoad snap s.commit))
    | _ => none
  | .flushWrite t =>              -- append_blk_allocator.cpp:142
    match s.pc t with
    | .flushLoad snap c => some { s.setPc t .idle with disk := c, mtx := none, flushed := snap }
    | _ => none

end HS.Append
