import Verif.Common
/-!
# What the services report as used

Models the counter of the variable-size allocator through allocations, frees, commits, checkpoints and restarts
(/repo/src/lib/blkalloc/bitmap_blk_allocator.h:100-102, bitmap_blk_allocator.cpp:47-55, 85-150, varsize_blk_allocator.cpp:234-241, 439-441, 641-671, 752-760,
/repo/src/lib/device/virtual_dev.cpp:167-189), and the numbers built on it: `VirtualDev::used_size` and `available_blks` (virtual_dev.cpp:662-676),
`BlkDataService::get_used_capacity` (/repo/src/lib/blkdata_svc/blkdata_service.cpp:336), `LogStoreService::used_size` and `total_size`
(/repo/src/lib/logstore/log_store_service.cpp:398-400), `IndexService::used_size` (/repo/src/lib/index/index_service.cpp:235-242).

Simplifications: which free blocks an allocation takes, the slab cache and the search are those of `Varsize/` (the set `used` here is what is not free there, and the counter of
one run is proved there: `C11_history_partial`); a checkpoint persists the bitmap in one step (its race with commits is in `Blk/`, C10); a bitmap is the duplicate-free list of the bits that
are set; a block id has one piece.
-/
namespace HS.Usage

structure Bid where
  blk : Nat
  cnt : Nat
deriving DecidableEq, Repr

def Bid.blks (b : Bid) : List Nat := List.range' b.blk b.cnt

/-- `set_bits`. -/
def setBits (l bs : List Nat) : List Nat := bs.foldl (fun a b => if b ∈ a then a else b :: a) l
/-- `reset_bits`. -/
def resetBits (l bs : List Nat) : List Nat := bs.foldl List.erase l

/-- The allocator of a chunk with `total` blocks. -/
structure Al where
  total : Nat
  used : List Nat       -- blocks that are not free (`m_cache_bm` and the slab cache)
  disk : List Nat       -- `m_disk_bm`
  pers : List Nat       -- the bitmap in the meta block
  cnt : Int             -- `m_alloced_blk_count`, an `int64_t`
  recovering : Bool     -- `hs()->is_initializing()`
deriving DecidableEq, Repr

def Al.init (total : Nat) : Al := { total := total, used := [], disk := [], pers := [], cnt := 0, recovering := false }

inductive Op where
  | alloc (b : Bid) | free (b : Bid) | commit (b : Bid) | cp | crash | ready
deriving DecidableEq, Repr

def step (a : Al) : Op → Option Al
  | .alloc b =>
    -- varsize_blk_allocator.cpp:400-447; only free blocks are taken (C11)
    if b.blk + b.cnt ≤ a.total ∧ ∀ x ∈ b.blks, x ∉ a.used then some { a with used := setBits a.used b.blks, cnt := a.cnt + b.cnt } else none
  | .free b =>
    -- varsize_blk_allocator.cpp:660-669; freeing what is free fails an assertion (`Expected bits to be set`, 706)
    if ∀ x ∈ b.blks, x ∈ a.used then some { a with used := resetBits a.used b.blks, disk := resetBits a.disk b.blks, cnt := a.cnt - b.cnt } else none
  | .commit b =>
    -- virtual_dev.cpp:181-188
    if a.recovering then
      if b.blk + b.cnt ≤ a.total then
        -- `reserve_on_cache` (varsize_blk_allocator.cpp:641-658) counts every block, `set_bits` only sets those that are not set
        some { a with used := setBits a.used b.blks, cnt := a.cnt + b.cnt, disk := setBits a.disk b.blks }
      else none
    else if ∀ x ∈ b.blks, x ∈ a.used then some { a with disk := setBits a.disk b.blks } else none
  | .cp => some { a with pers := a.disk }
  | .crash => some { a with used := a.pers, disk := a.pers, cnt := a.pers.length, recovering := true }
  | .ready => some { a with recovering := false }

inductive Reach (total : Nat) (ok : Al → Op → Prop) : Al → Prop
  | init : Reach total ok (Al.init total)
  | step {a o a'} : Reach total ok a → ok a o → step a o = some a' → Reach total ok a'

/-- `get_used_blks` of an allocator: a `blk_num_t`, 32 bits (varsize_blk_allocator.cpp:760). -/
def usedBlks (a : Al) : Nat := (a.cnt % 2 ^ 32).toNat
/-- `available_blks` of an allocator (752): a subtraction of 32-bit numbers. -/
def availBlks (a : Al) : Nat := ((a.total : Int) - usedBlks a) % 2 ^ 32 |>.toNat
/-- `VirtualDev::used_size` (virtual_dev.cpp:670-676) and with it `BlkDataService::get_used_capacity`. -/
def usedSize (blkSize : Nat) (cs : List Al) : Nat := ((cs.map usedBlks).sum * blkSize) % 2 ^ 64

/-- `LogStoreService::used_size` and `total_size` return 32 bits of the 64-bit number of the device (log_store_service.cpp:398-400). -/
def logSize (x : Nat) : Nat := x % 2 ^ 32

/-- An index: the number of its nodes, and `index_size` of its superblock. -/
structure Idx where
  nodes : Nat
  indexSize : Int
/-- A new index (index_internal.hpp:52, index_table.hpp:77-84); nothing changes `index_size` afterwards: growing an index by a node leaves it. -/
def Idx.new : Idx := ⟨1, 0⟩
def Idx.grow (i : Idx) : Idx := { i with nodes := i.nodes + 1 }
/-- The value of a 32-bit `int`. -/
def toInt32 (x : Int) : Int := (x + 2 ^ 31) % 2 ^ 32 - 2 ^ 31
/-- `IndexService::used_size` (index_service.cpp:235-242): the sum is kept in an `int` (`auto size{0}`) and returned as `uint64_t`. -/
def indexUsed (l : List Idx) : Nat := (l.foldl (fun (acc : Int) (i : Idx) => toInt32 (acc + i.indexSize)) 0 % 2 ^ 64).toNat

/-! ## What is claimed -/

/-- During recovery only blocks are committed that the bitmap of the last checkpoint, and what recovery did before, do not have. -/
def Fresh (a : Al) : Op → Prop
  | .commit b => a.recovering = true → ∀ x ∈ b.blks, x ∉ a.used
  | _ => True

end HS.Usage
