import Verif.Common
/-!
# Concurrent use of the fixed-size allocator and its bitmap

Models the order of the two parts of `FixedBlkAllocator::free`
(`/repo/src/lib/blkalloc/fixed_blk_allocator.cpp` 103-117): the block goes to the queue of free blocks first and its
bit in the bitmap is reset afterwards; `alloc` (55-75) in the active state; and the commit of an allocated block,
`reserve_on_disk` (`/repo/src/lib/blkalloc/bitmap_blk_allocator.cpp` 86-123), with its release assertion (102-107)
that the bit is not set, which is only made when HomeStore is not initializing.

Simplifications: a free is two steps, any other call one; no bitmap is being written (`Verif.Vdev` has that side);
the queue is not full.
-/
namespace HS.Fixed.Race

structure St where
  q : List Nat            -- the free queue, oldest first
  bm : Nat → Bool         -- the bitmap
  held : Nat → Bool       -- ghost: allocated, not yet committed
  com : Nat → Bool        -- ghost: committed and not freed
  fr : Nat → Bool         -- the free of this block is between its two parts
  init : Bool             -- `hs()->is_initializing()`

/-- All of `total` blocks are free. -/
def St.start (total : Nat) (init : Bool) : St :=
  { q := List.range total, bm := fun _ => false, held := fun _ => false, com := fun _ => false, fr := fun _ => false, init }

def upd (f : Nat → Bool) (b : Nat) (v : Bool) : Nat → Bool := fun x => if x = b then v else f x

inductive Op where
  | alloc
  | commit (b : Nat)
  | freeBegin (b : Nat)
  | freeEnd (b : Nat)
  deriving DecidableEq, Repr

inductive Out where
  | ok (s : St)
  | abort           -- the release assertion fails
  | no              -- not possible now (the caller does not have the block, or there is none)

/-- One step. -/
def St.step (s : St) : Op → Out
  | .alloc =>
    match s.q with
    | [] => .no
    | b :: q => .ok { s with q := q, held := upd s.held b true }
  | .commit b =>
    if s.held b then
      if s.bm b = true ∧ s.init = false then .abort
      else .ok { s with bm := upd s.bm b true, held := upd s.held b false, com := upd s.com b true }
    else .no
  | .freeBegin b =>
    if s.com b then .ok { s with q := s.q ++ [b], com := upd s.com b false, fr := upd s.fr b true } else .no
  | .freeEnd b => if s.fr b then .ok { s with bm := upd s.bm b false, fr := upd s.fr b false } else .no

/-- A history; it ends when the process aborts. -/
def St.run (s : St) : List Op → Out
  | [] => .ok s
  | op :: ops =>
    match s.step op with
    | .ok s' => s'.run ops
    | .abort => .abort
    | .no => .no

/-- No allocation takes a block whose free is still running. -/
def NoEarlyAlloc (s : St) : List Op → Prop
  | [] => True
  | op :: ops => (op = .alloc → ∀ b q, s.q = b :: q → s.fr b = false) ∧ ∀ s', s.step op = .ok s' → NoEarlyAlloc s' ops

end HS.Fixed.Race
