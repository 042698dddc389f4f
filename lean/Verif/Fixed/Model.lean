import Verif.Common
/-!
# Model of the fixed-size block allocator

Models `src/lib/blkalloc/fixed_blk_allocator.cpp` and `.h`.  Calls are executed one at a time.
The `folly::MPMCQueue` of capacity `get_total_blks()` is a list, oldest first: `write` on a full
queue fails and its result is only checked by a debug assertion, `read` on an empty one fails.
-/
namespace HS.Fixed

inductive Phase where
  | recovering | active
  deriving DecidableEq, Repr

/-- Members of `FixedBlkAllocator`, fixed_blk_allocator.h:52-57. `reserved` is the
`unordered_set` of reserved blocks (a list without duplicates is not required here: `insert` of
a present element leaves it unchanged). -/
structure St where
  total : Nat
  q : List Nat
  reserved : List Nat
  phase : Phase
  deriving DecidableEq, Repr

inductive Out where
  | ok (blk : Nat)
  | spaceFull
  | done
  deriving DecidableEq, Repr

/-- `load` / `init_portion`, fixed_blk_allocator.cpp:28-51, called with the persisted bitmap
(`on_meta_blk_found`, bitmap_blk_allocator.cpp:47-55) or on a fresh start (constructor,
fixed_blk_allocator.cpp:23-26; then `bm` is all false).  Every block whose bit is reset is queued
in increasing order; the phase starts as RECOVERING (fixed_blk_allocator.h:54). -/
def load (total : Nat) (bm : Nat → Bool) : St :=
  { total, q := (List.range total).filter (fun b => ! bm b), reserved := [], phase := .recovering }

/-- The `retry` loop of `alloc`, fixed_blk_allocator.cpp:59-72. -/
def allocLoop (phase : Phase) : List Nat → List Nat → Option Nat × List Nat × List Nat
  | [], reserved => (none, [], reserved)
  | b :: q, reserved =>
    if phase = .recovering ∧ b ∈ reserved then allocLoop phase q (reserved.erase b)
    else (some b, q, reserved)

/-- `FixedBlkAllocator::alloc`, fixed_blk_allocator.cpp:55-75 (the requested count is
ignored: one block is returned). -/
def St.alloc (s : St) : St × Out :=
  let r := allocLoop s.phase s.q s.reserved
  ({ s with q := r.2.1, reserved := r.2.2 },
    match r.1 with
    | some b => .ok b
    | none => .spaceFull)

/-- `reserve_on_cache`, fixed_blk_allocator.cpp:79-83. -/
def St.reserve (s : St) (b : Nat) : St :=
  if s.phase = .recovering then
    { s with reserved := if b ∈ s.reserved then s.reserved else b :: s.reserved }
  else s

/-- The loop of `recovery_completed`, fixed_blk_allocator.cpp:89-96; `i` counts down from
`available_blks()`. -/
def rcLoop (reserved : List Nat) : Nat → List Nat → List Nat
  | 0, q => q
  | _ + 1, [] => []
  | i + 1, b :: q => if b ∈ reserved then rcLoop reserved i q else rcLoop reserved i (q ++ [b])

/-- `recovery_completed`, fixed_blk_allocator.cpp:85-101. -/
def St.recoveryCompleted (s : St) : St :=
  if s.reserved = [] then { s with phase := .active }
  else { s with q := rcLoop s.reserved s.q.length s.q, reserved := [], phase := .active }

/-- `MPMCQueue::write` on the free queue: fails silently when full. -/
def St.push (s : St) (b : Nat) : St :=
  if s.q.length < s.total then { s with q := s.q ++ [b] } else s

/-- `free`, fixed_blk_allocator.cpp:103-117 (the disk bitmap part is modelled in `Verif.Vdev`). -/
def St.free (s : St) (b : Nat) : St :=
  let s := s.push b
  if s.phase = .recovering then { s with reserved := s.reserved.erase b } else s

/-- `available_blks`, fixed_blk_allocator.cpp:119. -/
def St.available (s : St) : Nat := s.q.length

inductive Op where
  | alloc
  | free (b : Nat)
  | reserve (b : Nat)
  | recoveryCompleted
  deriving DecidableEq, Repr

def step (s : St) : Op → St × Out
  | .alloc => s.alloc
  | .free b => (s.free b, .done)
  | .reserve b => (s.reserve b, .done)
  | .recoveryCompleted => (s.recoveryCompleted, .done)

end HS.Fixed
