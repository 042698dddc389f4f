import Verif.VAlloc.Props

/-!
# The round-robin chunk selector

Models `RoundRobinChunkSelector` (/repo/src/lib/device/round_robin_chunk_selector.cpp:18-34 and .h:26-44), the selector of every
virtual device that the user gives none of their own (/repo/src/lib/device/virtual_dev.cpp:98-103), in the place of the
arbitrary selector of `VAlloc/Model.lean`.

The index `m_next_chunk_index` is a `folly::ThreadLocal`: each thread has its own, zero at first, and no other thread changes
it between the attempts of one allocation.

Simplifications: the index is a natural number (`uint32_t` in the code; it never exceeds the number of chunks); the chunks are
those known when the device is opened (the constructor refuses to add chunks dynamically, .cpp:18-21).
-/
namespace HS.Rr

/-- `select_chunk`, round_robin_chunk_selector.cpp:25-28: the chunk chosen and the new index of the thread.  `none`: there is no
chunk and the first element of an empty vector is read, which is undefined. -/
def select (n idx : Nat) : Option (Nat × Nat) :=
  if n = 0 then none else
  let i := if idx ≥ n then 0 else idx
  some (i, i + 1)

/-- The index of the thread after `a` calls. -/
def idxAfter (n : Nat) : Nat → Nat → Nat
  | idx, 0 => idx
  | idx, a + 1 =>
    match select n (idxAfter n idx a) with
    | some (_, j) => j
    | none => idx

/-- The chunk that the `a`-th call (from 0) of the thread gets: the selector given to `allocBlks`. -/
def sel (n idx a : Nat) : Option Nat := (select n (idxAfter n idx a)).map (·.1)

/-- How many of the first `k` calls of the thread get chunk `ci`. -/
def cnt (n idx ci : Nat) : Nat → Nat
  | 0 => 0
  | k + 1 => cnt n idx ci k + if sel n idx k = some ci then 1 else 0

end HS.Rr
