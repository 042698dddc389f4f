/-!
# Sizing of a virtual device (C19)

`DeviceManager::compose_vparam`, `src/lib/device/device_manager.cpp` 403-505.  `vdev_size` has 64 bits, `num_chunks`,
`blk_size` and `chunk_size` have 32 (`device.h` 102-117).  `sisl::round_up` and `round_down` compute with 64 bits.
-/

namespace HS.DevMgr

def u32 (n : Nat) : Nat := n % 4294967296
def u64 (n : Nat) : Nat := n % 18446744073709551616

/-- `sisl::round_up`, with the multiple not 0. -/
def roundUp (n m : Nat) : Nat := u64 (n + m - 1) / m * m

/-- `sisl::round_down`, with the multiple not 0. -/
def roundDown (n m : Nat) : Nat := n / m * m

/-- `vdev_parameters`, `device.h` 102-117: the numbers. -/
structure VParam where
  /-- `VDEV_SIZE_STATIC` -/
  static : Bool
  size : Nat
  num : Nat
  blk : Nat
  chunk : Nat
  deriving DecidableEq, Repr

/-- `vdev_multi_pdev_opts_t` with what is used of the devices: the sum of their streams; the streams of the first and
the number of devices. -/
inductive Multi where
  | striped (streams : Nat)
  | mirrored (streams n : Nat)
  | single
  deriving DecidableEq, Repr

inductive VFault where
  | divZero
  | abort
  deriving DecidableEq, Repr

/-- `MAX_CHUNKS_IN_SYSTEM`, `hs_super_blk.h` 175. -/
def maxChunks : Nat := 65536

/-- `min_chunk_size`, `hs_super_blk.h` 210-218. -/
def minChunk (fast : Bool) : Nat := if fast then 33554432 else 16777216

/-- `device_manager.cpp` 405-415: the number of chunks asked for, adjusted to the devices. -/
def adjustNum (opt : Multi) (num : Nat) : Except VFault Nat :=
  match opt with
  | .striped s => if s = 0 then .error .divZero else .ok (u32 (roundUp num s))
  | .mirrored s n => if s = 0 then .error .divZero else .ok (u32 (roundUp num s * n))
  | .single => .ok num

/-- 421: `max_num_chunks`. -/
def maxNum (fast : Bool) (size : Nat) : Nat := min (u32 (size / minChunk fast)) maxChunks

/-- 429-451, the number of chunks is given. -/
def byNum (fast : Bool) (p : VParam) : Except VFault VParam :=
  let num := min (max p.num (u32 ((p.size - 1) / 4294967295 + 1))) (maxNum fast p.size)
  let m := u32 (num * p.blk)
  if m = 0 then .error .divZero
  else
    let size := roundDown p.size m
    .ok { p with num := num, size := size, chunk := u32 (size / num) }

/-- 454-455 and 478-479: the chunk size, adjusted. -/
def adjustChunk (fast : Bool) (p : VParam) : Except VFault Nat :=
  if p.blk = 0 then .error .divZero else .ok (u32 (roundUp (max p.chunk (minChunk fast)) p.blk))

/-- 452-469, the chunk size is given. -/
def byChunk (fast : Bool) (p : VParam) : Except VFault VParam :=
  match adjustChunk fast p with
  | .error x => .error x
  | .ok c =>
    if c = 0 then .error .divZero
    else
      let size := roundDown p.size c
      .ok { p with chunk := c, size := size, num := u32 (size / c) }

/-- 474-492, a device that grows. -/
def dynamic (fast : Bool) (p : VParam) : Except VFault VParam :=
  if p.chunk = 0 then .error .abort
  else
    match adjustChunk fast p with
    | .error x => .error x
    | .ok c => .ok { p with chunk := c, size := 0 }

/-- The checks at the end, 494-498; `max` is the `max_num_chunks` of line 421. -/
def sanity (fast : Bool) (max : Nat) (q : VParam) : Except VFault VParam :=
  if q.chunk = 0 ∨ q.blk = 0 then .error .divZero
  else if q.size % q.chunk ≠ 0 then .error .abort
  else if q.chunk % q.blk ≠ 0 then .error .abort
  else if q.chunk < minChunk fast then .error .abort
  else if max < q.num then .error .abort
  else .ok q

/-- `compose_vparam`. -/
def compose (fast : Bool) (opt : Multi) (p : VParam) : Except VFault VParam := do
  let num ← adjustNum opt p.num
  let p1 := { p with num := num }
  let q ← (if p1.static then
      if p1.size = 0 then .error .abort
      else if p1.num ≠ 0 then byNum fast p1
      else if p1.chunk ≠ 0 then byChunk fast p1
      else .error .abort
    else dynamic fast p1)
  sanity fast (maxNum fast p.size) q

end HS.DevMgr
