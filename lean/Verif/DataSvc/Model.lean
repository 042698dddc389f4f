import Verif.VAlloc.Props
/-!
# Model of block data service I/O

Models `BlkDataService::{async_read, async_write, async_alloc_write, alloc_blks}`
(src/lib/blkdata_svc/blkdata_service.cpp) on top of `VirtualDev::{async_read, async_write,
to_dev_offset}` (src/lib/device/virtual_dev.cpp) and the device-level allocation model of
`Verif.VAlloc`.

Scatter-gather buffers are byte strings: `sisl::sg_iterator::next_iovs(n)` (not part of the
repository) is taken to yield the next `n` bytes of the buffer.
-/
namespace HS.DataSvc
open HS.Varsize HS.VAlloc

/-- A chunk of the device: physical device, `start_offset()` and `size()` in bytes (chunk.h). -/
structure Area where
  pdev : Nat
  start : Nat
  size : Nat
  deriving DecidableEq, Repr

/-- `DeviceManager::get_chunk_mutable`: chunk id to chunk, `none` if missing. -/
abbrev Table := Nat → Option Area

/-- Contents of the physical devices: device, byte offset. -/
abbrev Dev := Nat → Nat → UInt8

/-- A piece of a block id. -/
structure Piece where
  chunk : Nat
  blk : Nat
  n : Nat
  deriving DecidableEq, Repr

/-- A write request to a physical device. -/
structure Wr where
  pdev : Nat
  off : Nat
  bytes : List UInt8
  deriving DecidableEq, Repr

/-- `VirtualDev::to_dev_offset`, virtual_dev.cpp:782-786, with the chunk it finds. -/
def devOffset (bs : Nat) (tbl : Table) (p : Piece) : Option (Nat × Nat) :=
  match tbl p.chunk with
  | none => none
  | some a => some (a.pdev, p.blk * bs + a.start)

/-- `VirtualDev::async_write(v)`, virtual_dev.cpp:381-404 and 427-448: `none` = the future is an error
at once because the chunk is missing. -/
def writePiece (bs : Nat) (tbl : Table) (p : Piece) (bytes : List UInt8) : Option Wr :=
  (devOffset bs tbl p).map fun d => ⟨d.1, d.2, bytes⟩

/-- The loop over the pieces, blkdata_service.cpp:172-178 and 202-206 (`m_blk_size * blk_count` bytes
per piece, taken one after the other from the buffer). -/
def writeLoop (bs : Nat) (tbl : Table) : List Piece → List UInt8 → List (Option Wr)
  | [], _ => []
  | p :: ps, buf =>
    writePiece bs tbl p (buf.take (p.n * bs)) :: writeLoop bs tbl ps (buf.drop (p.n * bs))

/-- `BlkDataService::async_write`, blkdata_service.cpp:162-211: a single piece gets the whole buffer
(lines 166-169, 192-195). -/
def asyncWrite (bs : Nat) (tbl : Table) (ps : List Piece) (buf : List UInt8) : List (Option Wr) :=
  match ps with
  | [p] => [writePiece bs tbl p buf]
  | ps => writeLoop bs tbl ps buf

/-- Effect of a completed device write. -/
def Wr.apply (w : Wr) (d : Dev) : Dev := fun pd o =>
  if pd = w.pdev ∧ w.off ≤ o then
    match w.bytes[o - w.off]? with
    | some b => b
    | none => d pd o
  else d pd o

def applyAll (ws : List Wr) (d : Dev) : Dev := ws.foldl (fun d w => w.apply d) d

/-- `collect_all_futures`, blkdata_service.cpp:69-79: the combined future is an error if one is. -/
def collect (rs : List Bool) : Bool := rs.all id

/-- A completed `async_write`: `oks` tells which requests the device completed without error, in
whatever order `done` they were executed; the result is the future's value. -/
def Completes (ws : List (Option Wr)) (d d' : Dev) (result : Bool) : Prop :=
  ∃ (oks : List Bool) (done : List Wr), oks.length = ws.length ∧
    done.Perm ((ws.zip oks).filterMap fun x => if x.2 then x.1 else none) ∧
    d' = applyAll done d ∧
    result = collect ((ws.zip oks).map fun x => x.1.isSome && x.2)

/-- Read `n` bytes of a device. -/
def readBytes (d : Dev) (pd off n : Nat) : List UInt8 := (List.range n).map fun i => d pd (off + i)

/-- `VirtualDev::async_read`, virtual_dev.cpp:545-556. -/
def readPiece (bs : Nat) (tbl : Table) (d : Dev) (p : Piece) (n : Nat) : Option (List UInt8) :=
  (devOffset bs tbl p).map fun x => readBytes d x.1 x.2 n

/-- The loop over pieces, blkdata_service.cpp:105-112. -/
def readLoop (bs : Nat) (tbl : Table) (d : Dev) : List Piece → Option (List UInt8)
  | [] => some []
  | p :: ps =>
    match readPiece bs tbl d p (p.n * bs), readLoop bs tbl d ps with
    | some a, some b => some (a ++ b)
    | _, _ => none

/-- `BlkDataService::async_read(id, buf, size)`, blkdata_service.cpp:81-113 (device errors aside):
a single piece reads `size` bytes. -/
def asyncRead (bs : Nat) (tbl : Table) (d : Dev) (ps : List Piece) (size : Nat) : Option (List UInt8) :=
  match ps with
  | [p] => readPiece bs tbl d p size
  | ps => readLoop bs tbl d ps

/-- `BlkDataService::alloc_blks`, blkdata_service.cpp:231-240: the number of blocks is cast to the
16-bit `blk_count_t`. -/
def nblksOf (size bs : Nat) : Nat := (size / bs) % 65536

def allocBytes (find : Find) (sch : Sched) (sel : Nat → Option Nat) (chunks : List St) (bs size : Nat)
    (h : Hints) (hint : Option Nat) (look : Bool) : Option (VStatus × OutId × List St) :=
  allocBlks find sch sel chunks (nblksOf size bs) h hint look

/-- Pieces of an allocated id. -/
def piecesOf (o : OutId) : List Piece := o.pieces.map fun e => ⟨o.chunk, e.blk, e.cnt⟩

/-- `BlkDataService::async_alloc_write`, blkdata_service.cpp:147-160: the allocation result, and the
writes issued if it was a full success (any other status is reported as an error, line 153-156). -/
def allocWrite (find : Find) (sch : Sched) (sel : Nat → Option Nat) (chunks : List St) (bs : Nat)
    (tbl : Table) (buf : List UInt8) (h : Hints) (hint : Option Nat) (look : Bool) :
    Option (Option (List (Option Wr)) × OutId × List St) :=
  match allocBytes find sch sel chunks bs buf.length h hint look with
  | none => none
  | some (st, o, chunks') =>
    if st = .alloc .success then some (some (asyncWrite bs tbl (piecesOf o) buf), o, chunks')
    else some (none, o, chunks')

end HS.DataSvc
