import Verif.DataSvc.Props
/-!
# Model of writes that split one value over several block ids

Models `SoloReplDev::async_write` (/repo/src/lib/replication/repl_dev/solo_repl_dev.cpp 116-154),
`SoloReplDev::alloc_blks` as far as sizes go (96-114), and
`BlkDataService::async_write(sgs, std::vector<MultiBlkId>)`
(/repo/src/lib/blkdata_svc/blkdata_service.cpp 213-227), on top of the writes of one id of
`Verif.DataSvc`.

Simplifications.  A list of buffers is the byte string it holds, and `sg_iterator::next_iovs(n)` (not in
the repository) yields its next `n` bytes, fewer at the end of the string: that is what the comparison of
lines 136-139 expects.  The count of pending requests, and with it what a device that is stopping does,
is in `Verif.Stop`.  A future that combines combined futures is an error if one of the requests is
(solo_repl_dev.cpp 144-153, blkdata_service.cpp 69-79), so the requests of all ids are one list.
-/
namespace HS.MultiWrite
open HS.DataSvc

/-- `MultiBlkId::blk_count`: /repo/src/lib/blkalloc/blk.cpp 137-144.  The sum is kept in a `blk_count_t`,
which has 16 bits (/repo/src/include/homestore/blk.h 35). -/
def blkCount (id : List Piece) : Nat := (id.map (·.n)).sum % 65536

/-- `blkid.blk_count() * data_service().get_blk_size()`: solo_repl_dev.cpp 130, blkdata_service.cpp 220.
The product of a 16-bit and a 32-bit unsigned number has 32 bits. -/
def sgsSize (bs : Nat) (id : List Piece) : Nat := blkCount id * bs % 4294967296

/-- The loop of `BlkDataService::async_write` over the ids: blkdata_service.cpp 219-224.  Nothing is
compared. -/
def svcWrite (bs : Nat) (tbl : Table) : List (List Piece) → List UInt8 → List (Option Wr)
  | [], _ => []
  | id :: ids, buf =>
    asyncWrite bs tbl id (buf.take (sgsSize bs id)) ++ svcWrite bs tbl ids (buf.drop (sgsSize bs id))

/-- What becomes of a call of `SoloReplDev::async_write`. -/
inductive Out
  /-- The release assertion on an empty list of ids fails. -/
  | abort
  /-- The future is `invalid_argument` at once; the requests listed were issued before. -/
  | refused (issued : List (Option Wr))
  /-- The requests listed were issued, and the future tells whether all of them succeed. -/
  | issued (ws : List (Option Wr))
  deriving DecidableEq, Repr

/-- The loop of `SoloReplDev::async_write`: solo_repl_dev.cpp 129-142.  `acc` is what has been issued. -/
def soloLoop (bs : Nat) (tbl : Table) : List (List Piece) → List UInt8 → List (Option Wr) → Out
  | [], _, acc => .issued acc
  | id :: ids, buf, acc =>
    if (buf.take (sgsSize bs id)).length ≠ sgsSize bs id then .refused acc
    else soloLoop bs tbl ids (buf.drop (sgsSize bs id))
      (acc ++ asyncWrite bs tbl id (buf.take (sgsSize bs id)))

/-- `SoloReplDev::async_write`: solo_repl_dev.cpp 116-154; the assertion is line 124. -/
def soloWrite (bs : Nat) (tbl : Table) (ids : List (List Piece)) (buf : List UInt8) : Out :=
  if ids.isEmpty then .abort else soloLoop bs tbl ids buf []

/-- The number of bytes that `SoloReplDev::alloc_blks` asks for: `sisl::round_up(data_size, blk_size)`,
solo_repl_dev.cpp 103. -/
def allocSize (bs dataSize : Nat) : Nat := (dataSize + bs - 1) / bs * bs

end HS.MultiWrite
