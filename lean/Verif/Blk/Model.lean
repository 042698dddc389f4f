/-!
# Model of block ids

Models `src/include/homestore/blk.h` (lines 34-162) and `src/lib/blkalloc/blk.cpp`.
Bytes are little-endian, as on every platform HomeStore supports (the C++ code
reinterprets packed structs as bytes).
-/
namespace HS.Blk

abbrev Byte := BitVec 8

/-- `BlkId::serialized`, blk.h:47-56: 1 bit `m_is_multi`, 31 bits `m_blk_num`,
16 bits `m_nblks`, 16 bits `m_chunk_num`, packed. -/
structure BlkId where
  isMulti : BitVec 1
  blkNum  : BitVec 31
  nblks   : BitVec 16
  chunk   : BitVec 16
  deriving DecidableEq, Repr

/-- `BlkId::BlkId()`, blk.h:62 with `serialized()`, blk.h:53. -/
def BlkId.default : BlkId := ⟨0, 0, 0, 0⟩

/-- `BlkId::BlkId(blk_num, nblks, chunk_num)`, blk.cpp:25: the `uint32_t` block number
is stored in a 31-bit field, so the top bit is dropped. -/
def BlkId.mk3 (blkNum : BitVec 32) (nblks chunk : BitVec 16) : BlkId :=
  ⟨0, blkNum.setWidth 31, nblks, chunk⟩

/-- `BlkId::to_integer`, blk.cpp:27: reinterpret the packed struct as `uint64_t`
(bit-fields are allocated from the least significant bit). -/
def BlkId.toInteger (b : BlkId) : BitVec 64 :=
  (b.chunk ++ b.nblks ++ b.blkNum ++ b.isMulti : BitVec (16 + 16 + 31 + 1))

/-- `BlkId::BlkId(uint64_t)`, blk.cpp:20-23 (the assertion there is debug only). -/
def BlkId.ofInteger (v : BitVec 64) : BlkId :=
  ⟨v.extractLsb' 0 1, v.extractLsb' 1 31, v.extractLsb' 32 16, v.extractLsb' 48 16⟩

/-- `BlkId::is_valid`, blk.cpp:41. -/
def BlkId.isValid (b : BlkId) : Bool := 0 < b.nblks.toNat

/-- `BlkId::invalidate`, blk.cpp:39. -/
def BlkId.invalidate (b : BlkId) : BlkId := { b with nblks := 0 }

/-- `BlkId::compare`, blk.cpp:47-67. -/
def BlkId.compare (one two : BlkId) : Int :=
  if one.chunk < two.chunk then -1
  else if one.chunk > two.chunk then 1
  else if one.blkNum < two.blkNum then -1
  else if one.blkNum > two.blkNum then 1
  else if one.nblks < two.nblks then -1
  else if one.nblks > two.nblks then 1
  else 0

/-- The `k` low bytes of `v`, least significant first (memory order of an integer). -/
def leBytes (v : BitVec n) : Nat → List Byte
  | 0 => []
  | k + 1 => v.setWidth 8 :: leBytes (v >>> 8) k

/-- The integer whose memory bytes are the given list. -/
def ofLeBytes (w : Nat) : List Byte → BitVec w
  | [] => 0
  | b :: bs => b.setWidth w ||| (ofLeBytes w bs <<< 8)

/-- `BlkId::serialize`, blk.cpp:29: the 8 bytes of the packed struct. -/
def BlkId.serialize (b : BlkId) : List Byte := leBytes b.toInteger 8

/-- `MultiBlkId::chain_blkid`, blk.h:98-103. -/
structure ChainBlkId where
  blkNum : BitVec 32
  nblks  : BitVec 16
  deriving DecidableEq, Repr

/-- `MultiBlkId::max_addln_pieces`, blk.h:94. -/
abbrev maxAddlnPieces : Nat := 5

/-- `MultiBlkId`, blk.h:93-106.  `addln` holds the first `n_addln_piece` elements of the
`addln_pieces` array, the remaining array elements are uninitialised and never read; so
`n_addln_piece = addln.length`, kept at most 5 by the assertion in `add`. -/
structure MultiBlkId where
  base  : BlkId
  addln : List ChainBlkId
  deriving DecidableEq, Repr

/-- `MultiBlkId::MultiBlkId()`, blk.cpp:70. -/
def MultiBlkId.empty : MultiBlkId := ⟨{ BlkId.default with isMulti := 1 }, []⟩

/-- `MultiBlkId::MultiBlkId(BlkId const&)`, blk.cpp:72. -/
def MultiBlkId.ofBlkId (b : BlkId) : MultiBlkId := ⟨{ b with isMulti := 1 }, []⟩

/-- `MultiBlkId::add`, blk.cpp:79-89; `none` is a failed RELEASE_ASSERT. -/
def MultiBlkId.add (m : MultiBlkId) (blkNum : BitVec 32) (nblks chunk : BitVec 16) :
    Option MultiBlkId :=
  if m.base.isValid then
    if m.base.chunk = chunk then
      if m.addln.length < maxAddlnPieces then
        some { m with addln := m.addln ++ [⟨blkNum, nblks⟩] }
      else none
    else none
  else some { m with base := ⟨1, blkNum.setWidth 31, nblks, chunk⟩ }

/-- `MultiBlkId::add(BlkId const&)`, blk.cpp:91. -/
def MultiBlkId.addBlkId (m : MultiBlkId) (b : BlkId) : Option MultiBlkId :=
  m.add (b.blkNum.setWidth 32) b.nblks b.chunk

/-- Adding a list of pieces one after the other, as the allocators do. -/
def MultiBlkId.addAll (m : MultiBlkId) : List BlkId → Option MultiBlkId
  | [] => some m
  | b :: bs => (m.addBlkId b).bind (fun m' => m'.addAll bs)

/-- `MultiBlkId::num_pieces`, blk.cpp:121. -/
def MultiBlkId.numPieces (m : MultiBlkId) : Nat :=
  if m.base.isValid then m.addln.length + 1 else 0

/-- `MultiBlkId::has_room`, blk.cpp:123. -/
def MultiBlkId.hasRoom (m : MultiBlkId) : Bool := m.addln.length < maxAddlnPieces

/-- `MultiBlkId::serialized_size`, blk.cpp:95-99
(`sizeof(BlkId) = 8`, `sizeof(chain_blkid) = 6`, both packed). -/
def MultiBlkId.serializedSize (m : MultiBlkId) : Nat :=
  8 + (if m.addln.length ≠ 0 then 2 + m.addln.length * 6 else 0)

/-- `MultiBlkId::expected_serialized_size`, blk.cpp:113-117. -/
def expectedSerializedSize (numPieces : Nat) : Nat :=
  8 + (if numPieces > 1 then 2 + (numPieces - 1) * 6 else 0)

/-- `MultiBlkId::max_serialized_size`, blk.cpp:119. -/
def maxSerializedSize : Nat := expectedSerializedSize (maxAddlnPieces + 1)

/-- Memory bytes of one `chain_blkid` (packed). -/
def ChainBlkId.bytes (c : ChainBlkId) : List Byte := leBytes c.blkNum 4 ++ leBytes c.nblks 2

/-- `MultiBlkId::serialize`, blk.cpp:93: the first `serialized_size()` bytes of the
packed struct, i.e. base, then (if any) `n_addln_piece` and the used array elements. -/
def MultiBlkId.serialize (m : MultiBlkId) : List Byte :=
  (m.base.serialize ++ leBytes (BitVec.ofNat 16 m.addln.length) 2 ++
    m.addln.flatMap ChainBlkId.bytes).take m.serializedSize

/-- Reads `n` consecutive `chain_blkid`s; `none` when the buffer is too short (the C++
code would read past its end). -/
def parseChain : Nat → List Byte → Option (List ChainBlkId)
  | 0, _ => some []
  | n + 1, bs =>
    if bs.length < 6 then none
    else (parseChain n (bs.drop 6)).map
      (⟨ofLeBytes 32 (bs.take 4), ofLeBytes 16 ((bs.drop 4).take 2)⟩ :: ·)

/-- `MultiBlkId::deserialize`, blk.cpp:101-111.  Reading past the end of the buffer or
copying more than five pieces (undefined behaviour in C++) gives `none`. -/
def MultiBlkId.deserialize (bs : List Byte) : Option MultiBlkId :=
  if bs.length < 8 then none
  else
    let base := BlkId.ofInteger (ofLeBytes 64 (bs.take 8))
    if bs.length = 8 then some ⟨base, []⟩
    else if bs.length < 10 then none
    else
      let n := (ofLeBytes 16 ((bs.drop 8).take 2)).toNat
      if n ≤ maxAddlnPieces then (parseChain n (bs.drop 10)).map (⟨base, ·⟩) else none

/-- `MultiBlkId::iterator::next`, blk.h:144-157.  State: `next_blk_`. The array access at
line 151 is in bounds because `next_blk_ < num_pieces() = n_addln_piece + 1`. -/
def MultiBlkId.iterNext (m : MultiBlkId) (next : Nat) : Option BlkId × Nat :=
  if next = 0 then
    (if m.base.isValid then
      some (BlkId.mk3 (m.base.blkNum.setWidth 32) m.base.nblks m.base.chunk) else none, 1)
  else if next < m.numPieces then
    match m.addln[next - 1]? with
    | some c => (some (BlkId.mk3 c.blkNum c.nblks m.base.chunk), next + 1)
    | none => (none, next)
  else (none, next)

/-- The loop `while (auto b = it.next())` used by all clients (e.g. blk.cpp:139-142),
collecting what `next` returns.  `fuel` bounds the number of calls; `pieces` uses one
more call than there can be pieces, and `C03` shows the loop has stopped by then. -/
def MultiBlkId.iterLoop (m : MultiBlkId) : (fuel next : Nat) → List BlkId × Bool
  | 0, _ => ([], false)
  | fuel + 1, next =>
    match m.iterNext next with
    | (some b, next') => let r := m.iterLoop fuel next'; (b :: r.1, r.2)
    | (none, _) => ([], true)

/-- Result of the whole iteration together with whether it stopped by itself. -/
def MultiBlkId.pieces (m : MultiBlkId) : List BlkId × Bool := m.iterLoop (m.numPieces + 1) 0

/-- `MultiBlkId::blk_count`, blk.cpp:137-144: 16-bit accumulation. -/
def MultiBlkId.blkCount (m : MultiBlkId) : BitVec 16 :=
  m.pieces.1.foldl (fun acc b => acc + b.nblks) 0

/-- `MultiBlkId::compare`, blk.cpp:151-185.  The multi-piece branch compares
`boost::icl::interval_set`s, which is outside this code base: it enters as the parameter `iclCompare`,
and `Order.lean` supplies it from the documented behaviour of that library. -/
def MultiBlkId.compare (iclCompare : MultiBlkId → MultiBlkId → Int) (l r : MultiBlkId) : Int :=
  if l.base.chunk < r.base.chunk then -1
  else if l.base.chunk > r.base.chunk then 1
  else if l.numPieces = 1 ∧ r.numPieces = 1 then BlkId.compare l.base r.base
  else iclCompare l r

end HS.Blk
