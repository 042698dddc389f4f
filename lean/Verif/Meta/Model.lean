/-!
# Model of the superblock store (`MetaBlkService`)

Source: `src/lib/meta/meta_blk_service.cpp`, `src/include/homestore/meta_service.hpp`,
`src/lib/meta/meta_sb.hpp`.

The store keeps a doubly linked list of one-block records (`meta_blk`) hanging off one
super block (`meta_blk_sb`).  The content of a record is stored inline in its block when it
fits, else in a chain of overflow header blocks that list data block ranges.

Simplifications, common to the whole file:
* a block id is a `Nat`, the address of a block on one flat device: a piece `(s, n)` is the
  blocks `s, ..., s+n-1`, and a write longer than its piece runs on into block `s+n`
  (in the code: into the bytes that follow on the device);
* which free blocks the allocator returns is an input of the operation (any choice);
* all operations run under `m_meta_mtx` (lines 401, 806, 873), so they are sequential;
* a block write is atomic; a longer write is a sequence of block writes, in order, and a
  crash may fall between any two of them; a failed device write aborts (e.g. 452-458);
* rounding of lengths up to the DMA alignment (lines 462-478, 492-503) is not modelled: a
  data block holds just the bytes meant for it;
* `gen_cnt`, `version`, `migrated` are not modelled; every type asks for checksums (`do_crc`).
-/
namespace HS.Meta

abbrev Byte := UInt8

/-- Parameters: block size, data ids per overflow header (`ovf_blk_max_num_data_blk`,
meta_blk_service.cpp: `(block_size - 512) / 8`), inline capacity (`meta_blk_context_sz`,
`block_size - 512`), and the externals: compression (`sisl::Compress`; `none` = feature off,
content too small, or ratio not met, lines 671-716; `some e` = the bytes stored, `e` padded),
decompression, and CRC-32. -/
structure Cfg where
  bs : Nat
  maxIds : Nat
  inlineMax : Nat
  enc : List Byte → Option (List Byte)
  dec : List Byte → List Byte
  crc : List Byte → Nat

/-- A range of blocks, `BlkId` with `blk_count() = n`. -/
abbrev Piece := Nat × Nat

/-- The blocks of a piece. -/
def Piece.blocks (p : Piece) : List Nat := List.range' p.1 p.2

/-- `meta_blk_ovf_hdr` (meta_sb.hpp): overflow header block. -/
structure OHdr where
  bid : Nat
  next : Option Nat
  ctxsz : Nat
  pieces : List Piece
  deriving DecidableEq, Repr

/-- Blocks an overflow header accounts for: its own and its data blocks. -/
def OHdr.blocks (o : OHdr) : List Nat := o.bid :: o.pieces.flatMap Piece.blocks

/-- `meta_blk` (meta_sb.hpp): header and inline context. -/
structure MBlk where
  bid : Nat
  prev : Nat
  next : Option Nat
  ovf : Option Nat
  typ : Nat
  ctxsz : Nat
  inl : List Byte
  compressed : Bool
  crc : Nat
  deriving DecidableEq, Repr

/-- What a block on the device holds.  `junk` = anything that passes none of the magic
checks. -/
inductive Blk where
  | junk
  | ssb (bid : Nat) (next : Option Nat)
  | mblk (m : MBlk)
  | ovf (o : OHdr)
  | data (l : List Byte)
  deriving DecidableEq, Repr

abbrev Disk := Nat → Blk

/-- One block write. -/
abbrev Write := Nat × Blk

/-- Point update of a function. -/
def fset {β : Type} (f : Nat → β) (k : Nat) (v : β) : Nat → β := fun x => if x = k then v else f x

/-- Effect of a sequence of block writes. -/
def exec (d : Disk) (ws : List Write) : Disk := ws.foldl (fun d w => fset d w.1 w.2) d

/-! ## Writing and reading content -/

/-- Writing the bytes `l` from block `b` on (`sync_write`, used at line 509), block by block. -/
def pieceWrites (bs : Nat) (b : Nat) (l : List Byte) : List Write :=
  if h : l = [] ∨ bs = 0 then [] else
    (b, .data (l.take bs)) :: pieceWrites bs (b + 1) (l.drop bs)
  termination_by l.length
  decreasing_by
    have : l ≠ [] ∧ bs ≠ 0 := by simpa [not_or] using h
    have := List.length_pos_iff.2 this.1
    simp only [List.length_drop]; omega

/-- `write_ovf_blk_to_disk`, data part (lines 482-520): every data id but the last receives
as many bytes as it has room for; the last one receives **all** that remain. -/
def dataWrites (bs : Nat) : List Piece → List Byte → List Write
  | [], _ => []
  | [p], c => pieceWrites bs p.1 c
  | p :: q :: ps, c => pieceWrites bs p.1 (c.take (p.2 * bs)) ++ dataWrites bs (q :: ps) (c.drop (p.2 * bs))

/-- `write_meta_blk_ovf`, the loop (lines 629-663).  `cur` is the header block being filled,
`hdrs` the header blocks the allocator will hand out next, `pieces` the data ids not yet
recorded (`context_data_blkids[data_blkid_indx ..]`), `content` what is not yet written.
Result: each header with the bytes written under it.  `none` = the release assertion of
line 665 (not everything written), allocation failure (`alloc_meta_blk` asserts), or reading
past the caller's buffer.
With `pieces = []` the unsigned subtraction of line 636 wraps; the allocator never returns an
empty list for a non-empty content, so that case is just `none`. -/
def ovfLoop (c : Cfg) (cur : Nat) (hdrs : List Nat) (pieces : List Piece) (content : List Byte) :
    Option (List (OHdr × List Byte)) :=
  match pieces with
  | [] => none
  | _ :: _ =>
    let taken := pieces.take c.maxIds                                   -- lines 647-650
    let room := (taken.map (fun p => p.2 * c.bs)).sum                   -- line 648
    -- line 656: data_blkid_indx < size - 1 after the loop
    let ctx := if taken.length + 1 < pieces.length then room else content.length
    if content.length < ctx then none else
    if pieces.length - 1 ≤ c.maxIds then                                -- line 636
      if content.length = ctx then
        some [({ bid := cur, next := none, ctxsz := ctx, pieces := taken }, content.take ctx)]
      else none                                                         -- line 665
    else
      match hdrs with
      | [] => none
      | h :: hs =>
        (ovfLoop c h hs (pieces.drop c.maxIds) (content.drop ctx)).map
          (({ bid := cur, next := some h, ctxsz := ctx, pieces := taken }, content.take ctx) :: ·)
  termination_by hdrs.length

/-- Device writes of the overflow chain, in program order: each header, then its data
(lines 659, 447-530). -/
def ovfWrites (c : Cfg) (l : List (OHdr × List Byte)) : List Write :=
  l.flatMap (fun x => (x.1.bid, .ovf x.1) :: dataWrites c.bs x.1.pieces x.2)

/-- Space the allocator hands out for one content: data pieces (`alloc_meta_blks`, line
617) and header blocks (`alloc_meta_blk`, lines 624 and 639, in that order). -/
structure Space where
  hdrs : List Nat
  pieces : List Piece

/-- Result of `write_meta_blk_internal` before the record block itself is written. -/
structure Body where
  ovf : Option Nat
  ctxsz : Nat
  inl : List Byte
  compressed : Bool
  crc : Nat
  hs : List OHdr
  ws : List Write

/-- The bytes stored for `content`: compressed if compression applies (lines 671-716). -/
def stored (c : Cfg) (content : List Byte) : List Byte := (c.enc content).getD content

/-- `write_meta_blk_internal` (lines 668-748) up to, not including, the write of the record
block (line 743). -/
def writeBody (c : Cfg) (content : List Byte) (sp : Space) : Option Body :=
  let data := stored c content
  let comp := (c.enc content).isSome
  if data.length ≤ c.inlineMax then                                     -- line 722
    some { ovf := none, ctxsz := data.length, inl := data, compressed := comp,
           crc := c.crc data, hs := [], ws := [] }
  else
    match sp.hdrs with
    | [] => none
    | h :: hs =>
      (ovfLoop c h hs sp.pieces data).map fun l =>
        { ovf := some h, ctxsz := data.length, inl := [], compressed := comp,
          crc := c.crc data, hs := l.map Prod.fst, ws := ovfWrites c l }

/-- Reading `n` bytes from block `b` on (`read`, lines 134-142).  `none` = a block that holds
no content bytes (the code would return whatever is there). -/
def readAt (bs : Nat) (d : Disk) (b n : Nat) : Option (List Byte) :=
  if h : n = 0 ∨ bs = 0 then some [] else
    match d b with
    | .data l => (readAt bs d (b + 1) (n - bs)).map (l.take n ++ ·)
    | _ => none
  termination_by n
  decreasing_by omega

/-- `read_sub_sb_internal`, the loop over the data ids of one header (lines 1080-1096):
every id but the last is read in full, the last gives what remains of `ctxsz`. -/
def readPieces (bs : Nat) (d : Disk) : List Piece → Nat → Option (List Byte)
  | [], _ => some []
  | [p], n => readAt bs d p.1 n
  | p :: q :: ps, n =>
    match readAt bs d p.1 (p.2 * bs), readPieces bs d (q :: ps) (n - p.2 * bs) with
    | some a, some b => some (a ++ b)
    | _, _ => none

/-- `read_sub_sb_internal`, the loop over the headers (lines 1068-1109): `total - off` bytes
are still missing.  The headers come from the in-memory map `m_ovf_blk_hdrs`.  `none` = a
release assertion (1069, 1109) or a header that is not in the map.  `fuel` bounds the number
of headers visited; the number of cached headers suffices. -/
def readChain (bs : Nat) (d : Disk) (m : List OHdr) : Nat → Option Nat → Nat → Option (List Byte)
  | _, _, 0 => some []
  | 0, _, _ + 1 => none
  | _, none, _ + 1 => none
  | f + 1, some b, n + 1 =>
    match m.find? (fun o => o.bid = b) with
    | none => none
    | some o =>
      match readPieces bs d o.pieces o.ctxsz, (if o.ctxsz ≤ n + 1 then readChain bs d m f o.next (n + 1 - o.ctxsz) else none) with
      | some a, some r => some (a ++ r)
      | _, _ => none

/-- `read_sub_sb_internal` (lines 1049-1112). -/
def readBody (c : Cfg) (d : Disk) (hs : List OHdr) (m : MBlk) : Option (List Byte) :=
  if m.ctxsz ≤ c.inlineMax then some (m.inl.take m.ctxsz)
  else readChain c.bs d hs hs.length m.ovf m.ctxsz

/-- `recover_meta_block` (lines 1153-1216): read, verify the checksum (`none` = the release
assertion of 1162), decompress if needed, deliver. -/
def deliver (c : Cfg) (d : Disk) (hs : List OHdr) (m : MBlk) : Option (List Byte) :=
  match readBody c d hs m with
  | none => none
  | some buf => if c.crc buf = m.crc then some (if m.compressed then c.dec buf else buf) else none

/-- `read_sub_sb` (lines 1222-1250): hands the bytes as stored to the callback, without
decompressing. -/
def readApi (c : Cfg) (d : Disk) (hs : List OHdr) (m : MBlk) : Option (List Byte) :=
  readBody c d hs m

/-! ## The in-memory state and the three operations -/

/-- In-memory state of the service: `m_ssb`, `m_last_mblk_id`, `m_meta_blks`,
`m_ovf_blk_hdrs`, and the in-memory state of the block allocator (`used`). -/
structure St where
  ssb : Nat
  ssbNext : Option Nat
  last : Option Nat
  cache : Nat → Option MBlk
  ohdrs : List OHdr
  used : Nat → Bool

/-- Mark blocks as allocated / free. -/
def mark (u : Nat → Bool) (l : List Nat) (v : Bool) : Nat → Bool :=
  fun b => if b ∈ l then v else u b

/-- `free_ovf_blk_chain` (lines 956-1003): walk the chain in the in-memory map, freeing the data
blocks and the header block, and erasing the header from the map.  `none` = header not in the map
(null dereference at line 959).  Result: remaining map and freed blocks.  Every iteration
erases one header, so `fuel` = size of the map suffices. -/
def freeChain : Nat → List OHdr → Option Nat → Option (List OHdr × List Nat)
  | _, m, none => some (m, [])
  | 0, _, some _ => none
  | f + 1, m, some b =>
    match m.find? (fun o => o.bid = b) with
    | none => none
    | some o =>
      (freeChain f (m.filter (fun o => o.bid ≠ b)) o.next).map
        fun r => (r.1, o.blocks ++ r.2)

/-- A record to write: the fields of the body in a record block. -/
def mkMBlk (bid prev : Nat) (next : Option Nat) (typ : Nat) (b : Body) : MBlk :=
  { bid := bid, prev := prev, next := next, ovf := b.ovf, typ := typ, ctxsz := b.ctxsz,
    inl := b.inl, compressed := b.compressed, crc := b.crc }

/-- Blocks a body occupies. -/
def Body.blocks (b : Body) : List Nat := b.hs.flatMap OHdr.blocks

/-- `add_sub_sb` (lines 400-441) with `init_meta_blk` (551-601): the device writes in program
order and the in-memory state afterwards.  `bid` is the block the allocator returned.
`none` = abort; in particular line 568 dereferences `m_meta_blks[m_last]`, which is null when
`m_last` is not a record. -/
def addOp (c : Cfg) (s : St) (typ : Nat) (content : List Byte) (bid : Nat) (sp : Space) :
    Option (List Write × St) :=
  match writeBody c content sp with
  | none => none
  | some b =>
    let used' := mark (mark s.used [bid] true) b.blocks true
    match s.last with
    | some l =>                                                          -- lines 563-568, 586-588
      match s.cache l with
      | none => none
      | some ml =>
        let m := mkMBlk bid l none typ b
        let ml' := { ml with next := some bid }
        some (b.ws ++ [(bid, .mblk m), (l, .mblk ml')],
          { s with last := some bid, cache := fset (fset s.cache l (some ml')) bid (some m),
                   ohdrs := s.ohdrs ++ b.hs, used := used' })
    | none =>                                                            -- lines 570-574, 590-591
      let m := mkMBlk bid s.ssb none typ b
      some (b.ws ++ [(bid, .mblk m), (s.ssb, .ssb s.ssb (some bid))],
        { s with ssbNext := some bid, last := some bid, cache := fset s.cache bid (some m),
                 ohdrs := s.ohdrs ++ b.hs, used := used' })

/-- `update_sub_sb` (lines 805-870).  `bid` identifies the record (the cookie points at the
cached block).  The old overflow chain is freed after the new record block is written. -/
def updOp (c : Cfg) (s : St) (bid : Nat) (content : List Byte) (sp : Space) :
    Option (List Write × St) :=
  match s.cache bid with
  | none => none
  | some m =>
    match writeBody c content sp with
    | none => none
    | some b =>
      let m' := mkMBlk bid m.prev m.next m.typ b
      match freeChain (s.ohdrs ++ b.hs).length (s.ohdrs ++ b.hs) m.ovf with
      | none => none
      | some (hs, fr) =>
        some (b.ws ++ [(bid, .mblk m')],
          { s with cache := fset s.cache bid (some m'), ohdrs := hs,
                   used := mark (mark s.used b.blocks true) fr false })

/-- `remove_sub_sb`, lines 903-919: unlink the record `m` from its predecessor, in memory and on the
device. -/
def unlinkPrev (s : St) (m : MBlk) : Option (List Write × St) :=
  if m.prev = s.ssb then
    some ([(s.ssb, .ssb s.ssb m.next)],
      { s with ssbNext := m.next, last := if s.last = some m.bid then none else s.last })
  else
    match s.cache m.prev with
    | none => none
    | some mp =>
      some ([(m.prev, .mblk { mp with next := m.next })],
        { s with cache := fset s.cache m.prev (some { mp with next := m.next }) })

/-- `remove_sub_sb`, lines 921-937: unlink the record `m` from its successor; if it has none, its
predecessor becomes the last record (line 936, even when the predecessor is the super block). -/
def unlinkNext (s : St) (m : MBlk) : Option (List Write × St) :=
  match m.next with
  | some n =>
    match s.cache n with
    | none => none
    | some mn =>
      some ([(n, .mblk { mn with prev := m.prev })],
        { s with cache := fset s.cache n (some { mn with prev := m.prev }) })
  | none => some ([], { s with last := some m.prev })

/-- `remove_sub_sb` (lines 872-950) with `free_meta_blk` (1005-1018). -/
def remOp (s : St) (bid : Nat) : Option (List Write × St) :=
  match s.cache bid with
  | none => none
  | some m =>
    match unlinkPrev s m with
    | none => none
    | some (w1, s1) =>
      match unlinkNext s1 m with
      | none => none
      | some (w2, s2) =>
        match freeChain s2.ohdrs.length s2.ohdrs m.ovf with
        | none => none
        | some (hs, fr) =>
          some (w1 ++ w2, { s2 with cache := fset s2.cache bid none, ohdrs := hs,
                                    used := mark (mark s2.used [bid] false) fr false })

/-! ## Format and restart -/

/-- `format_ssb` (lines 175-198): the super block is written with an empty list. -/
def format (ssb : Nat) : List Write × St :=
  ([(ssb, .ssb ssb none)],
   { ssb := ssb, ssbNext := none, last := none, cache := fun _ => none, ohdrs := [],
     used := fun b => b = ssb })

/-- `scan_and_load_meta_blks`, inner loop (lines 296-329): load an overflow chain from the
device.  `none` = release assertion on self id or magic (301-306).  `fuel` bounds the number
of iterations (the loop of the code is unbounded). -/
def scanOvf (d : Disk) : Nat → Option Nat → Option (List OHdr)
  | _, none => some []
  | 0, some _ => none
  | f + 1, some b =>
    match d b with
    | .ovf o => if o.bid = b then (scanOvf d f o.next).map (o :: ·) else none
    | _ => none

/-- `scan_and_load_meta_blks`, outer loop (lines 234-352).  For every record: its block as
cached (with `prev` repaired) and whether it was repaired (written back, line 261), and its
overflow headers.  `none` = a release assertion (274-287, 338).
Repaired blocks are written while scanning; the scan does not read them again. -/
def scanMeta (c : Cfg) (d : Disk) (ofuel : Nat) :
    Nat → Nat → Option Nat → Option (List (MBlk × Bool × List OHdr))
  | _, _, none => some []
  | 0, _, some _ => none
  | f + 1, prev, some b =>
    match d b with
    | .mblk m =>
      if m.bid = b then
        match scanOvf d ofuel m.ovf with
        | none => none
        | some hs =>
          let readSz := (if m.ctxsz > c.inlineMax then 0 else m.ctxsz) + (hs.map OHdr.ctxsz).sum
          if readSz = m.ctxsz then
            (scanMeta c d ofuel f b m.next).map (({ m with prev := prev }, m.prev ≠ prev, hs) :: ·)
          else none
      else none
    | _ => none

/-- One recovered record as handed to the consumer's callback: cookie, type, content. -/
structure Entry where
  bid : Nat
  typ : Nat
  content : List Byte
  deriving DecidableEq, Repr

/-- Deliver every loaded record (`recover`, lines 1118-1151).  The model lists the records in
chain order; the code delivers them type by type (see C22 for that order). -/
def deliverAll (c : Cfg) (d : Disk) (hs : List OHdr) : List MBlk → Option (List Entry)
  | [] => some []
  | m :: ms =>
    match deliver c d hs m, deliverAll c d hs ms with
    | some x, some xs => some ({ bid := m.bid, typ := m.typ, content := x } :: xs)
    | _, _ => none

/-- In-memory map of the loaded records. -/
def cacheOf (l : List (MBlk × Bool × List OHdr)) : Nat → Option MBlk :=
  fun b => (l.find? (fun x => x.1.bid = b)).map (·.1)

/-- Restart: `load_ssb` (lines 144-163, with the release assertion of line 161 that the list
is not empty), `scan_meta_blks`, `recover`.  Blocks found are marked allocated (lines 149, 267,
314, 321); everything else is free.  Result: the records delivered, the in-memory state, and
the block writes made while scanning (repairs of `prev`). -/
def restart (c : Cfg) (fuel : Nat) (ssb : Nat) (d : Disk) :
    Option (List Entry × St × List Write) :=
  match d ssb with
  | .ssb b (some first) =>
    if b = ssb then
      match scanMeta c d fuel fuel ssb (some first) with
      | none => none
      | some l =>
        let ms := l.map (·.1)
        let hs := l.flatMap (·.2.2)
        let ws := l.filterMap (fun x => if x.2.1 then some (x.1.bid, Blk.mblk x.1) else none)
        let used := fun b => decide (b ∈ ssb :: l.flatMap (fun x => x.1.bid :: x.2.2.flatMap OHdr.blocks))
        match deliverAll c (exec d ws) hs ms with
        | none => none
        | some es =>
          some (es, { ssb := ssb, ssbNext := some first, last := ms.getLast?.map MBlk.bid,
                      cache := cacheOf l, ohdrs := hs, used := used }, ws)
    else none
  | _ => none

/-- An operation of a client, with the blocks the allocator returns for it. -/
inductive Op where
  | add (typ : Nat) (content : List Byte) (bid : Nat) (sp : Space)
  | upd (bid : Nat) (content : List Byte) (sp : Space)
  | rem (bid : Nat)

/-- The device writes of an operation, in order, and the state after it. -/
def prog (c : Cfg) (s : St) : Op → Option (List Write × St)
  | .add t x b sp => addOp c s t x b sp
  | .upd b x sp => updOp c s b x sp
  | .rem b => remOp s b

end HS.Meta
