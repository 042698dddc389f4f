import Verif.Log.Group

/-!
# Loading a log device: reading the groups of its journal stream

Sources: `src/lib/logstore/log_stream.cpp` (`log_stream_reader`), `src/lib/logstore/log_dev.cpp` 211-271
(`do_load`).

The journal stream is the list of the pieces that the sequential reads return.  Their sizes depend on the configured
read size and on the chunk ends; the model takes any division into pieces.  That the pieces together are the data
bytes of the stream is property C50.  Positions are counted in data bytes from the start of the stream: `dev_offset`
turns them into device offsets.
-/

namespace HS.Log

/-- `log_stream_reader`: `m_cur_log_buf`, the reads still to come, `m_cur_read_bytes`, `m_prev_crc`. -/
structure Reader where
  buf : Bytes
  src : List Bytes
  pos : Nat
  prevCrc : Nat
  deriving DecidableEq, Repr

/-- What `next_group` found. -/
inductive Next where
  /-- the end of the log is at this position -/
  | stop
  | group (h : Hdr) (bytes : Bytes) (rd : Reader)
  deriving DecidableEq, Repr

/-- The parameters of a load: the size multiple, the checksum, the id of this log device and the position from which
on `is_offset_at_last_chunk` holds. -/
structure Env where
  fm : Nat
  crc : Bytes → UInt32
  logdev : Nat
  lastAt : Nat

/-- The end of the checks, `log_stream.cpp` 110-158: the footer and the checksum of a group that is in the buffer as
a whole. -/
def checkBody (e : Env) (rd : Reader) (h : Hdr) : Except Fault Next :=
  match fld rd.buf h.footOff 3, fld rd.buf (h.footOff + 4) 8 with
  | some m, some i =>
    if m ≠ footMagic ∨ i ≠ h.startIdx then
      if rd.pos < e.lastAt then .error .abort else .ok .stop
    else
      match slice rd.buf hdrSize (h.groupSize - hdrSize) with
      | .error x => .error x
      | .ok body =>
        if h.groupSize < hdrSize then .error .ub
        else if (e.crc body).toNat ≠ h.curCrc then .error .abort
        else .ok (.group h (rd.buf.take h.groupSize)
          { rd with buf := rd.buf.drop h.groupSize, pos := rd.pos + h.groupSize, prevCrc := (e.crc body).toNat })
  | _, _ => .error .ub

/-- `next_group` from `read_again` on, `log_stream.cpp` 57-158, with at least a header in the buffer.  The buffer is
short of the group: another read, and the checks from the start. -/
def tryGroup (e : Env) (pos prevCrc : Nat) : Bytes → List Bytes → Except Fault Next
  | buf, src =>
    if buf.length < e.fm then .error .abort
    else
      match Hdr.dec buf with
      | none => .error .ub
      | some h =>
        if h.magic ≠ hdrMagic then .ok .stop
        else if h.logdev ≠ e.logdev then .ok .stop
        else if prevCrc ≠ 0 ∧ prevCrc ≠ h.prevCrc then
          if pos < e.lastAt then .error .abort else .ok .stop
        else if buf.length < h.groupSize then
          match src with
          | [] => .ok .stop
          | p :: ps => tryGroup e pos prevCrc (buf ++ p) ps
        else checkBody e { buf, src, pos, prevCrc } h

/-- The reads at the top of `next_group`, `log_stream.cpp` 45-56: until there is a header. -/
def fillHdr : Bytes → List Bytes → Option (Bytes × List Bytes)
  | _, [] => none
  | buf, p :: ps => if (buf ++ p).length < hdrSize then fillHdr (buf ++ p) ps else some (buf ++ p, ps)

/-- `next_group`, `log_stream.cpp` 37-158. -/
def nextGroup (e : Env) (rd : Reader) : Except Fault Next :=
  if rd.buf.length < e.fm then
    match fillHdr rd.buf rd.src with
    | none => .ok .stop
    | some (buf, src) => tryGroup e rd.pos rd.prevCrc buf src
  else tryGroup e rd.pos rd.prevCrc rd.buf rd.src

/-- A record that the load hands to `on_logfound` (or skips, if it was rolled back). -/
structure Found where
  idx : Nat
  store : Nat
  seq : Nat
  data : Bytes
  /-- position of its group -/
  pos : Nat
  deriving DecidableEq, Repr

/-- The records of a group, `log_dev.cpp` 238-262. -/
def groupRecs (h : Hdr) (b : Bytes) (pos : Nat) : Nat → Except Fault (List Found)
  | 0 => .ok []
  | k + 1 =>
    match groupRecs h b pos k with
    | .error x => .error x
    | .ok l =>
      match Slot.dec b k with
      | none => .error .ub
      | some s =>
        match slice b (s.offset + if s.inlined then 0 else h.oobOff) s.size with
        | .error x => .error x
        | .ok d => .ok (l ++ [{ idx := h.startIdx + k, store := s.store, seq := s.seq, data := d, pos := pos }])

/-- What the load leaves: the records in the order in which they were found, `m_log_idx`, the tail position and
`m_last_crc`. -/
structure Loaded where
  recs : List Found
  logIdx : Nat
  tail : Nat
  lastCrc : Nat
  deriving DecidableEq, Repr

/-- The loop of `do_load`, `log_dev.cpp` 218-266.  `first`: no group was loaded yet.  `assert_next_pages`
(273-288) is not modelled; it only looks at data behind the end of a log whose first group is older than the
persisted start. -/
def doLoad (e : Env) : Nat → Reader → Bool → Loaded → Except Fault (Option Loaded)
  | 0, _, _, _ => .ok none
  | fuel + 1, rd, first, st =>
    match nextGroup e rd with
    | .error x => .error x
    | .ok .stop => .ok (some { st with tail := rd.pos })
    | .ok (.group h b rd') =>
      if first ∧ h.startIdx < st.logIdx then .ok (some { st with tail := rd.pos })
      else if h.startIdx ≠ st.logIdx then .error .abort
      else if h.nrec = 0 then .error .abort
      else
        match groupRecs h b rd.pos h.nrec with
        | .error x => .error x
        | .ok l =>
          doLoad e fuel rd' false
            { recs := st.recs ++ l, logIdx := h.startIdx + h.nrec, tail := rd.pos, lastCrc := h.curCrc }

/-- `do_load` on a fresh reader, with `m_log_idx` from the superblock. -/
def load (e : Env) (logIdx : Nat) (src : List Bytes) : Except Fault (Option Loaded) :=
  doLoad e (src.flatten.length + 1) { buf := [], src := src, pos := 0, prevCrc := 0 } true
    { recs := [], logIdx := logIdx, tail := 0, lastCrc := 0 }

end HS.Log
