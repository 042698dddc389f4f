import Verif.Blk.Lemmas
/-!
# Journal entries of the replicated devices

Models, in `/repo/src/lib/replication/repl_dev`:

* `common.h:30-61` — `repl_journal_entry`, the packed header in front of every journal entry;
* `common.cpp:66-104` — `repl_req_ctx::create_journal_entry`, which lays an entry out;
* `solo_repl_dev.cpp:176-216` — the parsing half of `SoloReplDev::on_log_found`;
* `raft_repl_dev.cpp:2700-2767` — the parsing half of `RaftReplDev::on_log_found`;
* `raft_state_machine.cpp:56-133,181` — `localize_journal_entry_prepare` / `_finish`, which put a
  follower's own block id and server id into an entry received from the leader.

Entries are lists of bytes in the little-endian layout of the packed struct.  Block ids and their
serialized form are those of `Verif.Blk.Model`.  Header, key and block ids are the only payload;
user data of inlined requests travels in the header.
-/
namespace HS.Repl
open HS.Blk

/-- `journal_type_t::HS_DATA_LINKED` (include/homestore/replication/repl_dev.h:62-63): the entry
stores the ids of the blocks that hold the data.  Every other code stores no block id. -/
def linkedCode : BitVec 16 := 0

/-- The parts of a `repl_req_ctx` that go into its journal entry
(include/homestore/replication/repl_dev.h:258-280): operation code, trace id, server id of the
proposer, data sequence number, user header, user key, local block ids. -/
structure Req where
  code : BitVec 16
  trace : BitVec 64
  server : BitVec 32
  dsn : BitVec 64
  header : List Byte
  key : List Byte
  ids : List MultiBlkId
  deriving DecidableEq, Repr

/-- `has_linked_data()` (repl_dev.h:181). -/
def Req.linked (r : Req) : Bool := r.code = linkedCode

/-- The bytes of the block ids, one `serialize()` after the other (common.cpp:97-103); nothing
when the request has no linked data. -/
def Req.value (r : Req) : List Byte :=
  if r.linked then r.ids.flatMap MultiBlkId.serialize else []

/-- `sizeof(repl_journal_entry)` (common.h:30-46, packed): 2+2+2+8+4+8+4+4+4. -/
def hdrSize : Nat := 38

/-- `create_journal_entry` (common.cpp:66-104): the packed header — versions 1.1, code, trace id,
server id, dsn, and the sizes of user header, key and value as 32-bit numbers — then the user
header, the key and the block ids. -/
def encode (r : Req) : List Byte :=
  leBytes (1 : BitVec 16) 2 ++ leBytes (1 : BitVec 16) 2 ++ leBytes r.code 2 ++ leBytes r.trace 8 ++
    leBytes r.server 4 ++ leBytes r.dsn 8 ++
    leBytes (BitVec.ofNat 32 r.header.length) 4 ++ leBytes (BitVec.ofNat 32 r.key.length) 4 ++
    leBytes (BitVec.ofNat 32 r.value.length) 4 ++
    r.header ++ r.key ++ r.value

/-- How parsing an entry ends badly. -/
inductive EFail where
  | version      -- release assertion on `major_version`
  | size         -- release assertion on the sizes
  | outOfBounds  -- a read or write past the end of the buffer: undefined behaviour
  deriving DecidableEq, Repr

/-- A 16-, 32- or 64-bit little-endian field of the packed header at byte `off`. -/
def field (w : Nat) (b : List Byte) (off len : Nat) : BitVec w := ofLeBytes w ((b.drop off).take len)

/-- What `SoloReplDev::on_log_found` hands to the listener. -/
structure SoloEntry where
  header : List Byte
  key : List Byte
  ids : List MultiBlkId
  deriving DecidableEq, Repr

/-- The loop of `SoloReplDev::on_log_found` (solo_repl_dev.cpp:204-211): as long as bytes remain,
deserialize the next **`sizeof(BlkId)` = 8** bytes as one id.  A remainder of 1 to 7 bytes is read
past its end (and `remain_size`, unsigned, then wraps around). -/
def soloIds : (fuel : Nat) → List Byte → Except EFail (List MultiBlkId)
  | 0, _ => .error .outOfBounds
  | fuel + 1, b =>
    if b.length = 0 then .ok []
    else if b.length < 8 then .error .outOfBounds
    else match MultiBlkId.deserialize (b.take 8) with
      | none => .error .outOfBounds
      | some m =>
        match soloIds fuel (b.drop 8) with
        | .error e => .error e
        | .ok ms => .ok (m :: ms)

/-- The parsing half of `SoloReplDev::on_log_found` (solo_repl_dev.cpp:188-211).  `remain_size` is
the size of the buffer less the packed header; the two release assertions check the header's and
the key's size against it.  A buffer shorter than the packed header would be read past its end. -/
def soloDecode (b : List Byte) : Except EFail SoloEntry :=
  if b.length < hdrSize then .error .outOfBounds
  else if field 16 b 0 2 ≠ 1 then .error .version
  else
    let hs := (field 32 b 26 4).toNat
    let ks := (field 32 b 30 4).toNat
    let rest := b.drop hdrSize
    if rest.length < hs then .error .size
    else if (rest.drop hs).length < ks then .error .size
    else
      let vals := (rest.drop hs).drop ks
      match soloIds (vals.length + 1) vals with
      | .error e => .error e
      | .ok ids => .ok ⟨rest.take hs, (rest.drop hs).take ks, ids⟩

/-- What `RaftReplDev::on_log_found` puts into the request it rebuilds. -/
structure RaftEntry where
  code : BitVec 16
  trace : BitVec 64
  server : BitVec 32
  dsn : BitVec 64
  header : List Byte
  key : List Byte
  id : Option MultiBlkId
  deriving DecidableEq, Repr

/-- The parsing half of `RaftReplDev::on_log_found` (raft_repl_dev.cpp:2718-2760; the same lambdas
in `localize_journal_entry_prepare`, raft_state_machine.cpp:58-93): header, key and value are taken
at the offsets given by the sizes in the packed header, with no check against the buffer's size;
if the entry is linked and the value is not empty, the *whole* value is deserialized as **one**
`MultiBlkId`. -/
def raftDecode (b : List Byte) : Except EFail RaftEntry :=
  if b.length < hdrSize then .error .outOfBounds
  else if field 16 b 0 2 ≠ 1 then .error .version
  else
    let hs := (field 32 b 26 4).toNat
    let ks := (field 32 b 30 4).toNat
    let vs := (field 32 b 34 4).toNat
    let rest := b.drop hdrSize
    if rest.length < hs + ks + vs then .error .outOfBounds
    else
      let e : Option MultiBlkId → RaftEntry := fun id =>
        ⟨field 16 b 4 2, field 64 b 6 8, field 32 b 14 4, field 64 b 18 8,
          rest.take hs, (rest.drop hs).take ks, id⟩
      if field 16 b 4 2 = linkedCode ∧ vs > 0 then
        match MultiBlkId.deserialize (((rest.drop hs).drop ks).take vs) with
        | none => .error .outOfBounds
        | some m => .ok (e (some m))
      else .ok (e none)

/-- Overwriting bytes `off ..` of a buffer with `data` (`std::memcpy` into it): past the end is
undefined behaviour. -/
def overwrite (b : List Byte) (off : Nat) (data : List Byte) : Except EFail (List Byte) :=
  if off + data.length ≤ b.length then .ok (b.take off ++ data ++ b.drop (off + data.length))
  else .error .outOfBounds

/-- `localize_journal_entry_prepare` (raft_state_machine.cpp:98-117) for a linked entry: the value
ends the buffer, so it starts at `size − value_size`; the serialized local id is copied there.
The branch for `local_size > remote_size` is a failing `DEBUG_ASSERT`; in a release build the new
buffer it makes is dropped and the copy still goes to the old one. -/
def localizePrepare (b : List Byte) (l : MultiBlkId) : Except EFail (List Byte) :=
  let vs := (field 32 b 34 4).toNat
  overwrite b (b.length - vs) (l.serialize)

/-- `localize_journal_entry_finish` on a follower (raft_state_machine.cpp:135-188): prepare if it is
still pending, then `jentry->server_id = m_rd.server_id()`. -/
def localizeFinish (b : List Byte) (l : MultiBlkId) (server : BitVec 32) : Except EFail (List Byte) :=
  match localizePrepare b l with
  | .error e => .error e
  | .ok b' => overwrite b' 14 (leBytes server 4)

end HS.Repl
