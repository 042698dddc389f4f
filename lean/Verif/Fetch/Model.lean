import Verif.DataSvc.Props
/-!
# How the data of replicated writes reaches a member

Models, in `/repo/src/lib/replication/repl_dev`:

* `raft_repl_dev.cpp` — `push_data_to_all_followers` (1097-1137), `on_push_data_received`
  (1139-1239), `check_and_fetch_remote_data` (1397-1431), `fetch_data_from_remote` (1433-1514),
  `on_fetch_data_received` (1516-1602), `handle_fetch_data_response` (1604-1670);
* `common.cpp` — `save_pushed_data`, `save_fetched_data` (183-218), `add_state_if_not_already`
  (222-234);
* `/repo/src/include/homestore/replication/repl_dev.h` — `on_fetch_data` (444-448), the listener's
  default answer.

On top of the data service (`Verif.DataSvc`): reads, writes and their order on the device are the ones
of that model.

Simplifications.

* The requests exist, with their blocks, and keep them: how they come and go is `Verif.Repl.Data`
  (C78, C79).
* The transport delivers a message as it was sent, late or never; a push may also arrive with a wrong
  number of bytes of data, which is what the code tests for.  Flatbuffers are a pair of functions
  `enc`, `dec` with `dec (enc h) = some h`.
* A message is handled in one step: the test-and-set of DATA_RECEIVED is atomic (222-234), and no
  other thread touches what a handler does after it has won it.
* A write to the local device succeeds or does not end; a failed one ends the process or the request
  (1207-1210, 1645-1647; `Repl.Data`).
-/
namespace HS.Fetch
open HS.DataSvc

abbrev Bytes := List UInt8

/-- `repl_req_state_t`, repl_dev.h:51-60: one Boolean for each bit. -/
structure Flags where
  alloc : Bool := false
  recv : Bool := false
  written : Bool := false
  logRecv : Bool := false
  logFlushed : Bool := false
  err : Bool := false
  comm : Bool := false
  deriving DecidableEq, Repr

/-- A request on the member that receives data (`repl_req_ctx`): where the data is
(`m_remote_blkid`: server and pieces), where it goes (`local_blkid()`), its state. -/
structure Req where
  server : Nat
  rem : List Piece
  loc : List Piece
  st : Flags
  deriving DecidableEq, Repr

/-- `MultiBlkId::blk_count`, blk.cpp:137-144: the sum of the pieces in 16 bits (C03). -/
def blkCount (ps : List Piece) : Nat := (ps.map (·.n)).sum % 65536

/-- `blk_count() * get_blk_size()`, in 32 bits (1419, 1536, 1620). -/
def dataSize (bs : Nat) (ps : List Piece) : Nat := blkCount ps * bs % 4294967296

/-! ## Asking for data -/

/-- `fetch_data_from_remote` sends nothing for an empty batch (1434). -/
def send {α : Type} (cur : List α) (out : List (List α)) : List (List α) :=
  if cur = [] then out else out ++ [cur]

/-- The loop of `check_and_fetch_remote_data` (1403-1429) over the requests `ids`; `orig` is the
server of the first one.  `none`: the release assertion at 1415-1417. -/
def fetchLoop (maxB bs : Nat) (reqs : Nat → Req) (orig : Nat) :
    List Nat → Nat → List Nat → List (List Nat) → Option (List (List Nat))
  | [], _, cur, out => some (send cur out)
  | r :: rs, tot, cur, out =>
    if (reqs r).st = { err := true } then fetchLoop maxB bs reqs orig rs tot cur out
    else if (reqs r).st = { recv := true } then fetchLoop maxB bs reqs orig rs tot cur out
    else if (reqs r).server ≠ orig then none
    else if tot + dataSize bs (reqs r).rem ≥ maxB then
      fetchLoop maxB bs reqs orig rs (dataSize bs (reqs r).rem) [r] (send cur out)
    else
      fetchLoop maxB bs reqs orig rs (tot + dataSize bs (reqs r).rem) (cur ++ [r]) out

/-- `check_and_fetch_remote_data` (1397-1431): the batches it asks for, one message each.  Its
callers pass a list with a request in it (`rreqs.front()`, 1401; 1373, 1385). -/
def checkAndFetch (maxB bs : Nat) (reqs : Nat → Req) : List Nat → Option (List (List Nat))
  | [] => none
  | r :: rs => fetchLoop maxB bs reqs (reqs r).server (r :: rs) 0 [] []

/-! ## Answering -/

/-- The default `on_fetch_data` (repl_dev.h:444-448) for one entry, into a buffer of `dataSize` bytes
(1535-1539): `none` is an error. -/
def readEntry (bs : Nat) (tbl : Table) (d : Dev) (rem : List Piece) : Option Bytes :=
  (asyncRead bs tbl d rem (dataSize bs rem)).map (·.take (dataSize bs rem))

/-- The reads of `on_fetch_data_received` (1530-1557) and the answer (1559-1601): the data of all
entries one after the other, or nothing at all if one of the reads fails.  Entry `i` is read at its
own moment, when the device holds `devs i`; `fails i`: that read fails. -/
def serve (bs : Nat) (tbl : Table) (devs : Nat → Dev) (fails : Nat → Bool) :
    Nat → List (List Piece) → Option Bytes
  | _, [] => some []
  | i, rem :: rems =>
    match (if fails i then none else readEntry bs tbl (devs i) rem), serve bs tbl devs fails (i + 1) rems with
    | some a, some b => some (a ++ b)
    | _, _ => none

/-- What is sent: an empty message on failure (1577). -/
def answer (bs : Nat) (tbl : Table) (devs : Nat → Dev) (fails : Nat → Bool) (rems : List (List Piece)) :
    Bytes := (serve bs tbl devs fails 0 rems).getD []

/-! ## Data that comes in -/

/-- Sizes and layouts. -/
structure Cfg where
  bs : Nat                     -- block size
  maxB : Nat                   -- `data_fetch_max_size_kb * 1024`
  tblR : Nat → Table           -- chunks of the other members
  tblL : Table                 -- chunks of this member
  enc : Nat × Nat → Bytes      -- flatbuffer of a push: request, size of the data
  dec : Bytes → Option (Nat × Nat)

/-- A member that receives data. -/
structure St where
  reqs : Nat → Req
  disk : Dev
  fly : List (Nat × Bytes)         -- writes under way: request, data
  asked : List (List Nat)          -- fetches that were sent
  came : List (List Nat × Bytes)   -- answers to them that have not been handled

def St.setReq (s : St) (r : Nat) (f : Flags → Flags) : St :=
  { s with reqs := fun x => if x = r then { s.reqs r with st := f (s.reqs r).st } else s.reqs x }

/-- `async_write(data, size, local_blkid())` (1203-1204, 1636) takes `blk_count * blk_size` bytes for
each piece of an id with several pieces, whatever the size of the data (blkdata_service.cpp:171-180):
with less data it reads past the end of the buffer. -/
def overruns (bs : Nat) (loc : List Piece) (buf : Bytes) : Bool :=
  loc.length ≠ 1 && buf.length < (loc.map fun p => p.n * bs).sum

/-- `save_pushed_data` / `save_fetched_data` (183-218) and the write that follows if the request did
not have its data (1188-1204, 1622, 1634-1636).  `none`: reads past the end of the buffer. -/
def save (bs : Nat) (s : St) (r : Nat) (buf : Bytes) : Option St :=
  if (s.reqs r).st.recv then some s
  else if overruns bs (s.reqs r).loc buf then none
  else some { (s.setReq r fun f => { f with recv := true }) with fly := s.fly ++ [(r, buf)] }

/-- The loop of `handle_fetch_data_response` (1619-1667).  `none`: reads past the end of the
answer. -/
def handleLoop (bs : Nat) : List Nat → Bytes → St → Option St
  | [], _, s => some s
  | r :: rs, raw, s =>
    if (s.reqs r).st.recv then handleLoop bs rs (raw.drop (dataSize bs (s.reqs r).rem)) s
    else if raw.length < dataSize bs (s.reqs r).rem then none
    else
      match save bs s r (raw.take (dataSize bs (s.reqs r).rem)) with
      | none => none
      | some s' => handleLoop bs rs (raw.drop (dataSize bs (s.reqs r).rem)) s'

/-- `handle_fetch_data_response` (1604-1670): an empty answer is dropped (1610-1613). -/
def handle (bs : Nat) (ids : List Nat) (raw : Bytes) (s : St) : Option St :=
  if raw = [] then some s else handleLoop bs ids raw s

/-- Four bytes, least significant first: the size prefix of a flatbuffer. -/
def le4 (n : Nat) : Bytes :=
  [UInt8.ofNat n, UInt8.ofNat (n / 256), UInt8.ofNat (n / 65536), UInt8.ofNat (n / 16777216)]

def rd4 : Bytes → Option Nat
  | a :: b :: c :: d :: _ => some (a.toNat + 256 * b.toNat + 65536 * c.toNat + 16777216 * d.toNat)
  | _ => none

/-- The message of `push_data_to_all_followers` (1097-1109): flatbuffer with its size before it, then
the data; the size of the data is a field of 32 bits (push_data_rpc.fbs:11). -/
def pushMsg (c : Cfg) (r : Nat) (data : Bytes) : Bytes :=
  le4 (c.enc (r, data.length % 4294967296)).length ++ c.enc (r, data.length % 4294967296) ++ data

/-- `on_push_data_received` (1139-1204).  `none`: the flatbuffer is cut off (the code does not test
it and reads past the end). -/
def onPush (c : Cfg) (s : St) (msg : Bytes) : Option St :=
  match rd4 msg with
  | none => none
  | some fb =>
    if msg.length < fb + 4 then none
    else
      match c.dec ((msg.drop 4).take fb) with
      | none => none
      | some (r, size) =>
        if fb + 4 + size ≠ msg.length then some s
        else save c.bs s r ((msg.drop (fb + 4)).take size)

/-! ## Steps -/

inductive Op where
  /-- The requests `ids` are fetched (1373, 1385). -/
  | fetch (ids : List Nat)
  /-- The originator answers fetch number `k`. -/
  | serve (k : Nat) (devs : Nat → Dev) (fails : Nat → Bool)
  /-- Fetch number `k` is not answered. -/
  | lose (k : Nat)
  /-- Answer number `k` is handled. -/
  | handle (k : Nat)
  /-- A push comes. -/
  | push (msg : Bytes)
  /-- The device has written the data of write number `k`. -/
  | done (k : Nat)

/-- The server a batch is sent to (1442): that of its first request. -/
def target (s : St) : List Nat → Nat
  | [] => 0
  | r :: _ => (s.reqs r).server

/-- One step; the result is `none` if the process fails. -/
inductive Step (c : Cfg) : St → Op → Option St → Prop where
  | fetch (s ids) : ids ≠ [] → Step c s (.fetch ids)
      ((checkAndFetch c.maxB c.bs s.reqs ids).map fun bs => { s with asked := s.asked ++ bs })
  | serve (s k devs fails ids) : s.asked[k]? = some ids → Step c s (.serve k devs fails)
      (some { s with
        asked := s.asked.eraseIdx k
        came := s.came ++
          [(ids, answer c.bs (c.tblR (target s ids)) devs fails (ids.map fun r => (s.reqs r).rem))] })
  | lose (s k) : Step c s (.lose k) (some { s with asked := s.asked.eraseIdx k })
  | handle (s k ids raw) : s.came[k]? = some (ids, raw) → Step c s (.handle k)
      (handle c.bs ids raw { s with came := s.came.eraseIdx k })
  | push (s msg) : Step c s (.push msg) (onPush c s msg)
  | done (s k r buf d) : s.fly[k]? = some (r, buf) →
      Completes (asyncWrite c.bs c.tblL (s.reqs r).loc buf) s.disk d true → Step c s (.done k)
      (some { (s.setReq r fun f => { f with written := true }) with disk := d, fly := s.fly.eraseIdx k })

end HS.Fetch
