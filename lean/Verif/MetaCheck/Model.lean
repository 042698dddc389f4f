import Verif.Meta.Spec

/-!
# Model of the check of the superblock store (`verify_metablk_store`)

Source: `src/lib/meta/meta_blk_service.cpp`: `verify_metablk_store` (1576), `sanity_check`
(1343-1461), `ssb_sanity_check` (1311-1335), `_cookie_sanity_check` (765-797), and what maintains the
map of registered types `m_sub_info`: `register_handler` (372-398), `deregister_handler` (359-370),
`add_sub_sb` (406, 412), `remove_sub_sb` (939), `scan_and_load_meta_blks` (245).

The check runs under `m_meta_mtx` (1345), as the operations do, so it runs between operations.

Not modelled: `gen_cnt` and `version` (as in `Verif.Meta.Model`; the check compares the first with the
cached one and the second with a constant); the wrap of the 32-bit counters of records; a debug build,
in which the `HS_LOG_ASSERT`s stop the process; validity of ids (an id of the model is always a valid
one, except where it is an `Option`).
-/
namespace HS.MetaCheck
open HS.Meta

/-- `m_sub_info` (meta_sb.hpp `MetaSubRegInfo`): the registered types, and the ids of the records of
each, as pairs of type and id.  Callbacks and dependencies are not part of it here. -/
structure Sub where
  types : List Nat
  recs : List (Nat × Nat)
  deriving DecidableEq, Repr

/-- `register_handler` (372-398): the type is in the map from now on; ids that are there stay. -/
def Sub.reg (u : Sub) (t : Nat) : Sub := { u with types := u.types.insert t }

/-- `deregister_handler` (359-370): the entry of the type is erased, with the ids in it. -/
def Sub.dereg (u : Sub) (t : Nat) : Sub :=
  { types := u.types.filter (fun x => x ≠ t), recs := u.recs.filter (fun x => x.1 ≠ t) }

/-- `m_sub_info[t].meta_bids.insert(b)` (245, 412). -/
def Sub.add (u : Sub) (t b : Nat) : Sub := { types := u.types.insert t, recs := u.recs.insert (t, b) }

/-- `m_sub_info[t].meta_bids.erase(b)` (939). -/
def Sub.del (u : Sub) (t b : Nat) : Sub :=
  { types := u.types.insert t, recs := u.recs.filter (fun x => x ≠ (t, b)) }

/-- The map after the scan of a start (234-352, line 245), with the types registered before the start
and the records found, as type and id, in the order of the chain. -/
def Sub.scan (regs : List Nat) (l : List (Nat × Nat)) : Sub :=
  l.foldl (fun u x => u.add x.1 x.2) (regs.foldl Sub.reg { types := [], recs := [] })

/-- What an operation of a client does to the map: `add_sub_sb` (412), `update_sub_sb` nothing,
`remove_sub_sb` (939, with the type in the cached record, 880). -/
def subOp (u : Sub) (s : St) : Op → Sub
  | .add t _ b _ => u.add t b
  | .upd _ _ _ => u
  | .rem b =>
    match s.cache b with
    | some m => u.del m.typ b
    | none => u

/-- Outcomes of the check.  `stop`: a release assertion or a null pointer ends the process.  `loop`:
the walk has not come to an end within the fuel. -/
inductive Verdict where
  | stop
  | loop
  | no
  | yes
  deriving DecidableEq, Repr

/-- `_cookie_sanity_check` (765-797), after the check of the magic: the type is in the map, the id is
in the entry of the type, and the cached record of that id has the same id and links.  `false` = a
release assertion fails (776, 786-789, 796), or there is no cached record (782-786). -/
def cookieOk (s : St) (u : Sub) (m : MBlk) : Bool :=
  decide (m.typ ∈ u.types) && decide ((m.typ, m.bid) ∈ u.recs) &&
    match s.cache m.bid with
    | none => false
    | some k => decide (k.bid = m.bid) && decide (k.next = m.next) && decide (k.prev = m.prev)

/-- The walk along an overflow chain (1402-1425): self id, magic, and a list of data ids that is not
empty. -/
def checkOvf (d : Disk) : Nat → Option Nat → Verdict
  | _, none => .yes
  | 0, some _ => .loop
  | f + 1, some b =>
    match d b with
    | .ovf o => if o.bid = b ∧ o.pieces ≠ [] then checkOvf d f o.next else .no
    | _ => .no

/-- What is checked of the content of a record (1387-1427): a content that fits has no overflow chain,
one that does not has a chain, which is walked. -/
def checkBody (c : Cfg) (d : Disk) (of : Nat) (m : MBlk) : Verdict :=
  if m.ctxsz ≤ c.inlineMax then
    if m.ovf = none then .yes else .no
  else if m.ovf = none then .no
  else checkOvf d of m.ovf

/-- The walk along the records (1356-1431), from the id `bid` with the predecessor `prev`: `n` records
counted and the types `cl` seen so far.  `.ok`: the end was reached.  A block without the magic of a
record ends the process (769). -/
def checkRecs (c : Cfg) (s : St) (u : Sub) (d : Disk) (of : Nat) :
    Nat → Nat → Option Nat → Nat → List Nat → Except Verdict (Nat × List Nat)
  | _, _, none, n, cl => .ok (n, cl)
  | 0, _, some _, _, _ => .error .loop
  | f + 1, prev, some b, n, cl =>
    match d b with
    | .mblk m =>
      if cookieOk s u m then
        if m.bid = b ∧ m.prev = prev then
          match checkBody c d of m with
          | .yes => checkRecs c s u d of f b m.next (n + 1) (cl.insert m.typ)
          | v => .error v
        else .error .no
      else .error .stop
    | _ => .error .stop

/-- `verify_metablk_store` (1576): `ssb_sanity_check` (1311-1335), the walk from the first link **in
memory** (1356), and the numbers of records and types (1433-1446). -/
def check (c : Cfg) (fuel : Nat) (s : St) (u : Sub) (d : Disk) : Verdict :=
  match d s.ssb with
  | .ssb b _ =>
    if b = s.ssb then
      match checkRecs c s u d fuel fuel s.ssb s.ssbNext 0 [] with
      | .error v => v
      | .ok (n, cl) => if u.recs.length = n ∧ cl.length ≤ u.types.length then .yes else .no
    else .no
  | _ => .no

end HS.MetaCheck
