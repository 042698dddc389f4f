/-!
# Membership of a replication group: what a user relies on

A group replicates a log.  Some of its entries change who belongs to the group, others begin or end the replacement of a
member.  What is said here refers to the log alone: the members after a log, and the replacement in progress after a log.
-/

namespace HS.Member

/-- `repl_decls.h`: replica ids are UUIDs; 0 stands for the nil UUID. -/
abbrev RId := Nat

/-- Bytes of a `std::string` or of a field of characters. -/
abbrev Bytes := List UInt8

/-- A member: NuRaft's `srv_config`, of which `do_add_member` (`raft_repl_dev.cpp` 533-534) sets id, learner flag, and priority. -/
structure Srv where
  id : RId
  learner : Bool
  prio : Nat
  deriving DecidableEq, Repr

/-- An entry of the replicated log that matters here.  The first three are NuRaft's configuration entries, the others carry a `journal_type_t` of
HomeStore (`raft_repl_dev.cpp` 1712-1734); `hdr` is the field of 64 characters with the id of the task. -/
inductive Entry where
  | add (v : Srv)
  | rem (id : RId)
  | learn (id : RId) (flag : Bool)
  | start (hdr : Bytes) (out inn : RId)
  | complete (hdr : Bytes) (out inn : RId)
  | clean (hdr : Bytes)
  | removed (id : RId)
  | app
  deriving DecidableEq, Repr

/-- The members after one more entry. -/
def memberStep (ms : List Srv) : Entry → List Srv
  | .add v => ms ++ [v]
  | .rem id => ms.filter fun v => v.id != id
  | .learn id f => ms.map fun v => if v.id = id then { v with learner := f } else v
  | _ => ms

/-- The members of a group that began with `ms`, after a log. -/
def members (ms : List Srv) (l : List Entry) : List Srv := l.foldl memberStep ms

/-- Who is a member. -/
def ids (ms : List Srv) : List RId := ms.map (·.id)

/-- Who has a vote. -/
def voters (ms : List Srv) : List RId := ids (ms.filter fun v => !v.learner)

/-- A field of characters as a string: the characters before the first NUL. -/
def cstr (f : Bytes) : Bytes := f.takeWhile (· != 0)

/-- A replacement: its id, who leaves, who comes. -/
structure Task where
  tid : Bytes
  out : RId
  inn : RId
  deriving DecidableEq, Repr

/-- What an entry does to the replacement in progress: a start begins one, a completion ends it, and so does the cleaning of the task with
this id. -/
def taskStep (t : Option Task) : Entry → Option Task
  | .start h o i => some ⟨cstr h, o, i⟩
  | .complete _ _ _ => none
  | .clean h => if t.map (·.tid) = some (cstr h) then none else t
  | _ => t

/-- The replacement in progress after a log. -/
def openTask (l : List Entry) : Option Task := l.foldl taskStep none

/-- Ids of tasks that fit: not empty, at most 63 characters, none of them NUL. -/
def Fits (t : Bytes) : Prop := t ≠ [] ∧ t.length ≤ 63 ∧ (0 : UInt8) ∉ t

instance (t : Bytes) : Decidable (Fits t) := inferInstanceAs (Decidable (_ ∧ _))

/-- `repl_decls.h` `ReplServiceError`: those the calls return (`raft`: whatever error NuRaft returned for a proposal). -/
inductive Err where
  | stopping | unready | notLeader | mismatch | notFound | quorumNotMet | badRequest | cancelled | retry | raft
  deriving DecidableEq, Repr

/-- The result of a call. -/
inductive Out where
  | ok
  | err (e : Err)
  deriving DecidableEq, Repr

/-- `repl_decls.h` `ReplaceMemberStatus`. -/
inductive Status where
  | completed | inProgress | notLeader | taskNotFound | taskMismatch | unknown
  deriving DecidableEq, Repr

/-- The calls of `replication_service.hpp` 52-88 (`replace`, `flip`, `remove`, `clean`), each with the commit quorum `q` it asks for;
`complete` is what the reaper thread calls (`raft_repl_dev.cpp` 374-453). -/
inductive Call where
  | replace (tid : Bytes) (out inn : RId) (q : Nat)
  | complete (tid : Bytes) (out inn : RId) (q : Nat)
  | remove (m : RId) (q : Nat) (verify : Bool)
  | flip (m : RId) (target : Bool) (q : Nat) (verify : Bool)
  | clean (tid : Bytes) (q : Nat)
  deriving DecidableEq, Repr

/-- The commit quorum a call asks for (0: the majority). -/
def Call.quorum : Call → Nat
  | .replace _ _ _ q | .complete _ _ _ q | .remove _ q _ | .flip _ _ q _ | .clean _ q => q

/-- May a user make this call? -/
def Call.offered : Call → Bool
  | .complete _ _ _ _ => false
  | _ => true

end HS.Member
