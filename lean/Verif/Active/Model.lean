import Verif.Member.Model
/-!
# Model of which members count as active

Models `RaftReplDev::get_active_peers` (/repo/src/lib/replication/repl_dev/raft_repl_dev.cpp 2099-2127), to which the leader
pushes data (1113-1119) and which the safety check of `replace_member` counts (274-298, `unsafeNow` of
`Verif.Member`), and the configurations that a replacement goes through: the old member becomes a learner (309),
the new member is added (351-362), the old member is removed (404).

Contract for NuRaft: the status of a leader lists every member, with the last index of its log as the leader knows it.
Simplified: the two 64-bit settings are far from the ends of their range.
-/
namespace HS.Active
open HS.Member

/-- `peer_info`: /repo/src/include/homestore/replication/repl_decls.h 90-101. -/
structure Peer where
  id : RId
  idx : Nat         -- `replication_idx_`
  resp : Nat        -- `last_succ_resp_us_`: how long ago the member answered
  learner : Bool    -- not `can_vote`
  deriving DecidableEq, Repr

/-- `least_active_repl_idx`: raft_repl_dev.cpp 2102-2110.  `commit` is `m_commit_upto_lsn`, `laggy` the setting, `start` is
`start_index()` of the journal. -/
def least (commit laggy : Int) (start : Nat) : Nat :=
  max (if laggy < commit then (commit - laggy).toNat else 0) (start - 1)

/-- The loop: raft_repl_dev.cpp 2111-2125.  The result is a set; ids in a status are distinct. -/
def activePeers (me : RId) (lo : Nat) : List Peer → List RId
  | [] => []
  | p :: ps =>
    if p.id = me then activePeers me lo ps
    else if lo ≤ p.idx then p.id :: activePeers me lo ps
    else activePeers me lo ps

/-- The members as `get_quorum_for_commit` (2129-2136) sees them. -/
def srvs (st : List Peer) : List Srv := st.map fun p => ⟨p.id, p.learner, 0⟩

/-- Does `replace_member` go on after its safety check (274-298) when no quorum is forced? -/
def passes (me : RId) (lo : Nat) (st : List Peer) (out inn : RId) : Bool :=
  !unsafeNow (srvs st) (activePeers me lo st) out inn 0

/-- What the check compares with the quorum: `active_num`, 277-281. -/
def activeNum (me : RId) (lo : Nat) (st : List Peer) (out inn : RId) : Nat :=
  (activePeers me lo st).length + 1 - (activePeers me lo st).count out - (activePeers me lo st).count inn

/-- `flip_learner_flag` (raft_repl_dev.cpp 309, 701-709). -/
def flip (ms : List Srv) (out : RId) : List Srv := ms.map fun v => if v.id = out then { v with learner := true } else v

/-- `add_srv` of a member with a vote (raft_repl_dev.cpp 362, 533-534). -/
def add (ms : List Srv) (inn : RId) : List Srv := ms ++ [⟨inn, false, 0⟩]

/-- `do_remove_member` (raft_repl_dev.cpp 404, 610-640). -/
def remove (ms : List Srv) (out : RId) : List Srv := ms.filter fun v => v.id ≠ out

end HS.Active
