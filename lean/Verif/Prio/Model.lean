/-!
# Model of leader priorities and of `reconcile_leader`

Models `RaftReplDev::reconcile_leader` (/repo/src/lib/replication/repl_dev/raft_repl_dev.cpp 2054-2091) with
`get_replication_status` (2017-2034), the priorities that `create_repl_dev` gives
(/repo/src/lib/replication/service/raft_repl_service.cpp 65-75, 389-400, raft_repl_dev.cpp 2213-2219).

Contract for NuRaft, which is not in the repository: the status of a leader lists every member;
`yield_leadership(false, x)` ends with `x` as leader, or with the leader as before if `x` does not answer,
has no vote, or does not catch up; `request_leadership` ends with the caller as leader, or with the leader as
before.  While no leader is known nothing happens.

Simplified: a priority is an integer.  It is an `int32_t` that goes through a `uint32_t` field
(/repo/src/include/homestore/replication/repl_decls.h 98) and back, which changes nothing.  A call of
`reconcile_leader` is one step; a member that loses the leadership within the call finds only itself in the
status and does nothing.
-/
namespace HS.Prio

/-- A member of the group: `srv_config` of NuRaft, and whether it answers. -/
structure Mem where
  id : Nat
  prio : Int
  learner : Bool
  up : Bool
  deriving DecidableEq, Repr

structure Grp where
  mems : List Mem
  leader : Option Nat
  deriving DecidableEq, Repr

/-- `raft_leader_priority`: /repo/src/lib/replication/service/raft_repl_service.h 40. -/
def leaderPriority : Int := 100

inductive Act
  | nothing
  | request
  | yield (successor : Nat)
  deriving DecidableEq, Repr

/-- The loop over the status: raft_repl_dev.cpp 2069-2080.  The pair is `expected_leader_id`,
`highest_priority`. -/
def scan (me : Nat) : List Mem → Nat × Int → Nat × Int
  | [], best => best
  | p :: ps, best =>
    if p.id = me then scan me ps best
    else if best.2 < p.prio then scan me ps (p.id, p.prio)
    else scan me ps best

/-- `reconcile_leader`: raft_repl_dev.cpp 2054-2091, on a member that has the priority `mine`. -/
def reconcile (isLeader : Bool) (me : Nat) (mine : Int) (status : List Mem) : Act :=
  if !isLeader then (if mine = leaderPriority then .request else .nothing)
  else
    let best := scan me status (me, mine)
    if best.1 = me then .nothing else .yield best.1

/-- The call on a member of a group. -/
def Grp.call (g : Grp) (m : Mem) : Act := reconcile (decide (g.leader = some m.id)) m.id m.prio g.mems

/-- A member can be made leader. -/
def Mem.able (m : Mem) : Prop := m.up = true ∧ m.learner = false

/-- What NuRaft may make of a request, by the contract. -/
inductive Effect (g : Grp) (m : Mem) : Act → Grp → Prop
  | nothing : Effect g m .nothing g
  | refused (a : Act) : Effect g m a g
  | request : g.leader ≠ none → m.able → Effect g m .request { g with leader := some m.id }
  | yield (x : Mem) : x ∈ g.mems → x.able → Effect g m (.yield x.id) { g with leader := some x.id }

/-- One call of `reconcile_leader` on a member that is up. -/
def Step (g g' : Grp) : Prop := ∃ m ∈ g.mems, m.up = true ∧ Effect g m (g.call m) g'

/-- Any number of calls. -/
inductive Steps : Grp → Grp → Prop
  | refl (g : Grp) : Steps g g
  | step {g h k : Grp} : Steps g h → Step h k → Steps g k

/-- What NuRaft makes of a request when all members answer, vote and catch up. -/
def Grp.after (g : Grp) (m : Mem) : Grp :=
  match g.call m with
  | .nothing => g
  | .request => if g.leader = none then g else { g with leader := some m.id }
  | .yield x => { g with leader := some x }

/-- `std::ceil(raft_leader_priority * std::pow(raft_priority_decay_coefficient, r))` with 0.8 as four fifths;
`err` is 1 where the floating-point product lies above an integer that the exact product hits, as for `r = 2`. -/
def decayed (r err : Nat) : Nat := (100 * 4 ^ r + 5 ^ r - 1) / 5 ^ r + err

/-- `compute_raft_follower_priority`: raft_repl_service.cpp 67-75; `rounds` is the setting
`max_wait_rounds_of_priority_election`. -/
def followerPriority (rounds err : Nat) : Int :=
  let r := min 5 rounds
  if r = 0 then leaderPriority else 1 + decayed r err

/-- The group as it is created: the creator with `raft_leader_priority` (raft_repl_dev.cpp 2213-2219), the other
members with that of a follower (raft_repl_service.cpp 389-400). -/
def created (rounds err : Nat) (me : Nat) (others : List Nat) : Grp :=
  { mems := ⟨me, leaderPriority, false, true⟩ :: others.map fun i => ⟨i, followerPriority rounds err, false, true⟩,
    leader := some me }

/-- The target priority of an election after `n` rounds: by the contract (comment at raft_repl_service.cpp 60-66) it starts with the
highest priority and each round is four fifths of it, rounded down. -/
def target (highest : Nat) : Nat → Nat
  | 0 => highest
  | n + 1 => target highest n * 4 / 5

end HS.Prio
