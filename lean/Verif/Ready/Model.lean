/-!
# When a new leader is ready for traffic

`become_leader_cb`, `become_follower_cb`, `is_ready_for_traffic` (raft_repl_dev.cpp:2953-2978, 2456-2469; raft_repl_dev.h:367-373)
of one member, with raft's side of it as a contract: raft changes its role and then calls back, holding its lock, so that
nothing is appended or removed in between, but entries are committed and application threads ask for the role and whether
the member is ready.  Lsns are the numbers of entries.

Simplified: one application thread asks (what it reads changes nothing for others); the device is not stopping; callbacks
to the application (`on_become_leader`, `on_become_follower`) are left out.
-/
namespace HS.Ready

structure St where
  leader : Bool            -- raft's role, as `is_leader()` tells it
  cb : Option Bool         -- the callback raft is about to call: leader or follower
  log : Nat                -- the last lsn of the log
  committed : Nat          -- `m_commit_upto_lsn`
  gate : Nat               -- `m_traffic_ready_lsn`
  base : Nat               -- the last lsn of the log when the member last became leader
  asked : Option Nat       -- in `is_ready_for_traffic`: what was read of `m_commit_upto_lsn`
  deriving DecidableEq, Repr

/-- A member that starts, with its log, as a follower (raft_repl_dev.h:205). -/
def St.init (log committed : Nat) : St := { leader := false, cb := none, log, committed, gate := 0, base := 0, asked := none }

inductive Ev where
  | lead                  -- raft makes this member the leader
  | leadCb                -- `become_leader_cb` (2953-2966)
  | follow                -- raft makes it a follower, or it has joined
  | followCb              -- `become_follower_cb` (raft_repl_dev.h:369-373)
  | append                -- an entry is added to the log
  | truncate (n : Nat)    -- raft removes entries that another leader replaces
  | snapshot (n : Nat)    -- a snapshot with its last lsn is applied (raft_state_machine.cpp:431-442)
  | commit                -- an entry is committed; the lsn is stored (raft_repl_dev.cpp:1735-1737)
  | ask                   -- `is_ready_for_traffic` reads the committed lsn (2970)
  | answer (ready : Bool) -- and the gate, and returns (2971-2977)
  deriving DecidableEq, Repr

inductive Out where
  | ok (s : St)
  | abort           -- `RD_REL_ASSERT`, 2957
  | no
  deriving DecidableEq, Repr

def step (s : St) : Ev → Out
  | .lead => if s.cb = none then .ok { s with leader := true, cb := some true, base := s.log } else .no
  | .leadCb =>
    if s.cb = some true then (if s.log ≥ s.gate then .ok { s with cb := none, gate := s.log } else .abort) else .no
  | .follow => if s.cb = none then .ok { s with leader := false, cb := some false } else .no
  | .followCb => if s.cb = some false then .ok { s with cb := none, gate := 0 } else .no
  | .append => if s.cb = none then .ok { s with log := s.log + 1 } else .no
  | .truncate n => if s.cb = none ∧ s.leader = false ∧ s.committed ≤ n ∧ n ≤ s.log then .ok { s with log := n } else .no
  | .snapshot n => if s.cb = none ∧ s.leader = false ∧ s.committed ≤ n then .ok { s with log := n, committed := n } else .no
  | .commit => if s.committed < s.log then .ok { s with committed := s.committed + 1 } else .no
  | .ask => if s.asked = none then .ok { s with asked := some s.committed } else .no
  | .answer r =>
    match s.asked with
    | some c => if r = decide (c ≥ s.gate) then .ok { s with asked := none } else .no
    | none => .no

def run (s : St) : List Ev → Out
  | [] => .ok s
  | e :: l => match step s e with | .ok s' => run s' l | .abort => .abort | .no => .no

end HS.Ready
