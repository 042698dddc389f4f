/-!
# What the members of a group keep of their logs

The boundary up to which the logs of a replicated device are truncated: `propose_truncate_boundary`, `update_truncation_boundary`,
`trigger_snapshot_creation` (src/lib/replication/repl_dev/raft_repl_dev.cpp:890-996, 1921-1949), `save_logical_snp_obj`
(raft_state_machine.cpp:387-424), `ReplLogStore::compact` (log_store/repl_log_store.cpp:117-125).

Raft is a contract: what a member has of the log and has told the leader stays (a crash loses none of it); a member commits only
what it has; an entry committed at one member is committed at the others at some later time.  Lsns are numbers from 1.
Simplified: the entry with a boundary is in `props` once proposed and may be applied by a member at any time later; terms and
elections are left out: any member may propose.
-/
namespace HS.Reserve

structure Mem where
  got : Nat          -- the last lsn of the log that this member has told to have
  committed : Nat    -- `m_commit_upto_lsn`
  ckpt : Nat         -- `m_rd_sb->checkpoint_lsn`
  limit : Nat        -- `m_truncation_upper_limit`, raft_repl_dev.h:206
  first : Nat        -- the last lsn that is truncated
  deriving DecidableEq, Repr

structure St where
  cfg : List Nat                     -- the members of the group
  mem : Nat → Mem
  top : Nat                          -- the last lsn committed anywhere
  seen : Nat → Option (Option Nat)   -- in `propose_truncate_boundary`, after 952: the smallest lsn of the peers, if there are any
  props : List Nat                   -- the boundaries proposed

def Mem.fresh : Mem := { got := 0, committed := 0, ckpt := 0, limit := 0, first := 0 }

def St.init (cfg : List Nat) : St := { cfg, mem := fun _ => .fresh, top := 0, seen := fun _ => none, props := [] }

/-- The smallest of what the leader knows of its peers (954-959); `view p` is `replication_idx_`. -/
def minPeers (view : Nat → Nat) (me : Nat) : List Nat → Option Nat
  | [] => none
  | p :: ps =>
    if p = me then minPeers view me ps
    else match minPeers view me ps with
      | none => some (view p)
      | some v => some (min (view p) v)

/-- `std::max(leader_commit_idx - reserve, minimum_repl_idx)` with `minimum_repl_idx` at most the commit index (953-961).  The
subtraction is of signed numbers there; the other operand is not negative. -/
def boundary (reserve c : Nat) (seen : Option Nat) : Nat :=
  max (c - reserve) (match seen with | none => c | some v => min c v)

inductive Ev where
  | recv (p n : Nat)                       -- a member has the log up to `n` and says so
  | commit (p n : Nat)                     -- a member commits up to `n`
  | ckpt (p : Nat)                         -- a checkpoint
  | status (l : Nat) (view : Nat → Nat)    -- the leader reads the status of its peers (952)
  | statusSelf (l : Nat)                   -- the same when it does not lead just then: the status is of itself only (2052)
  | propose (l : Nat)                      -- it reads its commit index and proposes (953-995)
  | apply (p b : Nat)                      -- a member commits the entry with the boundary (1721-1723)
  | compact (p n : Nat)                    -- raft asks a member to compact
  | manual (p n : Nat)                     -- `trigger_snapshot_creation(n)`: the boundary (919)
  | snapshot (p n : Nat)                   -- a member has received a snapshot (raft_state_machine.cpp:410-415, 431-436)
  | crash (p : Nat)
  | join (p : Nat)                         -- a new member, with nothing
  | leave (p : Nat)

def St.set (s : St) (p : Nat) (m : Mem) : St := { s with mem := fun q => if q = p then m else s.mem q }

/-- `update_truncation_boundary` (1921-1949). -/
def Mem.update (m : Mem) (b : Nat) : Mem := if min b m.ckpt ≤ m.limit then m else { m with limit := min b m.ckpt }

/-- `ReplLogStore::compact` (117-125). -/
def Mem.compact (m : Mem) (n : Nat) : Mem := if min n m.limit ≤ m.first then m else { m with first := min n m.limit }

def step (reserve : Nat) (s : St) : Ev → Option St
  | .recv p n => if (s.mem p).got < n then some (s.set p { s.mem p with got := n }) else none
  | .commit p n =>
    if (s.mem p).committed < n ∧ n ≤ (s.mem p).got then some { s.set p { s.mem p with committed := n } with top := max s.top n } else none
  | .ckpt p => some (s.set p { s.mem p with ckpt := (s.mem p).committed })
  | .status l view =>
    if ∀ p ∈ s.cfg, view p ≤ (s.mem p).got then
      some { s with seen := fun q => if q = l then some (minPeers view l s.cfg) else s.seen q } else none
  | .statusSelf l => some { s with seen := fun q => if q = l then some none else s.seen q }
  | .propose l =>
    match s.seen l with
    | none => none
    | some v =>
      let b := boundary reserve (s.mem l).committed v
      some { s with seen := fun q => if q = l then none else s.seen q, props := if 0 < b then b :: s.props else s.props }
  | .apply p b => if b ∈ s.props then some (s.set p ((s.mem p).update b)) else none
  | .compact p n => some (s.set p ((s.mem p).compact n))
  | .manual p n => some (s.set p ((s.mem p).update n))
  | .snapshot p n =>
    if (s.mem p).got < n ∧ n ≤ s.top then
      some (s.set p { got := n, committed := n, ckpt := (s.mem p).ckpt, limit := n, first := n }) else none
  | .crash p =>
    some { s.set p { s.mem p with committed := (s.mem p).ckpt, limit := 0 } with seen := fun q => if q = p then none else s.seen q }
  | .join p => if p ∈ s.cfg then none else some { s.set p .fresh with cfg := p :: s.cfg }
  | .leave p => some { s with cfg := s.cfg.filter (· ≠ p) }

def run (reserve : Nat) (s : St) : List Ev → Option St
  | [] => some s
  | e :: l => match step reserve s e with | some s' => run reserve s' l | none => none

end HS.Reserve
