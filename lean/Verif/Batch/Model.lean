import Verif.RaftLog.Model

/-!
# How a follower that cannot take an entry steers the batches of its leader

Models the branch `GotAppendEntryReqFromLeader` of `RaftReplDev::raft_event`
(/repo/src/lib/replication/repl_dev/raft_repl_dev.cpp:2362-2455), `RaftStateMachine::get_next_batch_size_hint_in_bytes`,
`inc_next_batch_size_hint` and `reset_next_batch_size_hint` (/repo/src/lib/replication/repl_dev/raft_state_machine.cpp:276-293),
the store into `m_latch_lsn` in `applier_create_req` (raft_repl_dev.cpp:1269-1275), and the leader's side, `log_entries_ext`
(/repo/src/lib/replication/log_store/home_raft_log_store.cpp:232-255, `HS.RaftLog.hintEnd`).

NuRaft is not in the repository; what is assumed of it is what the comments at raft_repl_dev.cpp:2431-2436 and
home_raft_log_store.cpp:234-237 say: after a refused batch the leader's next message goes with the hint -1, and the answer to
any other message brings the follower's hint.  The leader asks its log for at most `max_append_batch_size` entries
(/repo/src/lib/replication/service/raft_repl_service.cpp:120).

Simplifications: one message at a time between the leader and this follower, none lost; the follower's log is a prefix of the
leader's (no rollback, which would reset the latch); an entry that the follower skips (2421-2429: not of the application,
empty, committed) counts as one that it can take; the hint, an `int64_t`, is an integer; metrics are left out.
-/
namespace HS.Batch
open HS.RaftLog (hintEnd)

/-- Why the follower cannot take an entry now. -/
inductive Why
  | noSpace     -- `init_req_ctx` returns NO_SPACE_LEFT: the latch is set, raft_repl_dev.cpp:1269-1275
  | refused     -- any other error of `init_req_ctx` (quiesced, the listener's error), 1276-1284
  | late        -- the entry is accepted but its data does not come in time, 2444-2450
deriving DecidableEq, Repr

/-- The follower and what the leader knows of it. -/
structure St where
  next : Nat           -- the first index that the follower does not have
  seen : Int           -- the hint that the leader has for this follower
  hint : Int           -- `next_batch_size_hint`, raft_state_machine.h:105
  latch : Option Nat   -- `m_latch_lsn`, raft_repl_dev.h:229; `none`: INT64_MAX
deriving DecidableEq, Repr

/-- A new pair: nothing in the log (indices start at 1), no hint. -/
def init : St := { next := 1, seen := 0, hint := 0, latch := none }

/-- `inc_next_batch_size_hint`, raft_state_machine.cpp:278-288. -/
def inc (h : Int) : Int := if h < 0 then 1 else if h * 2 > 16 then 0 else h * 2

/-- The loop over the entries of the batch, raft_repl_dev.cpp:2414-2441: `n` entries from index `l` on.  The first one
for which `localize_journal_entry_prepare` gives no request. -/
def firstDenied (deny : Nat → Option Why) : Nat → Nat → Option (Nat × Why)
  | _, 0 => none
  | l, n + 1 =>
    match deny l with
    | some .noSpace => some (l, .noSpace)
    | some .refused => some (l, .refused)
    | _ => firstDenied deny (l + 1) n

/-- `wait_for_data_receive`, raft_repl_dev.cpp:2444-2450: does the data of one of the entries not come in time? -/
def anyLate (deny : Nat → Option Why) : Nat → Nat → Bool
  | _, 0 => false
  | l, n + 1 => decide (deny l = some .late) || anyLate deny (l + 1) n

/-- The end (exclusive) of the batch that the leader sends: its log ends before `e`, `m` is `max_append_batch_size`. -/
def batchEnd (m e : Nat) (s : St) : Nat := hintEnd s.next (min e (s.next + m)) s.seen

/-- One message of the leader, `raft_event` on the follower, and the answer (raft_repl_dev.cpp:2362-2455). -/
def round (m e : Nat) (deny : Nat → Option Why) (s : St) : St :=
  let b := batchEnd m e s
  if b ≤ s.next then { s with seen := s.hint }                                   -- 2368-2372
  else if s.latch.any (fun L => decide (b - 1 ≥ L)) then { s with seen := -1 }   -- 2392-2403
  else match firstDenied deny s.next (b - s.next) with
    | some (l, w) =>                                                              -- 2429-2440
      { s with hint := max 1 ((l - s.next : Nat) : Int), seen := -1,
               latch := if w = .noSpace then some l else s.latch }
    | none =>
      if anyLate deny s.next (b - s.next) then { s with seen := -1 }             -- 2444-2450
      else { s with next := b, hint := inc s.hint, seen := inc s.hint }           -- 2453

/-- A change of leader: the new one has no hint yet. -/
def newLeader (s : St) : St := { s with seen := 0 }

/-- `n` rounds; the `k`-th finds the leader's log of length `e k`. -/
def run (m : Nat) (e : Nat → Nat) (deny : Nat → Option Why) : Nat → St → St
  | 0, s => s
  | n + 1, s => run m (fun k => e (k + 1)) deny n (round m (e 0) deny s)

end HS.Batch
