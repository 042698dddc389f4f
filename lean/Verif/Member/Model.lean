import Verif.Member.Spec

/-!
# Membership of a replication group: the model

Any number of nodes with any number of calls each; a step of a call is what it does between two things others may see or change.

Assumed of NuRaft (not in /repo): there is one log; entries up to `committed` never change; a new leader may drop entries beyond; only the leader
appends; it accepts one change of the configuration at a time, and checks it against the configuration it has; a node's configuration is
that of the entries it has applied.  The results NuRaft returns are free otherwise (an accepted request may be lost, a request reported as failed
may have been accepted, a node may take itself for the leader).

Simplified: the flips of `_PRERELEASE` are left out; replica ids and NuRaft's server ids are identified; the endpoints of members are left out;
`retry_when_config_changing` and `wait_and_check` are the last attempt they make.
-/

namespace HS.Member

/-- `raft_repl_dev.h` 19 -/
def maxTid : Nat := 64

/-- `raft_repl_dev.h` 21-25 `replace_member_task_superblk`. -/
structure TaskSb where
  tid : Bytes
  rout : RId
  rin : RId
  deriving DecidableEq, Repr

/-- `raft_repl_dev.cpp` 1859, 1914: `replace_member_task_superblk{}`. -/
def TaskSb.empty : TaskSb := ⟨List.replicate maxTid 0, 0, 0⟩

/-- `std::strncpy(dst, src, n)`: the characters of `src` before its NUL, `n` at most, filled up with NULs. -/
def strncpy (src : Bytes) (n : Nat) : Bytes :=
  let s := (cstr src).take n
  s ++ List.replicate (n - s.length) 0

/-- `raft_repl_dev.h` 52-58: the field `task_id` of `replace_member_ctx` for a task id; `pad` is what was in memory behind. -/
def ctxTid (id pad : Bytes) : Bytes :=
  let len := min id.length (maxTid - 1)
  (strncpy id len ++ [0] ++ pad).take maxTid

/-- `raft_repl_dev.h` 265 `get_replace_member_task_id`. -/
def TaskSb.id (sb : TaskSb) : Bytes := cstr sb.tid

/-- `raft_repl_dev.cpp` 1829-1919: what committing an entry does to the recorded task. -/
def commitSb (sb : TaskSb) : Entry → TaskSb
  -- 1829-1842 `start_replace_member`
  | .start h o i => ⟨strncpy h maxTid, o, i⟩
  -- 1844-1863 `complete_replace_member` (the assertion 1856-1858 is only checked in debug builds)
  | .complete _ _ _ => if sb.id = [] then sb else .empty
  -- 1871-1919 `clean_replace_member_task` (commits are made one after the other: nothing changes between 1898 and 1910)
  | .clean h => if sb.id = [] then sb else if sb.id ≠ cstr h then sb else .empty
  | _ => sb

/-- `raft_repl_dev.cpp` 784-792 `get_ongoing_replace_member_task`. -/
def ongoing (sb : TaskSb) : Option Task :=
  if sb.rin = 0 ∨ sb.rout = 0 then none else some ⟨sb.id, sb.rout, sb.rin⟩

/-- `raft_server()->get_config()->get_server(id)`, `get_srv_config(id)`. -/
def getSrv (ms : List Srv) (id : RId) : Option Srv := ms.find? fun v => v.id = id

/-- `raft_repl_dev.cpp` 455-524 `get_replace_member_status`; `stopping`, `lead`: `is_stopping()`, `is_leader()`.
The peers (467) are the members of the node's configuration. -/
def status (stopping lead : Bool) (ms : List Srv) (sb : TaskSb) (tid : Bytes) (out inn : RId) (others : List RId) : Status :=
  if stopping then .unknown
  else if !lead then .notLeader
  else
    let foundOut := ms.any fun v => v.id = out
    let foundIn := ms.any fun v => v.id ≠ out && v.id = inn
    let done := !foundOut && foundIn
    if sb.id = [] then
      if done then
        if (others.length = 0 || others.length + 1 = ms.length) && others.all fun o => (getSrv ms o).isSome then .completed
        else .unknown
      else .taskNotFound
    else if sb.id ≠ tid then .taskMismatch
    else .inProgress

/-- `raft_repl_dev.cpp` 2129-2136 `get_quorum_for_commit`. -/
def commitQuorum (ms : List Srv) : Nat := (ms.filter fun v => !v.learner).length / 2 + 1

/-- `raft_repl_dev.cpp` 275-289: does the safety check fail?  `active`: the active peers (2099-2127: those not too far behind). -/
def unsafeNow (ms : List Srv) (active : List RId) (out inn : RId) (q : Nat) : Bool :=
  let num := active.length + 1 - active.count out - active.count inn
  num < commitQuorum ms && q = 0

/-- Where a call is. -/
inductive Pc where
  /-- at the beginning -/
  | entry
  /-- about to set the quorum; `lead`: 222 -/
  | setQ (lead : Bool)
  /-- 246 -/
  | lead (lead : Bool)
  /-- 251 -/
  | task
  /-- 259 -/
  | cfg
  /-- 275 -/
  | safe
  /-- 690 -/
  | flipLead
  /-- 697 -/
  | flipGet
  /-- 703 -/
  | flipCmd
  /-- 721 -/
  | flipVerify
  /-- 325, 423 -/
  | init
  /-- 342, 440, 596, 771 -/
  | propose
  /-- 527 -/
  | addLead
  /-- 531 -/
  | addCmd
  /-- 612 -/
  | remLead
  /-- 619 -/
  | remCmd
  /-- 642 -/
  | remVerify
  /-- about to reset the quorum and to return -/
  | reset (o : Out)
  /-- returned; `line`: by the statement in this line of `raft_repl_dev.cpp`, without resetting the quorum (0: after resetting it) -/
  | done (o : Out) (line : Nat)
  /-- a null pointer was dereferenced -/
  | fault
  /-- the node was restarted -/
  | lost
  deriving DecidableEq, Repr

/-- A call.  `prio`: 361.  `since`: how much of the log its node had applied when it was called (not in the code). -/
structure Run where
  node : RId
  call : Call
  pc : Pc
  prio : Nat
  since : Nat
  deriving DecidableEq, Repr

/-- What a call is told by what is not modelled. -/
structure Ans where
  /-- `is_stopping()` -/
  stop : Bool := false
  /-- stage ≠ ACTIVE -/
  unready : Bool := false
  /-- does the node take itself for the leader? -/
  lead : Bool := true
  /-- `init_req_ctx` succeeds; a proposal is accepted; a check in `wait_and_check` succeeds in time -/
  yes : Bool := true
  /-- does a request to NuRaft get to the leader's log? -/
  eff : Bool := true
  /-- NuRaft's result code: 0 OK, 1 SERVER_ALREADY_EXISTS (add), SERVER_NOT_FOUND (remove), 2 CANCELLED, others -/
  code : Nat := 0
  /-- 275 -/
  active : List RId := []
  /-- see `ctxTid` -/
  pad : Bytes := List.replicate 64 0
  deriving DecidableEq, Repr

/-- What a step of a call does besides. -/
inductive Eff where
  | none
  /-- 834-840 `reset_quorum_size` -/
  | quorum (q : Nat)
  /-- append to the log -/
  | append (e : Entry)
  /-- ask the leader to append to the log some time -/
  | submit (e : Entry)
  /-- 361: note the priority -/
  | prio (p : Nat)
  deriving DecidableEq, Repr

/-- After `do_flip_learner` succeeded: 315 (`replace`), 684 (`flip`). -/
def afterFlip : Call → Pc
  | .replace _ _ _ _ => .init
  | _ => .done .ok 684

/-- After `do_remove_member` succeeded: 411 (`complete`), 579 (`remove`: no `init_req_ctx` there). -/
def afterRem : Call → Pc
  | .complete _ _ _ _ => .init
  | _ => .propose

/-- After the quorum was set, or did not have to be set: 246, 395, 571, 677, 758. -/
def afterSetQ (lead : Bool) : Call → Pc
  | .replace _ _ _ _ => .lead lead
  | .complete _ _ _ _ => .remLead
  | .remove _ _ _ => .remLead
  | .flip _ _ _ _ => .flipLead
  | .clean _ _ => .propose

/-- 235, 390, 570, 673, 757: `if (commit_quorum >= 1)`. -/
def beforeSetQ (lead : Bool) (c : Call) : Pc := if c.quorum ≥ 1 then .setQ lead else afterSetQ lead c

/-- The member to be flipped, and the flag. -/
def flipArgs : Call → Option (RId × Bool)
  | .replace _ out _ _ => some (out, true)
  | .flip m f _ _ => some (m, f)
  | _ => none

/-- Does `do_flip_learner` check the result (308, 677)? -/
def flipChecks : Call → Bool
  | .flip _ _ _ v => v
  | _ => true

/-- The member to be removed. -/
def remArg : Call → Option RId
  | .complete _ out _ _ => some out
  | .remove m _ _ => some m
  | _ => none

/-- Does `do_remove_member` check the result (404, 572)? -/
def remChecks : Call → Bool
  | .remove _ _ v => v
  | _ => true

/-- The entry a call proposes: 321, 419, 587, 764. -/
def proposal (sb : TaskSb) (pad : Bytes) : Call → Option Entry
  | .replace t o i _ => some (.start (ctxTid t pad) o i)
  | .complete t o i _ => some (.complete (ctxTid t pad) o i)
  | .remove m _ _ => some (.removed m)
  | .clean _ _ => some (.clean sb.tid)
  | .flip _ _ _ _ => none

/-- After the proposal: 351 (`replace`), 449, 605, 779. -/
def afterPropose : Call → Pc
  | .replace _ _ _ _ => .addLead
  | _ => .reset .ok

/-- `if (eff) …` -/
def ifEff (a : Ans) (e : Eff) : Eff := if a.eff then e else .none

/-- A step of a call on node `me` with configuration `ms` and recorded task `sb`.  `none`: not possible. -/
def advance (me : RId) (ms : List Srv) (sb : TaskSb) (r : Run) (a : Ans) : Option (Pc × Eff) :=
  match r.pc with
  | .entry =>
    if a.stop then some (.done (.err .stopping) 210, .none)       -- 208-211, 377-380, 564-567, 667-670, 738-741
    else match r.call with
      | .replace _ out _ _ =>
        if a.unready then some (.done (.err .unready) 214, .none)            -- 212-215
        else if me = out then some (.done (.err .notLeader) 233, .none)      -- 224-234
        else some (beforeSetQ a.lead r.call, .none)
      | .complete _ _ _ _ =>
        if a.unready then some (.done (.err .unready) 383, .none)            -- 381-384
        else some (beforeSetQ a.lead r.call, .none)
      | .remove _ _ _ => some (beforeSetQ a.lead r.call, .none)
      | .flip _ _ _ _ => some (beforeSetQ a.lead r.call, .none)
      | .clean t _ =>
        if !a.lead then some (.done (.err .notLeader) 745, .none)            -- 743-746
        else if sb.id = [] then some (.done .ok 750, .none)                  -- 747-751
        else if sb.id ≠ t then some (.done (.err .mismatch) 755, .none)      -- 752-756
        else some (beforeSetQ a.lead r.call, .none)
  | .setQ l => some (afterSetQ l r.call, .quorum r.call.quorum)
  | .lead l =>
    match r.call with
    | .replace _ _ _ _ => some (if l then .task else .done (.err .notLeader) 246, .none)
    | _ => none
  | .task =>
    match r.call with
    | .replace t _ _ _ => some (if sb.id ≠ [] ∧ sb.id ≠ t then .reset (.err .mismatch) else .cfg, .none)
    | _ => none
  | .cfg =>
    match r.call with
    | .replace _ out inn _ =>
      match getSrv ms out with
      | some v => some (.safe, .prio v.prio)
      | none => some (if (getSrv ms inn).isSome then .done .ok 267 else .reset (.err .notFound), .none)
    | _ => none
  | .safe =>
    match r.call with
    | .replace _ out inn q => some (if unsafeNow ms a.active out inn q then .reset (.err .quorumNotMet) else .flipLead, .none)
    | _ => none
  | .flipLead => some (if a.lead then .flipGet else .reset (.err .notLeader), .none)
  | .flipGet =>
    match flipArgs r.call with
    | some (m, f) =>
      match getSrv ms m with
      | none => some (.reset (.err .notFound), .none)
      | some v =>
        some (if v.learner ≠ f then .flipCmd else if flipChecks r.call then .flipVerify else afterFlip r.call, .none)
    | none => none
  | .flipCmd =>
    match flipArgs r.call with
    | some (m, f) =>
      some (if a.code = 0 then (if flipChecks r.call then .flipVerify else afterFlip r.call) else .reset (.err .retry),
        ifEff a (.append (.learn m f)))
    | none => none
  | .flipVerify =>
    match flipArgs r.call with
    | some (m, _) =>
      match getSrv ms m with
      | none => some (.fault, .none)
      | some v => if a.yes then (if v.learner then some (afterFlip r.call, .none) else none) else some (.reset (.err .retry), .none)
    | none => none
  | .init => some (if a.yes then .propose else .reset (.err .retry), .none)
  | .propose =>
    match proposal sb a.pad r.call with
    | some e => if a.yes then some (afterPropose r.call, ifEff a (.append e)) else some (.reset (.err .raft), .none)
    | none => none
  | .addLead => some (if a.lead then .addCmd else .reset (.err .badRequest), .none)
  | .addCmd =>
    match r.call with
    | .replace _ _ inn _ =>
      some (.reset (if a.code = 0 ∨ a.code = 1 then .ok else if a.code = 2 then .err .cancelled else .err .retry),
        ifEff a (.submit (.add ⟨inn, false, r.prio⟩)))
    | _ => none
  | .remLead =>
    match remArg r.call with
    | some m => some (if me = m ∧ a.lead then .reset (.err .notLeader) else .remCmd, .none)
    | none => none
  | .remCmd =>
    match remArg r.call with
    | some m =>
      some (if a.code = 0 ∨ a.code = 1 then (if remChecks r.call then .remVerify else afterRem r.call) else .reset (.err .retry),
        ifEff a (.submit (.rem m)))
    | none => none
  | .remVerify =>
    match remArg r.call with
    | some m =>
      if a.yes then (if (getSrv ms m).isNone then some (afterRem r.call, .none) else none) else some (.reset (.err .retry), .none)
    | none => none
  | .reset o => some (.done o 0, .quorum 0)
  | .done _ _ => none
  | .fault => none
  | .lost => none

/-- A node.  `applied`: how many entries of the log it has applied since it was started; `high`: how many ever; `snap`: how many were taken over with
a snapshot (`last_snapshot_lsn`); `sb`: the task in the superblock; `quorum`: NuRaft's `custom_commit_quorum_size_` and
`custom_election_quorum_size_` (0: majority). -/
structure Node where
  applied : Nat
  high : Nat
  snap : Nat
  sb : TaskSb
  quorum : Nat
  deriving DecidableEq, Repr

/-- The group.  `pend`: changes of the configuration the leader has accepted but not appended yet. -/
structure St where
  init : List Srv
  log : List Entry
  committed : Nat
  leader : Option RId
  pend : List Entry
  nodes : RId → Node
  runs : Nat → Option Run

/-- A group that has just been formed. -/
def St.start (ms : List Srv) : St :=
  ⟨ms, [], 0, none, [], fun _ => ⟨0, 0, 0, .empty, 0⟩, fun _ => none⟩

/-- The configuration of a node. -/
def St.conf (s : St) (n : RId) : List Srv := members s.init (s.log.take (s.nodes n).high)

def Entry.isConf : Entry → Bool
  | .add _ | .rem _ | .learn _ _ => true
  | _ => false

/-- Does the leader append this entry?  NuRaft: a change of the configuration only if none is under way, and if it makes sense. -/
def St.accepts (s : St) (e : Entry) : Bool :=
  let ms := members s.init s.log
  let free := !(s.log.drop s.committed).any Entry.isConf
  match e with
  | .add v => free && (getSrv ms v.id).isNone
  | .rem id => free && (getSrv ms id).isSome && s.leader ≠ some id
  | .learn id _ => free && (getSrv ms id).isSome
  | _ => true

/-- What may happen. -/
inductive Act where
  /-- call `c` is made on node `n` -/
  | call (c : Nat) (n : RId) (k : Call)
  /-- the reaper thread of node `n` looks after the replacement; the peers are at `lsn`, `laggy`: `laggy_threshold`;
  `lead`: does the node take itself for the leader? -/
  | reap (c : Nat) (n : RId) (lead : Bool) (lsn : RId → Nat) (laggy : Nat)
  /-- a step of call `c` -/
  | step (c : Nat) (a : Ans)
  /-- the leader appends an accepted change of the configuration -/
  | append (i : Nat)
  /-- the next entry is committed -/
  | commit
  /-- node `n` applies its next entry -/
  | apply (n : RId)
  /-- `l` is elected; of the log, `k` entries are kept -/
  | elect (l : RId) (k : Nat)
  /-- the leader is no more -/
  | resign
  /-- node `n` is stopped or crashes, and is started again; it will apply the log from `k` on again -/
  | restart (n : RId) (k : Nat)
  /-- node `n` gets a snapshot that stands for the first `k` entries -/
  | snapshot (n : RId) (k : Nat)

def upd {β : Type} (f : Nat → β) (i : Nat) (x : β) : Nat → β := fun j => if j = i then x else f j

/-- The effect of a step of a call on node `n`.  `none`: not possible. -/
def St.effect (s : St) (n : RId) : Eff → Option St
  | .none => some s
  | .prio _ => some s
  | .quorum q => some { s with nodes := upd s.nodes n { s.nodes n with quorum := q } }
  | .append e => if s.leader = some n ∧ s.accepts e then some { s with log := s.log ++ [e] } else none
  | .submit e => if s.leader = some n then some { s with pend := s.pend ++ [e] } else none

/-- The run after a step. -/
def Run.after (r : Run) (pc : Pc) : Eff → Run
  | .prio p => { r with pc := pc, prio := p }
  | _ => { r with pc := pc }

/-- `raft_repl_dev.cpp` 2496-2544 `monitor_replace_member_replication_status`: is the replacement to be completed? -/
def St.due (s : St) (n : RId) (lead : Bool) (lsn : RId → Nat) (laggy : Nat) : Bool :=
  let sb := (s.nodes n).sb
  let ms := s.conf n
  let inLsn := lsn sb.rin
  let outLsn := if ms.any fun v => v.id = sb.rout then lsn sb.rout else 0
  lead && sb.rin ≠ 0 && sb.rout ≠ 0 && (ms.any fun v => v.id ≠ sb.rout && v.id = sb.rin) && inLsn + laggy ≥ outLsn

/-- One step.  `none`: not possible. -/
def step (s : St) : Act → Option St
  | .call c n k =>
    if s.runs c = none ∧ k.offered then
      some { s with runs := upd s.runs c (some ⟨n, k, .entry, 0, (s.nodes n).high⟩) }
    else none
  -- `raft_repl_dev.cpp` 2551-2553
  | .reap c n lead lsn laggy =>
    let sb := (s.nodes n).sb
    if s.runs c = none ∧ s.due n lead lsn laggy then
      some { s with runs := upd s.runs c (some ⟨n, .complete sb.id sb.rout sb.rin 0, .entry, 0, (s.nodes n).high⟩) }
    else none
  | .step c a =>
    match s.runs c with
    | none => none
    | some r =>
      match advance r.node (s.conf r.node) (s.nodes r.node).sb r a with
      | none => none
      | some (pc, e) =>
        match s.effect r.node e with
        | none => none
        | some s' => some { s' with runs := upd s'.runs c (some (r.after pc e)) }
  | .append i =>
    match s.pend[i]? with
    | none => none
    | some e =>
      if s.leader ≠ none ∧ s.accepts e then some { s with log := s.log ++ [e], pend := s.pend.eraseIdx i } else none
  | .commit => if s.committed < s.log.length then some { s with committed := s.committed + 1 } else none
  -- `raft_state_machine.cpp` 204-223 `commit_ext`; `raft_repl_dev.cpp` 1704-1755 `handle_commit`
  | .apply n =>
    let v := s.nodes n
    if v.applied < s.committed then
      match s.log[v.applied]? with
      | none => none
      | some e =>
        some { s with nodes := upd s.nodes n { v with
          applied := v.applied + 1
          high := max v.high (v.applied + 1)
          sb := if v.applied < v.snap then v.sb else commitSb v.sb e } }
    else none
  | .elect l k =>
    if s.committed ≤ k ∧ k ≤ s.log.length then some { s with leader := some l, log := s.log.take k, pend := [] } else none
  | .resign => some { s with leader := none, pend := [] }
  | .restart n k =>
    if k ≤ (s.nodes n).applied then
      some { s with
        nodes := upd s.nodes n { s.nodes n with applied := k, quorum := 0 }
        runs := fun c => (s.runs c).map fun r =>
          if r.node = n then (match r.pc with | .done _ _ => r | _ => { r with pc := .lost }) else r }
    else none
  -- `raft_repl_dev.cpp` 2800-2845 (the recorded task is not part of what is sent), `raft_state_machine.cpp` 428-440
  | .snapshot n k =>
    let v := s.nodes n
    if v.applied < k ∧ k ≤ s.committed then
      some { s with nodes := upd s.nodes n { v with applied := k, high := max v.high k, snap := k } }
    else none

/-- A run of the group. -/
def run (s : St) : List Act → Option St
  | [] => some s
  | a :: l => (step s a).bind fun s' => run s' l

end HS.Member
