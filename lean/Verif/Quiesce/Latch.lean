/-!
# Handling "no space left": `on_no_space_left`, `quiesce_reqs`, `clear_chunk_req`, `resume_accepting_reqs`

One member of a replicated device: its map of requests by key (`m_repl_key_req_map`), its raft log, the batch of entries
it is taking from the leader, and the requests it has begun to propose itself.  A follower that finds no space for an entry
tells the application (`on_no_space_left`), which is to stop new requests, wait for the entries before it to be committed,
clear the requests that have blocks on the full chunk, make space and resume.  Between preparing an entry
(`raft_event`) and writing it to the log (`append`, `write_at`) these steps may come in; if the log then finds no request for
the entry, it creates one, and if that fails the process aborts.

Simplified: a key says whether its request has data (`linked`); where the allocator puts data, or that it has no space, is
chosen by the event (`Got`); blocks are known by their chunk; `quiesce_reqs` is one step (its accesses: `Gate`); the wait
for data is either over when an entry is written or ends the batch (`giveUp`); requests are not collected as garbage;
entries that are not the application's are left out.
-/
namespace HS.Quiesce.Latch

/-- `repl_key` (repl_dev.h:79-97) with whether the request has data of its own (`HS_DATA_LINKED`, `value_size > 0`;
raft_state_machine.cpp:81). -/
structure Key where
  server : Nat
  dsn : Nat
  linked : Bool
  deriving DecidableEq, Repr

/-- `repl_req_ctx` (repl_dev.h:145-290): `m_local_blkids` with `BLK_ALLOCATED`, by chunk; `m_is_jentry_localize_pending`.
A new one has neither (repl_dev.h:276). -/
structure Req where
  blk : Option Nat := none
  pending : Bool := false
  deriving DecidableEq, Repr

/-- What `alloc_local_blks` answers (common.cpp:135-169): blocks on a chunk, no space, or an error from the application's
`get_blk_alloc_hints`. -/
inductive Got where
  | chunk (c : Nat)
  | noSpace
  | err
  deriving DecidableEq, Repr

/-- The batch the follower is taking: entry `i` has lsn `start + i`; `lc` is the last committed lsn when it came
(raft_repl_dev.cpp:2414); `n` entries are prepared, `w` written or found in the log. -/
structure Batch where
  start : Nat
  es : List Key
  lc : Nat
  n : Nat
  w : Nat
  deriving DecidableEq, Repr

/-- A request this member proposes itself. `fresh`: initialized, not yet in the map (raft_repl_dev.cpp:1020-1036);
`mapped`: in the map (1038); `control`: never put in the map (324-349, 422-447, 590-597, 859-880, 950-996). -/
inductive Stage where
  | fresh (q : Req)
  | mapped
  | control
  deriving DecidableEq, Repr

structure St where
  me : Nat
  quiet : Bool                    -- `m_in_quience`
  latch : Option Nat              -- `m_latch_lsn`; none is INT64_MAX
  map : Key → Option Req          -- `m_repl_key_req_map`
  log : List Key                  -- entry `i` has lsn `i + 1`
  committed : Nat                 -- `m_commit_upto_lsn`
  batch : Option Batch
  begun : List (Key × Stage)
  freed : Key → Bool              -- the blocks that the log names for the key were freed by `clear_chunk_req`

def St.init (me : Nat) : St :=
  { me, quiet := false, latch := none, map := fun _ => none, log := [], committed := 0, batch := none, begun := [],
    freed := fun _ => false }

def upd {β : Type} (f : Key → β) (k : Key) (x : β) : Key → β := fun k' => if k' = k then x else f k'

/-- `repl_req_ctx::init` (common.cpp:13-58): the request afterwards, and the error if any. -/
def Req.init (q : Req) (me : Nat) (k : Key) (g : Got) : Req × Option Got :=
  let q1 : Req := { q with pending := decide (k.server ≠ me) && k.linked }
  if k.linked && q.blk.isNone then
    match g with
    | .chunk c => ({ q1 with blk := some c }, none)
    | .noSpace => (q1, some .noSpace)
    | .err => (q1, some .err)
  else (q1, none)

/-- The request of a key in the map, or a new one (`try_emplace`, raft_repl_dev.cpp:1246-1248). -/
def St.old (s : St) (k : Key) : Req := (s.map k).getD {}

/-- `applier_create_req` (raft_repl_dev.cpp:1241-1288), with `init_req_ctx` (2935-2951).  The lsn is none on the data channel;
on the raft channel with no space on another member's request, the latch is set and the application told (1272-1275). -/
def St.create (s : St) (k : Key) (lsn : Option Nat) (g : Got) : St × Bool :=
  if (s.old k).blk.isSome then (s, true)
  else if s.quiet then ({ s with map := upd s.map k (some (s.old k)) }, false)
  else
      let r := (s.old k).init s.me k g
      let s1 : St := { s with map := upd s.map k (some r.1) }
      match r.2 with
      | none => ({ s1 with freed := upd s1.freed k (s1.freed k && decide (k ∈ s1.log)) }, true)
      | some .noSpace => if lsn.isSome ∧ k.server ≠ s.me then ({ s1 with latch := lsn }, false) else (s1, false)
      | some _ => (s1, false)

/-- `localize_journal_entry_prepare` (raft_state_machine.cpp:56-136): the request, if any, is no longer pending
(`change_raft_journal_buf`, common.cpp:132). -/
def St.prepare (s : St) (k : Key) (lsn : Nat) (g : Got) : St × Bool :=
  let r := s.create k (some lsn) g
  if r.2 then
    ({ r.1 with map := upd r.1.map k (match r.1.map k with | some q => some { q with pending := false } | none => none) }, true)
  else r

/-- `localize_journal_entry_finish` (raft_state_machine.cpp:138-192), called by `append` and `write_at`
(repl_log_store.cpp:18, 34). None: the process aborts (172-177). -/
def St.finish (s : St) (k : Key) (g : Got) : Option St :=
  if (s.map k).any (fun q => !q.pending) then some s
  else
    let r := s.prepare k 0 g
    if r.2 then some r.1 else none

inductive Out where
  | ok (s : St)
  | abort
  | no              -- cannot happen in this state

inductive Ev where
  | push (k : Key) (g : Got)            -- data from its originator (`on_push_data_received`, 1127-1180)
  | batch (start : Nat) (es : List Key) -- entries from the leader (`raft_event`, 2362-2414)
  | prep (g : Got)                      -- the next entry is prepared (2416-2447)
  | giveUp (ks : List Key)              -- the batch ends: data did not come (2451-2457, 1777-1829), or raft does not take it
  | have_                               -- the next entry is in the log already: raft goes on to the next
  | write (g : Got)                     -- the next entry is written to the log (repl_log_store.cpp:9-41)
  | done                                -- all are written
  | rollback (n : Nat)                  -- raft removes the entries after `n` (`handle_rollback`, 1682-1701)
  | configRollback                      -- `handle_config_rollback` (1768-1775)
  | commit                              -- the next entry is committed (`handle_commit`, 1703-1753)
  | becomeLeader                        -- `become_leader` (1991-1997)
  | begin (k : Key) (g : Got)           -- `async_alloc_write` initializes a request (1020-1033)
  | emplace (k : Key)                   -- and puts it in the map (1038)
  | control (k : Key)                   -- a control request is initialized (324-336, 422-434, 859-871, 965-980)
  | direct (k : Key)                    -- the same without asking whether requests are refused (590-594, 765-769)
  | append (k : Key) (g : Got)          -- raft appends a request of ours to the log (`propose_to_raft`; repl_log_store.cpp:9-26)
  | quiesce                             -- `quiesce_reqs` (2874-2889)
  | clear (c : Nat)                     -- `clear_chunk_req` (2899-2933)
  | resume                              -- `resume_accepting_reqs` (2893-2897)
  deriving DecidableEq, Repr

/-- Erase keys from the map. -/
def eraseAll (m : Key → Option Req) (ks : List Key) : Key → Option Req := fun k => if k ∈ ks then none else m k

def St.setStage (s : St) (k : Key) (g : Stage) : St := { s with begun := s.begun.map fun p => if p.1 = k then (k, g) else p }

def step (s : St) : Ev → Out
  | .push k g => if k.linked then .ok (s.create k none g).1 else .no
  | .batch start es =>
    if s.batch.isSome ∨ es = [] ∨ start = 0 then .no
    else
      -- 2391: the whole batch is refused
      match s.latch with
      | some l => if start + es.length - 1 ≥ l then .ok s else .ok { s with batch := some ⟨start, es, s.committed, 0, 0⟩ }
      | none => .ok { s with batch := some ⟨start, es, s.committed, 0, 0⟩ }
  | .prep g =>
    match s.batch with
    | none => .no
    | some b =>
      match b.es[b.n]? with
      | none => .no
      | some k =>
        if b.start + b.n ≤ b.lc then .ok { s with batch := some { b with n := b.n + 1 } }        -- 2424-2428
        else
          let r := s.prepare k (b.start + b.n) g
          if r.2 then .ok { r.1 with batch := some { b with n := b.n + 1 } } else .ok { r.1 with batch := none }
  | .giveUp ks =>
    match s.batch with
    | none => .no
    | some b =>
      if (∀ k ∈ ks, k ∈ b.es.take b.n ∧ k ∉ s.log) then .ok { s with batch := none, map := eraseAll s.map ks } else .no
  | .have_ =>
    match s.batch with
    | none => .no
    | some b =>
      if b.n = b.es.length ∧ b.w < b.es.length ∧ s.log[b.start + b.w - 1]? = b.es[b.w]? then
        .ok { s with batch := some { b with w := b.w + 1 } }
      else .no
  | .write g =>
    match s.batch with
    | none => .no
    | some b =>
      match b.es[b.w]? with
      | none => .no
      | some k =>
        if b.n = b.es.length ∧ b.start + b.w = s.log.length + 1 then
          match s.finish k g with
          | none => .abort
          | some s1 => .ok { s1 with log := s1.log ++ [k], batch := some { b with w := b.w + 1 } }
        else .no
  | .done =>
    match s.batch with
    | none => .no
    | some b => if b.w = b.es.length then .ok { s with batch := none } else .no
  | .rollback n =>
    if s.committed ≤ n ∧ n < s.log.length then
      .ok { s with log := s.log.take n, map := eraseAll s.map (s.log.drop n), latch := none }
    else .no
  | .configRollback => .ok { s with latch := none }
  | .commit =>
    match s.log[s.committed]? with
    | none => .no
    | some k => .ok { s with committed := s.committed + 1, map := upd s.map k none }
  | .becomeLeader => .ok { s with latch := none }
  | .begin k g =>
    if k.server ≠ s.me then .no
    else if s.quiet then .ok s
    else
      let r := ({} : Req).init s.me k g
      match r.2 with
      | none => .ok { s with begun := s.begun ++ [(k, .fresh r.1)], freed := upd s.freed k (s.freed k && decide (k ∈ s.log)) }
      | some _ => .ok s
  | .emplace k =>
    match s.begun.find? fun p => p.1 = k with
    | some (_, .fresh q) =>
      let m := match s.map k with | none => upd s.map k (some q) | some _ => s.map
      .ok ({ s with map := m }.setStage k .mapped)
    | _ => .no
  | .control k =>
    if k.server ≠ s.me ∨ k.linked then .no
    else if s.quiet then .ok s else .ok { s with begun := s.begun ++ [(k, .control)] }
  | .direct k => if k.server ≠ s.me ∨ k.linked then .no else .ok { s with begun := s.begun ++ [(k, .control)] }
  | .append k g =>
    if s.batch.isSome then .no
    else
      match s.begun.find? fun p => p.1 = k with
      | none => .no
      | some (_, .fresh _) => .no
      | some (_, _) =>
        match s.finish k g with
        | none => .abort
        | some s1 => .ok { s1 with log := s1.log ++ [k], begun := s1.begun.filter fun p => p.1 ≠ k }
  | .quiesce => .ok { s with quiet := true }
  | .clear c =>
    .ok { s with
      map := fun k => match s.map k with | some q => if q.blk = some c then none else some q | none => none
      freed := fun k => (match s.map k with | some q => decide (q.blk = some c) | none => false) || s.freed k }
  | .resume => .ok { s with quiet := false, latch := none }

def run (s : St) : List Ev → Out
  | [] => .ok s
  | e :: l => match step s e with | .ok s' => run s' l | .abort => .abort | .no => .no

end HS.Quiesce.Latch
