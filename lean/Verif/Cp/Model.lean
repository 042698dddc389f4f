import Verif.Common
/-!
# Checkpoint manager: interleaving model

Models `CPManager` of /repo/src/lib/checkpoint/cp_mgr.cpp and the `CP` object of
/repo/src/include/homestore/checkpoint/cp.hpp.  Threads are interleaved at the granularity of the shared
accesses that matter: reading `m_cur_cp`, changing `m_enter_cnt`, reading and writing `m_cp_status`, the sections
under `m_trigger_cp_mtx`, the RCU grace period, completion of each consumer's flush, the super block write.

Simplifications: checkpoints are named by their id (the code uses pointers; a deleted checkpoint is the status
`gone`, and touching it sets `ub`); `nfl` stands for `m_last_flushed_cp + 1` (the code starts at -1), so it is the
number of recorded checkpoints and the id of the first checkpoint after a restart; consumers are numbers;
metrics, logging, the watchdog's bookkeeping and the timer threads are left out (the watchdog is in `Watchdog.lean`).
Memory order: every access is sequentially consistent.
-/
namespace HS.Cp

/-- `cp_status_t`, cp.hpp:54-66; `gone` = the object has been deleted (cp_mgr.cpp:311). -/
inductive Status | unknown | ready | trigger | prepare | flushing | done | gone
deriving DecidableEq, Repr

/-- Progress of the code posted by `on_cp_flush_done`, cp_mgr.cpp:299-330, for one checkpoint. -/
inductive Stage
  | before                  -- not started
  | recorded                -- super block written, `cp` deleted (lines 301-311)
  | unlocked (b2b : Bool)   -- lines 315-319 done
  | finished                -- promise set (line 321)
deriving DecidableEq, Repr

/-- Progress of the (only) thread inside the critical section of `do_trigger_cp_flush`. -/
inductive TPC | switching | prepared | xchged
deriving DecidableEq, Repr

/-- Consumers: `cons` = registered consumers other than the sealer, `part c k` = consumer `k` has a context in
checkpoint `c` (cp_mgr.cpp:279), `sealer c` = a sealer is registered and has a context in `c` (line 288). -/
structure Conf where
  cons : List Nat
  part : Nat → Nat → Bool
  sealer : Nat → Bool

def Conf.parts (k : Conf) (c : Nat) : List Nat := k.cons.filter (k.part c)

/-- One checkpoint object (`struct CP`, cp.hpp:86-99), the threads working on it, and bookkeeping. -/
structure CP where
  status : Status                 -- `m_cp_status`
  cnt : Nat                       -- `m_enter_cnt`
  prom : Nat                      -- `m_comp_promise` (promises are numbered)
  -- threads
  readers : Nat                   -- threads that read `m_cur_cp` and have not yet incremented (RCU readers)
  refs : Nat                      -- live guards, the trigger's own guard excluded while it holds the mutex
  zeros : Nat                     -- threads whose decrement gave zero and that have not yet read the status
  starters : Nat                  -- threads that read `cp_flush_prepare` and have not yet entered `cp_start_flush`
  running : List Nat              -- consumers (sealer excluded) whose `cp_flush` future is not yet complete
  sealing : Bool                  -- sealer's `cp_flush` called and not yet complete
  stage : Stage
  -- bookkeeping, read by no transition
  started : Nat                   -- number of times `cp_start_flush` ran
  okBy : Nat → Bool               -- consumer's flush completed reporting success
  endBy : Nat → Bool              -- consumer's flush completed
  sealOk : Bool
  sealEnd : Bool

structure St where
  cp : Nat → CP
  cur : Nat                       -- `m_cur_cp`
  inFlush : Bool                  -- `m_in_flush_phase`
  pending : Bool                  -- `m_pending_trigger_cp`
  pendProm : Nat                  -- `m_pending_trigger_cp_comp`
  shut : Bool                     -- `m_cp_shutdown_initiated`
  nfl : Nat                       -- `m_sb->m_last_flushed_cp + 1` in memory
  disk : Nat                      -- the same on disk
  tpc : Option (Nat × TPC)        -- thread inside `do_trigger_cp_flush`, with its `cur_cp`
  b2b : Nat                       -- back-to-back `trigger_cp_flush(false)` calls about to be made
  -- bookkeeping, read by no transition
  proms : Nat                     -- promises created so far
  doneP : Nat → Bool              -- promise fulfilled with `true`
  calls : List (Nat × Nat)        -- trigger calls: (promise of the returned future, `m_cur_cp` at the call)
  ub : Bool                       -- a deleted checkpoint was touched

inductive Act
  | ioRead                        -- `rcu_read_lock(); get_cur_cp()`, cp_mgr.cpp:160-161
  | ioRef (c : Nat)               -- `cp_ref`, line 168, then `rcu_read_unlock`
  | nest (c : Nat)                -- nested guard or copy of a guard: `cp_ref`, lines 388-390, 406-410
  | exitDec (c : Nat)             -- `m_enter_cnt.decrement_testz(1)`, line 186
  | exitCheck (c : Nat)           -- `m_cp_status == cp_flush_prepare`, line 186
  | startFlush (c : Nat)          -- `cp_start_flush`, lines 272-283
  | trig (force onShut : Bool) (top : Option Nat)  -- `do_trigger_cp_flush`, lines 201-253
  | trigB2b                       -- line 328
  | tPrepare | tXchg | tSync      -- lines 255-256; 257; 258-263
  | consDone (c k : Nat) (ok : Bool)   -- a consumer fulfils its future
  | sealStart (c : Nat)           -- lines 285-289 with a sealer
  | sealDone (c : Nat) (ok : Bool)     -- `.wait()` of line 289 returns, then line 297
  | noSeal (c : Nat)              -- lines 285-291 without a sealer, then line 297
  | record (c : Nat)              -- lines 301-311
  | finLock (c : Nat)             -- lines 315-319
  | finProm (c : Nat)             -- lines 321-328
  | shutInit                      -- line 125
  | crash                         -- crash and restart: `on_meta_blk_found` / `create_first_cp`, lines 105-117
deriving DecidableEq

/-- Point update. -/
def upd {α : Type} (f : Nat → α) (i : Nat) (v : α) : Nat → α := fun x => if x = i then v else f x

/-- `CP::CP`, cp.hpp:102. -/
def CP.new : CP :=
  { status := .unknown, cnt := 0, prom := 0, readers := 0, refs := 0, zeros := 0, starters := 0, running := [],
    sealing := false, stage := .before, started := 0, okBy := fun _ => false, endBy := fun _ => false,
    sealOk := false, sealEnd := false }

/-- `create_first_cp`, cp_mgr.cpp:112-117, when `n` checkpoints have been recorded.  The bookkeeping about
recorded checkpoints (`old`) is kept. -/
def boot (n : Nat) (old : Nat → CP) : St :=
  { cp := fun c => if c < n then { CP.new with status := .gone, stage := .finished, started := 1, okBy := (old c).okBy,
                                               endBy := (old c).endBy, sealOk := (old c).sealOk, sealEnd := (old c).sealEnd }
                   else if c = n then { CP.new with status := .ready } else CP.new,
    cur := n, inFlush := false, pending := false, pendProm := 0, shut := false, nfl := n, disk := n, tpc := none, b2b := 0,
    proms := 1, doneP := fun _ => false, calls := [], ub := false }

def init : St := boot 0 fun _ => CP.new

def St.set (s : St) (c : Nat) (r : CP) : St := { s with cp := upd s.cp c r }

/-- Access to `cp` through a pointer: a deleted object makes the program undefined. -/
def St.touch (s : St) (c : Nat) : St := { s with ub := s.ub || (s.cp c).status == .gone }

/-- Lines 222-254 of `do_trigger_cp_flush`: not in flush phase; `c` is the checkpoint of the trigger's guard. -/
def beginTrig (s : St) (c : Nat) : St :=
  let p := if s.pending then s.pendProm else s.proms
  { s.set c { s.cp c with cnt := (s.cp c).cnt + 1, status := .trigger, prom := p } with
    inFlush := true, tpc := some (c, .switching), pending := false, proms := if s.pending then s.proms else s.proms + 1,
    calls := (p, s.cur) :: s.calls }

/-- `do_trigger_cp_flush`, cp_mgr.cpp:201-253, up to the switch over callbacks.  The mutex must be free.
The guard of line 223 is a new entry into the current checkpoint, or (lines 388-390) another reference to the
checkpoint `top` on the thread's stack. -/
def trigger (s : St) (force onShut : Bool) (top : Option Nat) : Option St :=
  if s.tpc ≠ none then none
  else if s.inFlush then
    if force && (!s.shut || onShut) then
      if s.pending then some { s with calls := (s.pendProm, s.cur) :: s.calls }
      else some { s with pending := true, pendProm := s.proms, proms := s.proms + 1, calls := (s.proms, s.cur) :: s.calls }
    else some s                    -- a future that is already `false`
  else match top with
    | none => some (beginTrig s s.cur)
    | some c => if (s.cp c).refs = 0 then none else some (beginTrig s c)

def step (k : Conf) (s : St) : Act → Option St
  | .ioRead => let r := s.cp s.cur; some (s.set s.cur { r with readers := r.readers + 1 })
  | .ioRef c =>
    let r := s.cp c
    if r.readers = 0 then none else
    some ((s.touch c).set c { r with readers := r.readers - 1, cnt := r.cnt + 1, refs := r.refs + 1 })
  | .nest c =>
    let r := s.cp c
    if r.refs = 0 then none else
    some ((s.touch c).set c { r with cnt := r.cnt + 1, refs := r.refs + 1 })
  | .exitDec c =>
    let r := s.cp c
    if r.refs = 0 then none else
    some ((s.touch c).set c { r with refs := r.refs - 1, cnt := r.cnt - 1,
                                     zeros := if r.cnt = 1 then r.zeros + 1 else r.zeros })
  | .exitCheck c =>
    let r := s.cp c
    if r.zeros = 0 then none else
    some ((s.touch c).set c { r with zeros := r.zeros - 1,
                                     starters := if r.status = .prepare then r.starters + 1 else r.starters })
  | .startFlush c =>
    let r := s.cp c
    if r.starters = 0 then none else
    some ((s.touch c).set c { r with starters := r.starters - 1, status := .flushing,
                                     running := r.running ++ k.parts c, started := r.started + 1 })
  | .trig force onShut top => trigger s force onShut top
  | .trigB2b => if s.b2b = 0 then none else trigger { s with b2b := s.b2b - 1 } false false none
  | .tPrepare => match s.tpc with
    | some (c, .switching) =>
      some { (s.set c { s.cp c with status := .prepare }).set (c + 1) { s.cp (c + 1) with status := .ready } with
             tpc := some (c, .prepared) }
    | _ => none
  | .tXchg => match s.tpc with
    | some (c, .prepared) => some { s with tpc := some (c, .xchged), cur := c + 1 }
    | _ => none
  /- `synchronize_rcu` returns only when every read section that could have seen the old pointer is over;
     then the mutex is released and the guard remains as an ordinary one -/
  | .tSync => match s.tpc with
    | some (c, .xchged) =>
      let r := s.cp c
      if r.readers = 0 then some { s.set c { r with refs := r.refs + 1 } with tpc := none } else none
    | _ => none
  | .consDone c x ok =>
    let r := s.cp c
    if x ∈ r.running then
      some (s.set c { r with running := r.running.erase x, okBy := upd r.okBy x ok, endBy := upd r.endBy x true })
    else none
  | .sealStart c =>
    let r := s.cp c
    if r.status = .flushing ∧ r.running = [] ∧ k.sealer c = true ∧ r.sealing = false then
      some (s.set c { r with sealing := true }) else none
  | .sealDone c ok =>
    let r := s.cp c
    if r.status = .flushing ∧ r.sealing = true then
      some (s.set c { r with sealing := false, sealOk := ok, sealEnd := true, status := .done }) else none
  | .noSeal c =>
    let r := s.cp c
    if r.status = .flushing ∧ r.running = [] ∧ k.sealer c = false then
      some (s.set c { r with status := .done }) else none
  | .record c =>
    let r := s.cp c
    if r.status = .done then
      some { s.set c { r with status := .gone, stage := .recorded } with nfl := s.nfl + 1, disk := s.nfl + 1 }
    else none
  | .finLock c =>
    let r := s.cp c
    if r.stage = .recorded ∧ s.tpc = none then
      some { s.set c { r with stage := .unlocked s.pending } with inFlush := false } else none
  | .finProm c =>
    let r := s.cp c
    match r.stage with
    | .unlocked b => some { s.set c { r with stage := .finished } with
                            doneP := upd s.doneP r.prom true, b2b := if b then s.b2b + 1 else s.b2b }
    | _ => none
  | .shutInit => some { s with shut := true }
  | .crash => some (boot s.disk s.cp)

/-- The schedules for which the theorems hold: at the moment the triggering thread publishes `cp_flush_prepare`
(line 255) no other thread is between its own decrement to zero and its look at the status (line 186). -/
def Quiet (s : St) : Act → Prop
  | .tPrepare => ∀ c m, s.tpc = some (c, m) → (s.cp c).zeros = 0
  | _ => True

/-- Executions whose steps additionally satisfy `ok`. -/
inductive Exec (k : Conf) (ok : St → Act → Prop) : St → List Act → St → Prop
  | nil (s) : Exec k ok s [] s
  | snoc {s as s1 a s2} : Exec k ok s as s1 → ok s1 a → step k s1 a = some s2 → Exec k ok s (as ++ [a]) s2

end HS.Cp
