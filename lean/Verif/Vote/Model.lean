/-!
# What raft saves of itself: term, vote and configuration

`load_config`, `save_config`, `save_state`, `read_state` (src/lib/replication/repl_dev/raft_repl_dev.cpp:2148-2290), over the JSON
superblock `m_raft_config_sb` (src/include/homestore/superblk_handler.hpp:134-202), which is read at a start
(service/raft_repl_service.cpp:307-334).

Contracts: a write of the superblock is atomic under crashes (C20); msgpack gives back the JSON it was made of; NuRaft's
`srv_state::serialize` is a parameter (`Codec`).  Raft saves its state before it answers, never with a smaller term or another
vote in the same term; that is raft's rule, not this code's.  Both kinds of save are under `m_config_mtx`, so that each is one step.
Of the JSON the field `group_id`, which nothing changes, is left out.
-/
namespace HS.Vote

/-- `nuraft::srv_state`. -/
structure SrvState where
  term : Nat
  voted : Option Nat
  timer : Bool
  catching : Bool
  receiving : Bool
  deriving DecidableEq, Repr

/-- `srv_state()`. -/
def SrvState.fresh : SrvState := { term := 0, voted := none, timer := true, catching := false, receiving := false }

/-- `nuraft::srv_config`, as far as it is written (2149-2161). -/
structure Server where
  id : Int
  dc : Int
  endpoint : List Nat
  aux : List Nat
  learner : Bool
  priority : Int
  deriving DecidableEq, Repr

/-- `nuraft::cluster_config` (2163-2169). -/
structure Config where
  logIdx : Nat
  prevLogIdx : Nat
  eventual : Bool
  userCtx : List Nat
  servers : List Server
  deriving DecidableEq, Repr

/-- `nlohmann::json`, as far as used; strings are lists of bytes. -/
inductive J where
  | num (n : Int)
  | bool (b : Bool)
  | str (l : List Nat)
  | arr (l : List J)
  | obj (l : List (String × J))

/-- `operator[]` of a constant object; without the field it is undefined, or an assertion fails: `none`. -/
def J.get (j : J) (k : String) : Option J :=
  match j with
  | .obj l => l.lookup k
  | _ => none

/-- Conversions; on another type they throw: `none`. -/
def J.int : J → Option Int
  | .num n => some n
  | _ => none

def J.nat : J → Option Nat
  | .num (.ofNat n) => some n
  | _ => none

def J.boolean : J → Option Bool
  | .bool b => some b
  | _ => none

def J.string : J → Option (List Nat)
  | .str l => some l
  | _ => none

def J.list : J → Option (List J)
  | .arr l => some l
  | _ => none

/-- `serialize_server_config`, of one server (2153-2158). -/
def serServer (s : Server) : J :=
  .obj [("id", .num s.id), ("dc_id", .num s.dc), ("endpoint", .str s.endpoint), ("aux", .str s.aux), ("learner", .bool s.learner),
    ("priority", .num s.priority)]

/-- `serialize_cluster_config` (2163-2169). -/
def serConfig (k : Config) : J :=
  .obj [("log_idx", .num k.logIdx), ("prev_log_idx", .num k.prevLogIdx), ("eventual_consistency", .bool k.eventual),
    ("user_ctx", .str k.userCtx), ("servers", .arr (k.servers.map serServer))]

/-- `deserialize_server_config` (2171-2185). -/
def deServer (j : J) : Option Server := do
  let id ← (← j.get "id").int
  let dc ← (← j.get "dc_id").int
  let endpoint ← (← j.get "endpoint").string
  let aux ← (← j.get "aux").string
  let learner ← (← j.get "learner").boolean
  let priority ← (← j.get "priority").int
  pure { id, dc, endpoint, aux, learner, priority }

/-- `deserialize_server_list` (2187-2192). -/
def deServers : List J → Option (List Server)
  | [] => some []
  | j :: l => do
    let s ← deServer j
    let r ← deServers l
    pure (s :: r)

/-- `deserialize_cluster_config` (2194-2208). -/
def deConfig (j : J) : Option Config := do
  let logIdx ← (← j.get "log_idx").nat
  let prevLogIdx ← (← j.get "prev_log_idx").nat
  let eventual ← (← j.get "eventual_consistency").boolean
  let userCtx ← (← j.get "user_ctx").string
  let servers ← deServers (← (← j.get "servers").list)
  pure { logIdx, prevLogIdx, eventual, userCtx, servers }

/-- The object that older versions wrote; a field that is not there is `none` (2272-2286). -/
structure Legacy where
  term : Option Nat
  voted : Option (Option Nat)
  timer : Option Bool
  catching : Option Bool
  deriving DecidableEq, Repr

/-- The JSON: "config", "state" (`none`: missing, null or an object without fields), "nuraft_state" (missing and null are the empty array, as `empty()` has it). -/
structure Json where
  config : Option J
  state : Option Legacy
  nuraft : List Nat

/-- NuRaft's serialization; `none`: it throws. -/
structure Codec where
  enc : SrvState → List Nat
  dec : List Nat → Option SrvState

/-- What is required of it. -/
structure Codec.Ok (c : Codec) : Prop where
  back : ∀ s, c.dec (c.enc s) = some s
  some : ∀ s, c.enc s ≠ []

/-- `read_state` (2248-2290); `none`: an exception that is not caught.  The conversion of a missing field throws
`nlohmann::type_error`; only `std::out_of_range` is caught (2283). -/
def readState (c : Codec) (j : Json) : Option SrvState :=
  if j.state = none ∧ j.nuraft = [] then some .fresh
  else if j.nuraft ≠ [] then
    match c.dec j.nuraft with
    | some s => some s
    | none => some .fresh
  else
    match j.state with
    | some ⟨some t, some v, some e, some k⟩ => some { term := t, voted := v, timer := e, catching := k, receiving := false }
    | _ => none

/-- `save_state`, the JSON it writes (2230-2239). -/
def putState (c : Codec) (j : Json) (s : SrvState) : Json := { j with nuraft := c.enc s, state := none }

/-- `save_config` (2223-2226). -/
def putConfig (j : Json) (k : Config) : Json := { j with config := some (serConfig k) }

/-- `load_config` (2210-2221): the JSON in memory gets the configuration with only this member if it has none. -/
def loadConfig (own : Config) (j : Json) : Json × Option Config :=
  match j.config with
  | some v => (j, deConfig v)
  | none => ({ j with config := some (serConfig own) }, deConfig (serConfig own))

/-- A running member. -/
structure Mem where
  js : Json
  st : SrvState
  cfg : Config

structure St where
  disk : Json
  mem : Option Mem
  votes : List (Nat × Nat)     -- answers given: term and candidate

inductive Op where
  | start
  | crash
  | save (s : SrvState) (vote : Option Nat)         -- raft saves its state, and answers with a vote
  | saveCrash (s : SrvState) (written : Bool)       -- the machine fails in the save, before or after the block is written
  | config (k : Config)
  | configCrash (k : Config) (written : Bool)
  deriving DecidableEq, Repr

/-- Raft's rule: terms do not go back, and the vote of a term is not changed. -/
def allowed (old new : SrvState) : Bool :=
  decide (old.term < new.term) || (decide (old.term = new.term) && (old.voted.isNone || decide (new.voted = old.voted)))

inductive Out where
  | ok (s : St)
  | throws       -- an exception that is not caught
  | no

def step (c : Codec) (own : Config) (s : St) : Op → Out
  | .start =>
    match s.mem with
    | some _ => .no
    | none =>
      match (loadConfig own s.disk).2 with
      | none => .throws
      | some cfg =>
        match readState c s.disk with
        | none => .throws
        | some st => .ok { s with mem := some { js := (loadConfig own s.disk).1, st, cfg } }
  | .crash => .ok { s with mem := none }
  | .save st v =>
    match s.mem with
    | none => .no
    | some m =>
      if allowed m.st st = true ∧ (∀ k, v = some k → st.voted = some k) then
        .ok { disk := putState c m.js st, mem := some { m with js := putState c m.js st, st },
              votes := match v with | some k => (st.term, k) :: s.votes | none => s.votes }
      else .no
  | .saveCrash st w =>
    match s.mem with
    | none => .no
    | some m => if allowed m.st st = true then .ok { s with disk := if w then putState c m.js st else s.disk, mem := none } else .no
  | .config k =>
    match s.mem with
    | none => .no
    | some m => .ok { s with disk := putConfig m.js k, mem := some { m with js := putConfig m.js k, cfg := k } }
  | .configCrash k w =>
    match s.mem with
    | none => .no
    | some m => .ok { s with disk := if w then putConfig m.js k else s.disk, mem := none }

def run (c : Codec) (own : Config) (s : St) : List Op → Out
  | [] => .ok s
  | o :: l => match step c own s o with | .ok s' => run c own s' l | .throws => .throws | .no => .no

end HS.Vote
