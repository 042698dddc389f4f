import Verif.Log.Dev

/-!
# The Raft log store (`HomeRaftLogStore`)

Models `/repo/src/lib/replication/log_store/home_raft_log_store.{h,cpp}`: the `nuraft::log_store` that HomeStore gives to
NuRaft, on top of the log device model of `Verif.Log.Dev` (`HomeLogStore`, `LogDev`).  The store has a log device of its
own (`create_new_logdev`, line 97) and is the only store on it.

Raft indices start at 1, record numbers of the log store at 0: index = number + 1 (`to_repl_lsn`, `to_store_lsn`).

Simplifications:
* An entry is a term, a type and a payload.  `log_entry::serialize` is NuRaft's; `to_nuraft_log_entry` (.h:241-252) is
  taken as its inverse.
* Calls are one at a time: NuRaft calls the log store under its lock.
* `m_records` is a `sisl::StreamTracker` (a dependency, not in the repository).  `active_upto(i)` / `completed_upto(i)`
  give the last record of the gapless run of issued / completed records that starts at `i`, but not before the first
  record that is not truncated.  `foreach_all_completed(i, cb)` calls `cb` on the completed records from `i` on, in order,
  until it returns false.
* Indices are natural numbers without the 64-bit bound, except in `log_entries_ext`, where the code tests for overflow.
-/

namespace HS.RaftLog

open HS.Log

/-- `nuraft::log_entry`. -/
structure Entry where
  term : Nat
  typ : Nat
  data : List UInt8
  deriving DecidableEq, Repr

/-- `m_dummy_log_entry`, home_raft_log_store.cpp:92: term 0, empty buffer, `app_log` (1). -/
def dummy : Entry := ⟨0, 1, []⟩

/-- `HomeRaftLogStore`: the log store `id` on the device `dev`, `m_last_durable_lsn` (.h:239) and `m_log_entry_cache`
(.h:236): 100 slots `(index, entry pointer)`. -/
structure RS where
  dev : Dev Entry
  id : Nat
  durable : Int
  cache : Nat → Nat × Option Entry

/-- The empty cache, home_raft_log_store.cpp:91. -/
def noCache : Nat → Nat × Option Entry := fun _ => (0, none)

/-- The constructor for a new store, home_raft_log_store.cpp:96-101: a new log device with one store. -/
def RS.create (id : Nat) : Except LFault RS :=
  match (Dev.format : Dev Entry).create id with
  | .error x => .error x
  | .ok c => .ok ⟨c, id, -1, noCache⟩

/-- A crash with the first `k` pending records on the device, and the constructor for an existing store,
home_raft_log_store.cpp:102-113. -/
def RS.restart (r : RS) (k : Nat) : Except LFault RS :=
  match r.dev.restart [r.id] [] k with
  | .error x => .error x
  | .ok (c, _) => .ok ⟨c, r.id, -1, noCache⟩

/-- The end of the run of records with `p` from `l` on, in at most `n` steps. -/
def runEnd (p : SRec → Bool) (recs : Int → Option SRec) : Nat → Int → Int
  | 0, l => l - 1
  | n + 1, l =>
    match recs l with
    | none => l - 1
    | some r => if p r then runEnd p recs n (l + 1) else l - 1

/-- `StreamTracker::active_upto`/`completed_upto` from `l` on.  No record of a store used in append mode lies at or
beyond `next` (`StoreOK.recs_hi`). -/
def upto (p : SRec → Bool) (s : Store) (l : Int) : Int :=
  runEnd p s.recs (s.next - max l s.start).toNat (max l s.start)

/-- `get_contiguous_issued_seq_num(m_last_durable_lsn)`, log_store.cpp:342-344. -/
def issued (s : Store) (durable : Int) : Int := upto (fun _ => true) s (durable + 1)

/-- `get_contiguous_completed_seq_num(m_last_durable_lsn)`, log_store.cpp:346-348. -/
def completed (s : Store) (durable : Int) : Int := upto (fun r => r.done) s (durable + 1)

def RS.store (r : RS) : Except LFault Store :=
  match r.dev.stores r.id with
  | none => .error .ub
  | some s => .ok s

/-- `next_slot`, home_raft_log_store.cpp:122-125. -/
def RS.nextSlot (r : RS) : Except LFault Int := r.store.map fun s => issued s r.durable + 1 + 1

/-- `last_index`, home_raft_log_store.cpp:127-130. -/
def RS.lastIndex (r : RS) : Except LFault Int := r.store.map fun s => completed s r.durable + 1

/-- `start_index`, home_raft_log_store.cpp:132-136; `truncated_upto` is `m_start_lsn - 1` (log_store.hpp:176). -/
def RS.startIndex (r : RS) : Except LFault Int := r.store.map fun s => max 1 (s.start - 1 + 1 + 1)

/-- Reading one entry past the cache: `read_sync` and `to_nuraft_log_entry`.  An exception is `.throw`. -/
def RS.readSync (r : RS) (lsn : Int) : Except LFault (RS × Entry) :=
  match r.dev.read r.id lsn with
  | .error x => .error x
  | .ok (_, none) => .error .throw
  | .ok (c, some e) => .ok ({ r with dev := c }, e)

/-- `last_entry`, home_raft_log_store.cpp:138-162. -/
def RS.lastEntry (r : RS) : Except LFault (RS × Option Entry) :=
  match r.store with
  | .error x => .error x
  | .ok s =>
    let m := issued s r.durable
    if m < 0 then .ok (r, some dummy)
    else
      let lsn := (m + 1).toNat
      if (r.cache (lsn % 100)).1 = lsn then .ok (r, (r.cache (lsn % 100)).2)
      else
        match r.readSync m with
        | .error .throw => .ok (r, some dummy)
        | .error x => .error x
        | .ok (r', e) => .ok (r', some e)

/-- Put `e` into the cache slot of index `i`. -/
def putCache (c : Nat → Nat × Option Entry) (i : Nat) (e : Entry) : Nat → Nat × Option Entry :=
  fun p => if p = i % 100 then (i, some e) else c p

/-- `append`, home_raft_log_store.cpp:164-179. -/
def RS.append (r : RS) (e : Entry) : Except LFault (RS × Int) :=
  match r.dev.append r.id e with
  | .error x => .error x
  | .ok (c, seq) => .ok ({ r with dev := c, cache := putCache r.cache (seq + 1).toNat e }, seq + 1)

/-- `end_of_append_batch`, home_raft_log_store.cpp:211-216. -/
def RS.endBatch (r : RS) (start cnt : Nat) : Except LFault RS :=
  match r.dev.flush with
  | .error x => .error x
  | .ok c => .ok { r with dev := c, durable := (start : Int) + cnt - 1 - 1 }

/-- `write_at` up to the append and the cache update, home_raft_log_store.cpp:181-206.  The result of `rollback` is not
looked at (184).  A number other than the expected one is a failed release assertion (193). -/
def RS.writeAtBuffer (r : RS) (index : Nat) (e : Entry) : Except LFault RS :=
  match r.dev.rollback r.id ((index : Int) - 1 - 1) with
  | .error x => .error x
  | .ok (c, _) =>
    match c.append r.id e with
    | .error x => .error x
    | .ok (c2, seq) =>
      if seq + 1 ≠ (index : Int) then .error .abort
      else
        let cache := putCache r.cache index e
        .ok { r with dev := c2, durable := -1, cache := fun p => if index < (cache p).1 then (0, none) else cache p }

/-- `write_at`, home_raft_log_store.cpp:181-209. -/
def RS.writeAt (r : RS) (index : Nat) (e : Entry) : Except LFault RS :=
  match r.writeAtBuffer index e with
  | .error x => .error x
  | .ok r1 => r1.endBatch index 1

/-- `HomeLogStore::foreach`, log_store.cpp:331-340, from record `l` on over `n` numbers. -/
def visit {σ : Type} (c : Dev Entry) (recs : Int → Option SRec) (cb : σ → Int → Entry → σ × Bool) :
    Nat → Int → σ → Except LFault σ
  | 0, _, a => .ok a
  | n + 1, l, a =>
    match recs l with
    | none => visit c recs cb n (l + 1) a
    | some r =>
      if r.done then
        match c.readKey r.dev with
        | .error x => .error x
        | .ok e => if (cb a l e).2 then visit c recs cb n (l + 1) (cb a l e).1 else .ok (cb a l e).1
      else visit c recs cb n (l + 1) a

def RS.foreach {σ : Type} (r : RS) (start : Int) (cb : σ → Int → Entry → σ × Bool) (a : σ) : Except LFault σ :=
  match r.store with
  | .error x => .error x
  | .ok s => visit r.dev s.recs cb (s.next - max start s.start).toNat (max start s.start) a

/-- The callback of `log_entries`, home_raft_log_store.cpp:220-227. -/
def logCb (end_ : Nat) (out : List Entry) (cur : Int) (e : Entry) : List Entry × Bool :=
  (if cur < (end_ : Int) - 1 then out ++ [e] else out, decide (cur < (end_ : Int) - 1 - 1))

/-- `log_entries`, home_raft_log_store.cpp:218-230. -/
def RS.logEntries (r : RS) (start end_ : Nat) : Except LFault (List Entry) :=
  r.foreach ((start : Int) - 1) (logCb end_) []

/-- The new end of `log_entries_ext`, home_raft_log_store.cpp:235-249, in 64-bit arithmetic. -/
def hintEnd (start end_ : Nat) (hint : Int) : Nat :=
  if hint < 0 then start
  else if 0 < hint then
    (if (start + hint.toNat) % 2 ^ 64 < start then end_ else min ((start + hint.toNat) % 2 ^ 64) end_)
  else end_

/-- `log_entries_ext`, home_raft_log_store.cpp:232-255.  The batch size hint is taken as a number of entries. -/
def RS.logEntriesExt (r : RS) (start end_ : Nat) (hint : Int) : Except LFault (List Entry) :=
  r.logEntries start (hintEnd start end_ hint)

/-- `entry_at`, home_raft_log_store.cpp:257-274. -/
def RS.entryAt (r : RS) (index : Nat) : Except LFault (RS × Option Entry) :=
  if (r.cache (index % 100)).1 = index then .ok (r, (r.cache (index % 100)).2)
  else (r.readSync ((index : Int) - 1)).map fun p => (p.1, some p.2)

/-- `term_at`, home_raft_log_store.cpp:276-293.  A null pointer in the cache is dereferenced. -/
def RS.termAt (r : RS) (index : Nat) : Except LFault (RS × Nat) :=
  if (r.cache (index % 100)).1 = index then
    match (r.cache (index % 100)).2 with
    | none => .error .ub
    | some e => .ok (r, e.term)
  else (r.readSync ((index : Int) - 1)).map fun p => (p.1, p.2.term)

/-- A packed buffer: the count that is written in front and the records that follow.  What lies behind them is not
initialised. -/
structure Pack where
  cnt : Nat
  recs : List Entry
  deriving DecidableEq, Repr

/-- The callback of `pack`, home_raft_log_store.cpp:311-325: the records so far and `remain_cnt`. -/
def packCb (a : List Entry × Int) (_ : Int) (e : Entry) : (List Entry × Int) × Bool :=
  ((if 0 < a.2 then a.1 ++ [e] else a.1, a.2 - 1), decide (0 < a.2 - 1))

/-- `pack`, home_raft_log_store.cpp:295-327. -/
def RS.pack (r : RS) (index cnt : Nat) : Except LFault Pack :=
  (r.foreach ((index : Int) - 1) packCb ([], (cnt : Int))).map fun p => ⟨cnt, p.1⟩

/-- The loop of `apply_pack`, home_raft_log_store.cpp:349-357.  Reading more records than were packed reads bytes that
were never written. -/
def RS.applyRecs : Nat → List Entry → RS → Except LFault RS
  | 0, _, r => .ok r
  | _ + 1, [], _ => .error .ub
  | n + 1, e :: es, r =>
    match r.append e with
    | .error x => .error x
    | .ok (r', _) => RS.applyRecs n es r'

/-- The loop that is to fill up with dummy entries, home_raft_log_store.cpp:344-346: `while (index++ < slot)`. -/
def RS.fill : Nat → Int → Int → RS → Except LFault RS
  | 0, _, _, _ => .error .hang
  | n + 1, index, slot, r =>
    if index < slot then
      match r.append dummy with
      | .error x => .error x
      | .ok (r', _) => RS.fill n (index + 1) slot r'
    else .ok r

/-- `apply_pack`, home_raft_log_store.cpp:329-359. -/
def RS.applyPack (r : RS) (index : Nat) (p : Pack) : Except LFault RS :=
  match r.nextSlot with
  | .error x => .error x
  | .ok slot =>
    let r1 : Except LFault RS :=
      if (index : Int) < slot then
        match r.dev.rollback r.id ((index : Int) - 1 - 1) with
        | .error x => .error x
        | .ok (c, _) => .ok { r with dev := c }
      else if slot < (index : Int) then RS.fill 1 index slot r
      else .ok r
    match r1 with
    | .error x => .error x
    | .ok r1 =>
      match RS.applyRecs p.cnt p.recs r1 with
      | .error x => .error x
      | .ok r2 => r2.endBatch slot.toNat p.cnt

/-- `compact`, home_raft_log_store.cpp:361-374. -/
def RS.compact (r : RS) (index : Nat) : Except LFault RS :=
  match r.dev.truncate r.id ((index : Int) - 1) false with
  | .error x => .error x
  | .ok (c, _) => .ok { r with dev := c }

/-- `flush`, home_raft_log_store.cpp:376-379. -/
def RS.flush (r : RS) : Except LFault RS :=
  match r.dev.flush with
  | .error x => .error x
  | .ok c => .ok { r with dev := c }

/-- `last_durable_index`, home_raft_log_store.cpp:381-384. -/
def RS.lastDurable (r : RS) : Except LFault (RS × Int) :=
  r.store.map fun s => ({ r with durable := completed s r.durable }, completed s r.durable + 1)

/-- `purge_all_logs`, home_raft_log_store.cpp:386-391. -/
def RS.purge (r : RS) : Except LFault RS :=
  match r.store with
  | .error x => .error x
  | .ok s =>
    match r.dev.truncate r.id (issued s r.durable) false with
    | .error x => .error x
    | .ok (c, _) => .ok { r with dev := c }

/-- `set_last_durable_lsn`, home_raft_log_store.cpp:395. -/
def RS.setDurable (r : RS) (index : Nat) : RS := { r with durable := (index : Int) - 1 }

/-- `ReplLogStore::compact`, repl_log_store.cpp:117-125, with the truncation limit of the replication device. -/
def RS.compactLimited (r : RS) (index limit : Nat) : Except LFault RS := r.compact (min index limit)


end HS.RaftLog
