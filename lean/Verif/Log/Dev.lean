import Verif.Log.Group

/-!
# Log devices and log stores

Sources: `src/lib/logstore/log_store.cpp`, `src/lib/logstore/log_dev.cpp` (append, flush, truncate, rollback, load,
metadata).

The device is a list of groups; the bytes of a group and the recovery of the groups are in `Group` and `Stream`.  A
device offset is named by the index of the first record of the group at that offset.  The in-memory tables
`sisl::StreamTracker` are not part of the code: `create` makes an entry that is not completed, `at` throws on an index
without an entry, `truncate(n)` drops the entries up to `n`, `rollback(n)` those above `n`.

Every operation is atomic here (the code runs flush, truncate, rollback and load under the flush lock).  What threads
can still interleave is split: an append takes its number (`reserve`) and then its place in the log (`write`), and a
flush may have started with only the first `k` pending records (`flushK`).  The metadata superblock is written as a
whole at the end of every operation that changes it.
-/

namespace HS.Log

/-- `logdev_key`, `log_store_internal.hpp` 60-96: an index (`-1`: not valid) and the group. -/
structure Key where
  idx : Int := -1
  grp : Nat := 0
  deriving DecidableEq, Repr

/-- `logstore_record`: `m_dev_key`, `m_trunc_key` and whether it is completed. -/
structure SRec where
  dev : Key := {}
  trunc : Key := {}
  done : Bool := false
  deriving DecidableEq, Repr

/-- `HomeLogStore`: `m_start_lsn`, `m_next_lsn`, `m_tail_lsn`, `m_trunc_ld_key`, `m_records`. -/
structure Store where
  start : Int
  next : Int
  tail : Int
  trunc : Key
  recs : Int → Option SRec

/-- `log_record`: store, sequence number, bytes. -/
structure LRec (D : Type) where
  store : Nat
  seq : Int
  data : D
  deriving DecidableEq, Repr

structure Grp (D : Type) where
  start : Nat
  recs : List (LRec D)
  deriving DecidableEq, Repr

/-- A rollback record: the indices `lo`, …, `hi` of one store. -/
structure Roll where
  store : Nat
  lo : Int
  hi : Int
  deriving DecidableEq, Repr

/-- `LogDev` with its metadata. -/
structure Dev (D : Type) where
  /-- the groups on the device from its start offset on -/
  groups : List (Grp D)
  /-- appended and not yet flushed; the first has the index `flushIdx` -/
  pending : List (LRec D)
  /-- `m_last_flush_idx + 1` -/
  flushIdx : Nat
  /-- `m_last_flush_ld_key` -/
  lastFlush : Key
  /-- `m_last_truncate_idx` -/
  lastTrunc : Int
  /-- `m_id_logstore_map` -/
  stores : Nat → Option Store
  ids : List Nat
  /-- superblock: the first sequence number of every reserved store id -/
  first : Nat → Option Int
  /-- superblock: rollback records -/
  rolls : List Roll
  /-- superblock: `key_idx` and start offset -/
  start : Key
  /-- `m_garbage_store_ids` -/
  garbage : List (Int × Nat)

inductive LFault where
  /-- `std::out_of_range` from a table -/
  | throw
  | abort
  /-- an operation on a store that is not open -/
  | misuse
  /-- a pointer to a store that was destroyed -/
  | ub
  /-- the loop never ends -/
  | hang
  deriving DecidableEq, Repr

variable {D : Type}

/-- `LogDev::start(format = true)`, `log_dev.cpp` 68-71, 122-125. -/
def Dev.format : Dev D :=
  { groups := [], pending := [], flushIdx := 0, lastFlush := ⟨0, 0⟩, lastTrunc := -1, stores := fun _ => none, ids := [],
    first := fun _ => none, rolls := [], start := ⟨0, 0⟩, garbage := [] }

def Dev.setStore (c : Dev D) (id : Nat) (s : Store) : Dev D :=
  { c with stores := fun i => if i = id then some s else c.stores i }

/-- `HomeLogStore` constructor, `log_store.cpp` 36-46. -/
def Store.new (start : Int) : Store :=
  { start := start, next := start, tail := start - 1, trunc := ⟨0, 0⟩, recs := fun _ => none }

def Store.setRec (s : Store) (l : Int) (r : SRec) : Store :=
  { s with recs := fun x => if x = l then some r else s.recs x }

/-- `create_new_log_store` and `reserve_store`, `log_dev.cpp` 726-742, 942-955.  Which free id the reserver gives is
left open. -/
def Dev.create (c : Dev D) (id : Nat) : Except LFault (Dev D) :=
  if (c.first id).isSome then .error .misuse
  else if (c.stores id).isSome then .error .abort
  else .ok { c.setStore id (Store.new 0) with
    ids := c.ids ++ [id], first := fun i => if i = id then some 0 else c.first i }

/-- First half of `append_async`, `log_store.cpp` 89: take the next sequence number. -/
def Dev.reserve (c : Dev D) (id : Nat) : Except LFault (Dev D × Int) :=
  match c.stores id with
  | none => .error .misuse
  | some s => .ok (c.setStore id { s with next := s.next + 1 }, s.next)

/-- `write_async`, `log_store.cpp` 48-66, and `LogDev::append_async`, `log_dev.cpp` 289-301. -/
def Dev.write (c : Dev D) (id : Nat) (seq : Int) (d : D) : Except LFault (Dev D) :=
  match c.stores id with
  | none => .error .misuse
  | some s =>
    .ok { c.setStore id (if (s.recs seq).isSome then s else s.setRec seq {}) with
      pending := c.pending ++ [⟨id, seq, d⟩] }

/-- `append_async`, `log_store.cpp` 85-93, by one thread. -/
def Dev.append (c : Dev D) (id : Nat) (d : D) : Except LFault (Dev D × Int) :=
  match c.reserve id with
  | .error x => .error x
  | .ok (c1, seq) =>
    match c1.write id seq d with
    | .error x => .error x
    | .ok c2 => .ok (c2, seq)

/-- The truncation key of a record that was flushed with the key `flush`, `log_store.cpp` 165-177 and 192-198. -/
def Store.truncKeyFor (s : Store) (seq : Int) (flush : Key) : Except LFault (Store × Key) :=
  if s.tail < seq then .ok ({ s with tail := seq }, flush)
  else
    match s.recs s.tail with
    | none => .error .throw
    | some r => .ok (s, r.trunc)

/-- `on_write_completion`, `log_store.cpp` 148-186, and `on_log_found`, 188-206, which does the same for a sequence
number from the start of the store on. -/
def Store.complete (s : Store) (seq : Int) (dev flush : Key) : Except LFault Store :=
  match s.truncKeyFor seq flush with
  | .error x => .error x
  | .ok (s1, k) => .ok { s1.setRec seq ⟨dev, k, true⟩ with next := max s1.next (seq + 1) }

/-- The completions of one group, `log_dev.cpp` 552-584. -/
def completeAll (grp : Nat) : (Nat → Option Store) → Nat → List (LRec D) → Except LFault (Nat → Option Store)
  | st, _, [] => .ok st
  | st, idx, r :: rs =>
    match st r.store with
    | none => .error .ub
    | some s =>
      match s.complete r.seq ⟨idx, grp⟩ ⟨grp, grp⟩ with
      | .error x => .error x
      | .ok s' => completeAll grp (fun i => if i = r.store then some s' else st i) (idx + 1) rs

/-- One iteration of `flush`, `log_dev.cpp` 497-539, with `on_flush_completion`, 544-592: a group of the first `k`
pending records. -/
def Dev.flushK (c : Dev D) (k : Nat) : Except LFault (Dev D) :=
  if c.pending.take k = [] then .ok c
  else
    match completeAll c.flushIdx c.stores c.flushIdx (c.pending.take k) with
    | .error x => .error x
    | .ok st => .ok { c with
        groups := c.groups ++ [⟨c.flushIdx, c.pending.take k⟩], pending := c.pending.drop k,
        flushIdx := c.flushIdx + (c.pending.take k).length, stores := st, lastFlush := ⟨c.flushIdx, c.flushIdx⟩ }

/-- The loop of `flush`; the fuel is the number of pending records. -/
def Dev.flushN : Nat → Dev D → Except LFault (Dev D)
  | 0, c => .ok c
  | n + 1, c =>
    if c.pending = [] then .ok c
    else
      match c.flushK maxBatch with
      | .error x => .error x
      | .ok c' => Dev.flushN n c'

/-- `flush`, `log_dev.cpp` 481-542. -/
def Dev.flush (c : Dev D) : Except LFault (Dev D) := Dev.flushN c.pending.length c

/-- `LogDev::read`, `log_dev.cpp` 303-333: the record in its group.  `Group` has the bytes. -/
def Dev.readKey (c : Dev D) (k : Key) : Except LFault D :=
  match c.groups.find? (fun g => g.start == k.grp) with
  | none => .error .abort
  | some g =>
    match g.recs[(k.idx - g.start).toNat]? with
    | none => .error .abort
    | some r => .ok r.data

/-- `read_sync`, `log_store.cpp` 116-146.  `none`: `std::out_of_range`. -/
def Dev.read (c : Dev D) (id : Nat) (seq : Int) : Except LFault (Dev D × Option D) :=
  match c.stores id with
  | none => .error .misuse
  | some s =>
    match s.recs seq with
    | none => .ok (c, none)
    | some r =>
      match (if r.done then .ok c else c.flush) with
      | .error x => .error x
      | .ok c1 =>
        match c1.stores id with
        | none => .error .misuse
        | some s1 =>
          match s1.recs seq with
          | none => .ok (c1, none)
          | some r1 =>
            if r1.dev.idx = -1 then .ok (c1, none)
            else
              match c1.readKey r1.dev with
              | .error x => .error x
              | .ok d => .ok (c1, some d)

/-- `truncate_info`, `log_store.cpp` 261-269.  `none`: the store is empty. -/
def Store.truncInfo (s : Store) : Option Key := if s.start - 1 = s.tail then none else some s.trunc

/-- The least key over the stores, `log_dev.cpp` 632-642. -/
def minKey (stores : Nat → Option Store) : List Nat → Option Key → Option Key
  | [], m => m
  | id :: ids, m =>
    match stores id with
    | none => minKey stores ids m
    | some s =>
      match s.truncInfo with
      | none => minKey stores ids m
      | some k =>
        match m with
        | none => minKey stores ids (some k)
        | some m' => minKey stores ids (some (if k.idx < m'.idx then k else m'))

/-- The key up to which the device is truncated, `log_dev.cpp` 632-645. -/
def Dev.safeKey (c : Dev D) : Key := (minKey c.stores c.ids none).getD c.lastFlush

/-- `update_store_superblk` for every open store, `log_dev.cpp` 638. -/
def Dev.firsts (c : Dev D) : Nat → Option Int := fun id =>
  match c.stores id with
  | some s => if id ∈ c.ids then some s.start else c.first id
  | none => c.first id

/-- `LogDev::truncate`, `log_dev.cpp` 616-691, with `unreserve_store`, 965-980, and `remove_rollback_record_upto`,
1044-1068. -/
def Dev.truncateDev (c : Dev D) : Dev D :=
  let k := c.safeKey
  if k.idx ≤ 0 ∨ k.idx ≤ c.lastTrunc then { c with first := c.firsts }
  else
    let dead := (c.garbage.filter (fun g => decide (g.1 ≤ k.idx))).map Prod.snd
    { c with
      groups := c.groups.filter (fun g => decide (k.grp ≤ g.start))
      lastTrunc := k.idx
      start := k
      first := fun id => if id ∈ dead then none else c.firsts id
      garbage := c.garbage.filter (fun g => !decide (g.1 ≤ k.idx))
      rolls := c.rolls.filter (fun r => !decide (r.store ∈ dead) && !decide (r.hi ≤ k.idx)) }

/-- `HomeLogStore::truncate`, `log_store.cpp` 208-259. -/
def Dev.truncate (c : Dev D) (id : Nat) (upto : Int) (inMem : Bool) : Except LFault (Dev D × Bool) :=
  match c.stores id with
  | none => .error .misuse
  | some s0 =>
    if upto < s0.start then .ok (c, false)
    else
      match c.flush with
      | .error x => .error x
      | .ok c1 =>
        match c1.stores id with
        | none => .error .misuse
        | some s =>
          let fin (s1 : Store) : Dev D × Bool :=
            let s2 := { s1 with recs := fun l => if l ≤ upto then none else s1.recs l, start := upto + 1 }
            let c2 := c1.setStore id s2
            (if inMem then c2 else c2.truncateDev, true)
          if s.tail < upto then
            .ok (fin { s.setRec upto ⟨{}, {}, true⟩ with tail := upto, next := max s.next (upto + 1) })
          else
            match s.recs upto with
            | none => .error .throw
            | some r => .ok (fin { s with trunc := r.trunc })

/-- The rest of `rollback` once nothing is outstanding, `log_store.cpp` 391-404, and `LogDev::rollback`,
`log_dev.cpp` 693-700. -/
def Dev.rollbackNow (c : Dev D) (id : Nat) (s : Store) (to : Int) : Except LFault (Dev D × Bool) :=
  match s.recs (to + 1), s.recs s.tail with
  | some a, some b =>
    .ok ({ c.setStore id { s with next := to + 1, tail := to, recs := fun l => if to < l then none else s.recs l } with
      rolls := c.rolls ++ [⟨id, a.dev.idx, b.dev.idx⟩] }, true)
  | _, _ => .error .throw

/-- `HomeLogStore::rollback`, `log_store.cpp` 358-411.  With outstanding writes it flushes and tries again; if a
number was taken and not yet written it goes round until it is. -/
def Dev.rollback (c : Dev D) (id : Nat) (to : Int) : Except LFault (Dev D × Bool) :=
  match c.stores id with
  | none => .error .misuse
  | some s =>
    if to = s.tail then .ok (c, true)
    else if s.tail < to ∨ to < s.start - 1 then .ok (c, false)
    else if s.tail + 1 < s.next then
      match c.flush with
      | .error x => .error x
      | .ok c1 =>
        match c1.stores id with
        | none => .error .misuse
        | some s1 => if s1.tail + 1 < s1.next then .error .hang else c1.rollbackNow id s1 to
    else c.rollbackNow id s to

/-- `remove_log_store` and `unreserve_store_id`, `log_dev.cpp` 763-779, 378-385. -/
def Dev.remove (c : Dev D) (id : Nat) : Dev D × Bool :=
  match c.stores id with
  | none => (c, false)
  | some _ => ({ c with
      stores := fun i => if i = id then none else c.stores i
      ids := c.ids.filter (fun i => decide (i ≠ id))
      garbage := c.garbage ++ [((c.flushIdx + c.pending.length : Int) - 1, id)] }, true)

/-- `is_rolled_back`, `log_dev.cpp` 1093-1100. -/
def rolledBack (rolls : List Roll) (store : Nat) (idx : Nat) : Bool :=
  rolls.any (fun r => decide (r.store = store) && decide (r.lo ≤ idx) && decide ((idx : Int) ≤ r.hi))

/-- The records of the groups with their index and group. -/
def recsFrom (grp : Nat) : Nat → List (LRec D) → List (Nat × Nat × LRec D)
  | _, [] => []
  | idx, r :: rs => (idx, grp, r) :: recsFrom grp (idx + 1) rs

def devRecs (gs : List (Grp D)) : List (Nat × Nat × LRec D) := (gs.map (fun g => recsFrom g.start g.start g.recs)).flatten

/-- `on_logfound`, `log_dev.cpp` 802-818, behind the check for rolled back records, 249-259.  The second component is
what the log found callbacks got. -/
def loadRec (rolls : List Roll) (st : Nat → Option Store) (out : Nat → List (Int × D)) (x : Nat × Nat × LRec D) :
    Except LFault ((Nat → Option Store) × (Nat → List (Int × D))) :=
  if rolledBack rolls x.2.2.store x.1 then .ok (st, out)
  else
    match st x.2.2.store with
    | none => .ok (st, out)
    | some s =>
      if x.2.2.seq < s.start then .ok (st, out)
      else
        match s.complete x.2.2.seq ⟨x.1, x.2.1⟩ ⟨x.2.1, x.2.1⟩ with
        | .error e => .error e
        | .ok s' => .ok (fun i => if i = x.2.2.store then some s' else st i,
            fun i => if i = x.2.2.store then out i ++ [(x.2.2.seq, x.2.2.data)] else out i)

def loadAll (rolls : List Roll) : (Nat → Option Store) → (Nat → List (Int × D)) → List (Nat × Nat × LRec D) →
    Except LFault ((Nat → Option Store) × (Nat → List (Int × D)))
  | st, out, [] => .ok (st, out)
  | st, out, x :: xs =>
    match loadRec rolls st out x with
    | .error e => .error e
    | .ok (st', out') => loadAll rolls st' out' xs

/-- The index checks of `do_load`, `log_dev.cpp` 225-241: the index behind the last group. -/
def loadIdx : Bool → Nat → List (Grp D) → Except LFault Nat
  | _, idx, [] => .ok idx
  | first, idx, g :: gs =>
    if first ∧ g.start < idx then .ok idx
    else if g.start ≠ idx then .error .abort
    else if g.recs = [] then .error .abort
    else loadIdx false (idx + g.recs.length) gs

/-- A crash and `LogDev::start(format = false)`, `log_dev.cpp` 72-110.  Of the pending records a group of the first `k`
had reached the device.  `opened`: the ids for which `open_log_store` was called; the other reserved ids become garbage
(`handle_unopened_log_stores`, 703-724; the set `unopened` lists them).  The truncation of every store to its own
start behind the replay (106) has no effect: it is below the start. -/
def Dev.restart (c : Dev D) (opened unopened : List Nat) (k : Nat) :
    Except LFault (Dev D × (Nat → List (Int × D))) :=
  let groups := if c.pending.take k = [] then c.groups else c.groups ++ [⟨c.flushIdx, c.pending.take k⟩]
  match loadIdx true c.start.idx.toNat groups with
  | .error x => .error x
  | .ok idx =>
    match loadAll c.rolls (fun id => if id ∈ opened then (c.first id).map Store.new else none) (fun _ => [])
        (devRecs groups) with
    | .error x => .error x
    | .ok (st, out) =>
      .ok ({ groups := groups, pending := [], flushIdx := idx, lastFlush := ⟨0, 0⟩,
             lastTrunc := match groups with | [] => -1 | g :: _ => g.start
             stores := st, ids := opened.filter (fun id => (c.first id).isSome), first := c.first, rolls := c.rolls,
             start := c.start
             garbage := (unopened.filter (fun id => (c.first id).isSome && !decide (id ∈ opened))).map
               (fun id => ((idx : Int) - 1, id)) }, out)

end HS.Log
