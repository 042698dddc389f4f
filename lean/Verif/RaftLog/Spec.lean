import Verif.RaftLog.Model

/-!
# What NuRaft expects of a log store

A Raft log is a list of entries numbered from `first` on, of which the first `dur` are known to survive a crash.  Nothing
here mentions the cache, the log device or rollbacks.

`accept a op out` says whether `out` is a correct answer to `op` on the log `a`, and what the log is afterwards.  Two
answers leave a choice: the durable index (anything between what is known to be durable and the end; from then on it
counts as durable) and the next index after a crash (nothing durable is lost).
-/

namespace HS.RaftLog

structure RLog where
  first : Nat
  ents : List Entry
  dur : Nat
  deriving DecidableEq, Repr

/-- The index after the last entry. -/
def RLog.next (a : RLog) : Nat := a.first + a.ents.length

/-- The entry with index `i`. -/
def RLog.get (a : RLog) (i : Nat) : Option Entry := if a.first ≤ i then a.ents[i - a.first]? else none

/-- The entries with index in `[s, e)`. -/
def RLog.slice (a : RLog) (s e : Nat) : List Entry := (a.ents.drop (s - a.first)).take (e - s)

def RLog.new : RLog := ⟨1, [], 0⟩

inductive ROp where
  | append (e : Entry)
  | writeAt (i : Nat) (e : Entry)
  | endBatch (start cnt : Nat)
  | flush
  | compact (i : Nat)
  | purge
  | setDurable (i : Nat)
  | applyPack (i : Nat) (p : Pack)
  | nextSlot
  | startIndex
  | lastIndex
  | lastDurable
  | lastEntry
  | entryAt (i : Nat)
  | termAt (i : Nat)
  | logEntries (s e : Nat)
  | logEntriesExt (s e : Nat) (hint : Int)
  | pack (i cnt : Nat)
  /-- a crash with the first `k` pending records on the device, and a restart -/
  | crash (k : Nat)
  /-- a crash inside `write_at`, after the rollback, with `k` pending records on the device, and a restart -/
  | crashInWriteAt (i : Nat) (e : Entry) (k : Nat)
  deriving DecidableEq, Repr

inductive ROut where
  | unit
  | idx (n : Int)
  /-- an entry, or a null pointer -/
  | entry (e : Option Entry)
  | entries (l : List Entry)
  | packed (p : Pack)
  deriving DecidableEq, Repr

/-- The log after everything in it is durable. -/
def RLog.allDurable (a : RLog) : RLog := { a with dur := a.ents.length }

/-- Drop the entries up to index `i`.  Beyond the end the log goes on at `i + 1`. -/
def RLog.dropTo (a : RLog) (i : Nat) : RLog :=
  if i < a.first then a
  else { first := i + 1, ents := a.ents.drop (i + 1 - a.first), dur := (a.ents.drop (i + 1 - a.first)).length }

/-- Keep the entries before index `i`. -/
def RLog.before (a : RLog) (i : Nat) : List Entry := a.ents.take (i - a.first)

/-- A log that is durable as a whole. -/
def RLog.solid (first : Nat) (l : List Entry) : RLog := ⟨first, l, l.length⟩

/-- The number of entries a batch size hint asks for: none if negative, no limit if zero. -/
def hinted (n : Nat) (hint : Int) : Nat := if hint < 0 then 0 else if hint = 0 then n else min n hint.toNat

def RLog.accept (a : RLog) : ROp → ROut → Option RLog
  | .append e, .idx n => if n = a.next then some { a with ents := a.ents ++ [e] } else none
  | .writeAt i e, .unit => some (RLog.solid a.first (a.before i ++ [e]))
  | .endBatch _ _, .unit => some a.allDurable
  | .flush, .unit => some a.allDurable
  | .compact i, .unit => some (a.dropTo i)
  | .purge, .unit => some (a.dropTo (a.next - 1))
  | .setDurable _, .unit => some a
  | .applyPack _ p, .unit => some (RLog.solid a.first (a.ents ++ p.recs))
  | .nextSlot, .idx n => if n = a.next then some a else none
  | .startIndex, .idx n => if n = a.first then some a else none
  | .lastIndex, .idx n =>
    if (a.first : Int) + a.dur ≤ n + 1 ∧ n < a.next then some { a with dur := (n + 1 - a.first).toNat } else none
  | .lastDurable, .idx n =>
    if (a.first : Int) + a.dur ≤ n + 1 ∧ n < a.next then some { a with dur := (n + 1 - a.first).toNat } else none
  | .lastEntry, .entry e => if e = some (a.ents.getLast?.getD dummy) then some a else none
  | .entryAt i, .entry e => if e.isSome ∧ e = a.get i then some a else none
  | .termAt i, .idx n => if some n = (a.get i).map (fun e => (e.term : Int)) then some a else none
  | .logEntries s e, .entries l => if l = a.slice s e then some a else none
  | .logEntriesExt s e h, .entries l => if l = a.slice s (s + hinted (e - s) h) then some a else none
  | .pack i cnt, .packed p => if p = ⟨cnt, a.slice i (i + cnt)⟩ then some a else none
  | .crash _, .idx n =>
    if (a.first : Int) + a.dur ≤ n ∧ n ≤ a.next then some (RLog.solid a.first (a.before n.toNat)) else none
  | .crashInWriteAt i e _, .idx n =>
    if n = i then some (RLog.solid a.first (a.before i))
    else if n = i + 1 then some (RLog.solid a.first (a.before i ++ [e]))
    else none
  | _, _ => none

/-- The uses that are supported; see `Verif.RaftLog.Props` for what happens otherwise.

* Only a durable entry is overwritten, or the end of a durable log.
* `end_of_append_batch` names entries that are there.
* `last_entry` is asked of a log that has an entry, or never had one.
* Entries are asked for by indices that are there; ranges lie in the durable part.
* A pack holds as many records as it says, and is applied at the end of the log. -/
def Legal (a : RLog) : ROp → Prop
  | .writeAt i _ => a.first ≤ i ∧ (i < a.first + a.dur ∨ (i = a.next ∧ a.dur = a.ents.length))
  | .crashInWriteAt i _ _ => a.first ≤ i ∧ (i < a.first + a.dur ∨ (i = a.next ∧ a.dur = a.ents.length))
  | .endBatch s n => s + n ≤ a.next
  | .setDurable i => i < a.first + a.dur
  | .applyPack i p => i = a.next ∧ p.cnt = p.recs.length
  | .lastEntry => a.ents ≠ [] ∨ a.first = 1
  | .entryAt i => a.first ≤ i ∧ i < a.next
  | .termAt i => a.first ≤ i ∧ i < a.next
  | .logEntries s e => a.first ≤ s ∧ e ≤ a.first + a.dur
  | .logEntriesExt s e h => a.first ≤ s ∧ s ≤ e ∧ e ≤ a.first + a.dur ∧ e < 2 ^ 64 ∧ h < 2 ^ 64
  | .pack i cnt => a.first ≤ i ∧ i + cnt ≤ a.first + a.dur
  | _ => True

/-! The code -/

open HS.Log

def RS.step (r : RS) : ROp → Except LFault (RS × ROut)
  | .append e => (r.append e).map fun p => (p.1, .idx p.2)
  | .writeAt i e => (r.writeAt i e).map fun r' => (r', .unit)
  | .endBatch s n => (r.endBatch s n).map fun r' => (r', .unit)
  | .flush => r.flush.map fun r' => (r', .unit)
  | .compact i => (r.compact i).map fun r' => (r', .unit)
  | .purge => r.purge.map fun r' => (r', .unit)
  | .setDurable i => .ok (r.setDurable i, .unit)
  | .applyPack i p => (r.applyPack i p).map fun r' => (r', .unit)
  | .nextSlot => r.nextSlot.map fun n => (r, .idx n)
  | .startIndex => r.startIndex.map fun n => (r, .idx n)
  | .lastIndex => r.lastIndex.map fun n => (r, .idx n)
  | .lastDurable => r.lastDurable.map fun p => (p.1, .idx p.2)
  | .lastEntry => r.lastEntry.map fun p => (p.1, .entry p.2)
  | .entryAt i => (r.entryAt i).map fun p => (p.1, .entry p.2)
  | .termAt i => (r.termAt i).map fun p => (p.1, .idx p.2)
  | .logEntries s e => (r.logEntries s e).map fun l => (r, .entries l)
  | .logEntriesExt s e h => (r.logEntriesExt s e h).map fun l => (r, .entries l)
  | .pack i cnt => (r.pack i cnt).map fun p => (r, .packed p)
  | .crash k =>
    match r.restart k with
    | .error x => .error x
    | .ok r' => r'.nextSlot.map fun n => (r', .idx n)
  | .crashInWriteAt i e k =>
    match r.writeAtBuffer i e with
    | .error x => .error x
    | .ok r1 =>
      match r1.restart k with
      | .error x => .error x
      | .ok r' => r'.nextSlot.map fun n => (r', .idx n)

/-- A store `r` and the log `a` it stands for, after some history from a new store. -/
inductive Reach : RS → RLog → Prop
  | new {id : Nat} {r : RS} : RS.create id = .ok r → Reach r RLog.new
  | step {r r' : RS} {a a' : RLog} {op : ROp} {out : ROut} : Reach r a → Legal a op → r.step op = .ok (r', out) →
      a.accept op out = some a' → Reach r' a'

end HS.RaftLog
