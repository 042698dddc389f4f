import Verif.Conc.Run

/-!
# Range queries beside other calls: what a user relies on

Threads put, get and remove keys of one B-tree; other threads query ranges of keys.  A query looks at the keys one after
the other while the other calls go on.  What its answer says about a key is what the map was at some
moment between the question and the answer, and what it says about a greater key is not older.
-/

namespace HS.Scan

open HS.Conc (Legal points)

/-- A query: the entries with keys between `lo` and `hi` that `keep` accepts, `batch` of them at most. -/
structure Query where
  lo : Nat
  loIncl : Bool
  hi : Nat
  hiIncl : Bool
  batch : Nat
  /-- the filter -/
  keep : Nat → Nat → Bool
  /-- which of the two kinds of query: from leaf to leaf, or from parent to child -/
  sweep : Bool

/-- The keys asked for. -/
def Query.has (q : Query) (k : Nat) : Prop := (q.lo < k ∨ (q.loIncl = true ∧ k = q.lo)) ∧ (k < q.hi ∨ (q.hiIncl = true ∧ k = q.hi))

instance (q : Query) (k : Nat) : Decidable (q.has k) := by unfold Query.has; infer_instance

/-- No filter. -/
def Query.all (q : Query) : Prop := ∀ k v, q.keep k v = true

/-- How a query ends. -/
inductive Status where
  /-- there is nothing more -/
  | success
  /-- there may be more behind the last key -/
  | more
  /-- a node could not be read -/
  | failed
  deriving DecidableEq, Repr

/-- What happens, in order. -/
inductive Ev where
  /-- a call, the point or the return of a get, put or remove -/
  | op (e : HS.Conc.Ev)
  /-- query thread `i` asks -/
  | ask (i : Nat) (q : Query)
  /-- a node query `i` needs cannot be read -/
  | fail (i : Nat)
  /-- a leaf has more entries in the range than query `i` may still return -/
  | trim (i : Nat)
  /-- the answer: entries and status -/
  | answer (i : Nat) (out : List (Nat × Nat)) (st : Status)

/-- The gets, puts and removes. -/
def ops : List Ev → List HS.Conc.Ev
  | [] => []
  | .op e :: l => e :: ops l
  | _ :: l => ops l

/-- The map is `M` after the first `j` events. -/
def MapAt (tr : List Ev) (j : Nat) (M : Nat → Option Nat) : Prop := Legal (fun _ => none) (points (ops (tr.take j))) M

/-- What an answer says about a key. -/
def said (out : List (Nat × Nat)) (k : Nat) : Option Nat := (out.find? fun p => p.1 == k).map (·.2)

/-- Does an answer speak of key `k`?  One that is complete speaks of all keys; one with more to come of those up to its last one. -/
def Speaks (out : List (Nat × Nat)) (st : Status) (k : Nat) : Prop :=
  match st with
  | .success => True
  | .more => ∃ p ∈ out, k ≤ p.1
  | .failed => ∃ p ∈ out, k = p.1

/-- The question was the event number `b`, the answer the event number `e`: the entries are in order, in the range, accepted and not too many; if
there is more to come they are as many as asked for; and there is a moment for each key, between question and answer and not
earlier than that of a smaller key, such that the answer tells of each key it speaks of what the map was at its moment.  `sure`: is
this so for all these keys, or only for those in the answer? -/
structure Answers (tr : List Ev) (b e : Nat) (sure : Prop) (q : Query) (out : List (Nat × Nat)) (st : Status) : Prop where
  sorted : out.Pairwise fun x y => x.1 < y.1
  range : ∀ p ∈ out, q.has p.1 ∧ q.keep p.1 p.2 = true
  count : out.length ≤ q.batch
  more : st = .more → out.length = q.batch
  moment : ∃ at_ : Nat → Nat, (∀ k k', k ≤ k' → at_ k ≤ at_ k') ∧ ∀ k, b < at_ k ∧ at_ k ≤ e ∧
    (q.has k → Speaks out st k → sure ∨ (∃ p ∈ out, p.1 = k) → ∃ M, MapAt tr (at_ k) M ∧ (M k).filter (q.keep k) = said out k)

/-- All answers so far are such answers; what they say of absent keys is certain if the query is not of the
second kind or no node it needed was unreadable, and if there is no filter or no leaf had too many entries. -/
def Answered (tr : List Ev) : Prop :=
  ∀ e i out st, tr[e]? = some (.answer i out st) → ∃ b q, b < e ∧ tr[b]? = some (.ask i q) ∧
    (∀ j, b < j → j < e → (∀ q', tr[j]? ≠ some (.ask i q')) ∧ ∀ out' st', tr[j]? ≠ some (.answer i out' st')) ∧
    (0 < q.batch → Answers tr b e ((q.sweep = true ∨ ∀ j, b < j → j < e → tr[j]? ≠ some (.fail i)) ∧
      (q.all ∨ ∀ j, b < j → j < e → tr[j]? ≠ some (.trim i))) q out st)

/-- The same query behind key `k`: the next page. -/
def Query.after (q : Query) (k : Nat) : Query := { q with lo := k, loIncl := false }

/-- Query `i` is asked at `b` and answered at `e`; no node it needs is unreadable, and it has no filter or no leaf has too many entries. -/
structure Page (tr : List Ev) (i b e : Nat) (q : Query) (out : List (Nat × Nat)) (st : Status) : Prop where
  lt : b < e
  ask : tr[b]? = some (.ask i q)
  answer : tr[e]? = some (.answer i out st)
  between : ∀ j, b < j → j < e → (∀ q', tr[j]? ≠ some (.ask i q')) ∧ ∀ out' st', tr[j]? ≠ some (.answer i out' st')
  read : ∀ j, b < j → j < e → tr[j]? ≠ some (.fail i)
  whole : q.all ∨ ∀ j, b < j → j < e → tr[j]? ≠ some (.trim i)

/-- Page after page, until there is nothing more: each page begins behind the last key of the page before. -/
inductive Pages (tr : List Ev) (i : Nat) : Nat → Nat → Query → List (List (Nat × Nat)) → Prop where
  | last {b e q out} : Page tr i b e q out .success → Pages tr i b e q [out]
  | more {b e q out k v b' e' outs} : Page tr i b e q out .more → out.getLast? = some (k, v) → e < b' → Pages tr i b' e' (q.after k) outs →
      Pages tr i b e' q (out :: outs)

end HS.Scan
