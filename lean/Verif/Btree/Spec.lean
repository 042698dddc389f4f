import Verif.Btree.Node

/-!
# Specification: an ordered map

What a user of the B-tree relies on, stated without nodes: a map from keys to values.
-/

namespace HS.Btree.Spec

variable {K V : Type} [LinearOrder K]

/-- The map with one key set. -/
def set (M : K → Option V) (k : K) (v : V) : K → Option V := fun x => if x = k then some v else M x

/-- The map with one key removed. -/
def del (M : K → Option V) (k : K) : K → Option V := fun x => if x = k then none else M x

/-- Put with the given type and filter: new map, status, and the existing value that is reported. -/
def put (M : K → Option V) (key : K) (val : V) (type : PutType)
    (filter : Option (K → V → V → Decision)) : (K → Option V) × Status × Option V :=
  match M key with
  | some old =>
    if (filter.elim Decision.replace (fun f => f key old val)) ≠ .replace then (M, .filtered_out, some old)
    else if type = .insert then (M, .already_exists, some old)
    else (set M key val, .success, some old)
  | none =>
    if type = .update then (M, .not_found, none)
    else (set M key val, .success, none)

/-- Remove: new map and the removed value (`none`: not found). -/
def remove (M : K → Option V) (key : K) : (K → Option V) × Option V := (del M key, M key)

/-- The key lies in the interval. -/
def inRange (r : KeyRange K) (k : K) : Bool :=
  (if r.startIncl then decide (r.startKey ≤ k) else decide (r.startKey < k)) &&
    (if r.endIncl then decide (k ≤ r.endKey) else decide (k < r.endKey))

/-- The map with the keys of an interval removed whose entries the filter selects. -/
def removeRange (M : K → Option V) (r : KeyRange K) (sel : K → V → Bool) : K → Option V :=
  fun k => match M k with
    | none => none
    | some v => if inRange r k && sel k v then none else some v

/-- The map with the existing keys of an interval treated as the filter decides: `keep` leaves the entry,
`replace` gives it the new value, `remove` removes it. -/
def updateRange (M : K → Option V) (r : KeyRange K) (dec : K → V → V → Decision) (v : V) : K → Option V :=
  fun k => match M k with
    | none => none
    | some old =>
      if inRange r k then
        match dec k old v with
        | .keep => some old
        | .replace => some v
        | .remove => none
      else some old

end HS.Btree.Spec
