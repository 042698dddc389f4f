import Verif.Prefix.Model

/-!
# Specification: a leaf is a sorted list of keys and values

Nothing here knows about prefixes, slots or sizes.
-/

namespace HS.Prefix

abbrev KV := List (Nat × Nat)

/-- Keys strictly ascending. -/
def Sorted (l : KV) : Prop := l.Pairwise (fun a b => a.1 < b.1)

/-- The value of a key. -/
def look (l : KV) (k : Nat) : Option Nat := (l.find? (fun e => e.1 = k)).map Prod.snd

/-- The key `k` gets the value `v`, whether it was there or not. -/
def setL (l : KV) (k v : Nat) : KV := l.filter (fun e => e.1 < k) ++ (k, v) :: l.filter (fun e => k < e.1)

/-- The key `k` goes. -/
def delL (l : KV) (k : Nat) : KV := l.filter (fun e => e.1 ≠ k)

/-- What a put of one key says and does: the filter is asked first about a key that is there. -/
def putSpec (type : PutType) (filter : Option (Nat → Nat → Nat → Dec)) (l : KV) (k v : Nat) : OneRes × KV :=
  match look l k with
  | none => if type = .update then (.notFound, l) else (.ok, setL l k v)
  | some old =>
    if passes filter k old v = false then (.filtered, l)
    else if type = .insert then (.exists_, l)
    else (.ok, setL l k v)

/-- What a put of `nv` does to one key: an insert leaves keys alone that are there, an update those
that are not, and the filter is asked about keys that are there, unless it is an insert. -/
def putOne (type : PutType) (filter : Option (Nat → Nat → Nat → Dec)) (v nv : Nat) (l : KV) (k : Nat) : KV :=
  match look l k with
  | none => if type = .update then l else setL l k nv
  | some old =>
    if type = .insert then l
    else match filter with
      | none => setL l k nv
      | some f => match f k old v with
        | .keep => l
        | .replace => setL l k nv
        | .remove => delL l k

/-- What a range put does up to, not including, the key `c`: every key of the range in turn, with the
value moved on by the distance from the first key asked for. -/
def putUpto (vsh : Nat → Nat → Nat) (a : Put) (l : KV) (c : Nat) : KV :=
  (List.range' (startOf a.lo a.loIncl) (c - startOf a.lo a.loIncl)).foldl
    (fun l k => putOne a.type a.filter a.v (vsh a.v (k - a.first)) l k) l

/-- The key behind the last key of a range. -/
def endOf (hi : Nat) (incl : Bool) : Nat := if incl then hi + 1 else hi

/-- The entries of a range that the filter lets go. -/
def inRange (lo : Nat) (loIncl : Bool) (hi : Nat) (hiIncl : Bool) (f : Nat → Nat → Bool) (e : Nat × Nat) : Bool :=
  decide (startOf lo loIncl ≤ e.1) && decide (e.1 < endOf hi hiIncl) && f e.1 e.2

/-- How to read `startOf`, `endOf` and `passes`, which the specification shares with the model: a range
begins and ends with the keys given, without them when they are excluded, and a put of one key replaces
a value only where there is no filter or the filter says so. -/
theorem spec_reading :
    (∀ lo k, startOf lo true ≤ k ↔ lo ≤ k) ∧ (∀ lo k, startOf lo false ≤ k ↔ lo < k) ∧
    (∀ hi k, k < endOf hi true ↔ k ≤ hi) ∧ (∀ hi k, k < endOf hi false ↔ k < hi) ∧
    (∀ k old v, passes none k old v = true) ∧
    (∀ (f : Nat → Nat → Nat → Dec) k old v, passes (some f) k old v = true ↔ f k old v = .replace) := by
  refine ⟨?_, ?_, ?_, ?_, ?_, ?_⟩ <;> simp [startOf, endOf, passes] <;> omega

end HS.Prefix
