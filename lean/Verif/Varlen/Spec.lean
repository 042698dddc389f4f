import Verif.Varlen.Model
/-!
# Specification: a node is a list of keys and values

Independent of the layout of a node: what each operation does to the list of entries and to the edge, and when it
cannot be done (`none`).
-/
namespace HS.Varlen

structure Abs where
  ents : List (Bytes × Bytes)
  edge : Option Bytes
  leaf : Bool

/-- The space that an entry takes. -/
def cost (P : Params) (e : Bytes × Bytes) : Nat := e.1.length + e.2.length + P.kind.rs

def costs (P : Params) (l : List (Bytes × Bytes)) : Nat := (l.map (cost P)).sum

/-- The space that is free: the node without the header and the entries. -/
def Abs.free (P : Params) (a : Abs) : Nat := P.size - 6 - costs P a.ents

/-- As many of the first elements of the list as fit into `left`. -/
def greedy (P : Params) : Nat → List (Bytes × Bytes) → Nat
  | _, [] => 0
  | left, e :: l => if cost P e ≤ left then greedy P (left - cost P e) l + 1 else 0

def Abs.insert (P : Params) (a : Abs) (ind : Nat) (kb vb : Bytes) : Option Abs :=
  if ind ≤ a.ents.length ∧ P.kind.fits kb vb = true ∧ cost P (kb, vb) ≤ a.free P then
    some { a with ents := a.ents.take ind ++ (kb, vb) :: a.ents.drop ind }
  else none

/-- Removing entries `is` to `ie`.  The edge comes after the last entry: if it is removed, the entry before those
that are removed becomes the edge. -/
def Abs.remove (a : Abs) (is ie : Nat) : Option Abs :=
  if ie = a.ents.length then
    if a.leaf = false ∧ a.edge.isSome = true ∧ 1 ≤ is ∧ is ≤ ie then
      match a.ents[is - 1]? with
      | some e => some { a with edge := some e.2, ents := a.ents.take (is - 1) }
      | none => none
    else none
  else if ie < a.ents.length ∧ is ≤ ie + 1 then some { a with ents := a.ents.take is ++ a.ents.drop (ie + 1) }
  else none

def Abs.removeAll (a : Abs) : Abs := { a with ents := [], edge := none }

def Abs.update (P : Params) (a : Abs) (ind : Nat) (kb vb : Bytes) : Option Abs :=
  if ind = a.ents.length then if a.leaf then none else some { a with edge := some vb }
  else match a.ents[ind]? with
    | none => none
    | some e =>
      if P.kind.fits kb vb = true ∧ kb.length + vb.length ≤ e.1.length + e.2.length + a.free P then
        some { a with ents := a.ents.set ind (kb, vb) }
      else none

def Abs.updateVal (P : Params) (a : Abs) (ind : Nat) (vb : Bytes) : Option Abs :=
  if ind = a.ents.length then if a.leaf then none else some { a with edge := some vb }
  else match a.ents[ind]? with
    | none => none
    | some e => a.update P ind e.1 vb

/-- Moving the last `m` entries, and the edge, to the front of another node. -/
def Abs.move (P : Params) (a b : Abs) (m : Nat) : Option (Abs × Abs) :=
  let moved := a.ents.drop (a.ents.length - m)
  if costs P moved ≤ b.free P then
    let ents := moved ++ b.ents
    if a.leaf = false ∧ ents ≠ [] then
      some ({ a with ents := a.ents.take (a.ents.length - m), edge := none }, { b with ents, edge := a.edge })
    else some ({ a with ents := a.ents.take (a.ents.length - m) }, { b with ents })
  else none

def Abs.moveEntries (P : Params) (a b : Abs) (cnt : Nat) : Option (Abs × Abs) :=
  if min cnt a.ents.length = 0 then some (a, b) else a.move P b (min cnt a.ents.length)

/-- The first entry stays. -/
def Abs.moveSize (P : Params) (a b : Abs) (size : Nat) : Option (Nat × Abs × Abs) :=
  if a.ents = [] then none
  else (a.move P b (greedy P size a.ents.tail.reverse)).map (fun p => (greedy P size a.ents.tail.reverse, p))

/-- Appending `m` entries of another node from `start` on, and its edge if that is all of them. -/
def Abs.copy (P : Params) (a src : Abs) (start m : Nat) : Option Abs :=
  let l := (src.ents.drop start).take m
  if costs P l ≤ a.free P then
    some { a with ents := a.ents ++ l,
                  edge := if src.leaf = false ∧ src.edge.isSome = true ∧ start + m = src.ents.length then src.edge else a.edge }
  else none

def Abs.copySize (P : Params) (a src : Abs) (start size : Nat) : Option (Nat × Abs) :=
  (a.copy P src start (greedy P size (src.ents.drop start))).map (fun r => (greedy P size (src.ents.drop start), r))

def Abs.copyEntries (P : Params) (a src : Abs) (start cnt : Nat) : Option (Nat × Abs) :=
  if start ≤ src.ents.length then
    (a.copy P src start (min cnt (src.ents.length - start))).map (fun r => (min cnt (src.ents.length - start), r))
  else none

end HS.Varlen
