import Verif.Common
/-!
# The indexes of a store: names, numbers and restarts

Models the constructor of a new index (/repo/src/include/homestore/index/index_table.hpp:62-93), `reserve_ordinal`, `unreserve_ordinal`, `start`,
`add_index_table`, `remove_index_table`, `get_index_table` (/repo/src/lib/index/index_service.cpp:68-123, 161-205), and of `IndexTable::destroy`
(index_table.hpp:135-149) that it removes the superblock (its nodes are in `Drop/`).

Simplifications: an object of a table is known by a number, which is also that of its superblock; each call is one step (the two maps are changed under one mutex;
the check and the change of `reserve_ordinal(ordinal)` are two steps in the code); the `IDReserver` of sisl is a set, and `reserve()` returns any number
that is not in it; superblocks are written when the call returns.  A stopping service is in `Stop/`.
-/
namespace HS.Catalog

/-- What the superblock of an index says of its names (index_internal.hpp:43-66). -/
structure Tbl where
  uuid : Nat
  ord : Nat
deriving DecidableEq, Repr

structure St where
  next : Nat
  tab : Nat → Option Tbl       -- the objects of tables of this run
  gone : Nat → Bool            -- `destroy` was called: the superblock of the object is null
  reserved : Nat → Bool        -- `m_ordinal_reserver`
  byUuid : Nat → Option Nat    -- `m_index_map`
  byOrd : Nat → Option Nat     -- `m_ordinal_index_map`
  disk : List (Nat × Tbl)      -- superblocks
  added : Nat → Bool           -- bookkeeping: the table was added (or found at the start) and not removed since
  ub : Bool

def St.init : St :=
  { next := 0, tab := fun _ => none, gone := fun _ => false, reserved := fun _ => false, byUuid := fun _ => none, byOrd := fun _ => none,
    disk := [], added := fun _ => false, ub := false }

def upd {α : Type} (f : Nat → α) (i : Nat) (v : α) : Nat → α := fun x => if x = i then v else f x

/-- `insert` of a map: an entry that is there stays. -/
def ins (m : Nat → Option Nat) (k v : Nat) : Nat → Option Nat := fun x => if x = k then (m x).orElse (fun _ => some v) else m x

/-- The constructor of a new index (index_table.hpp:62-93): the number is marked as reserved, the superblock written, and the root created; if that fails
(`ok = false`) an exception is thrown and there is no object. -/
def St.construct (s : St) (u o : Nat) (ok : Bool) : St :=
  { s with next := s.next + 1, reserved := upd s.reserved o true, disk := s.disk ++ [(s.next, ⟨u, o⟩)],
           tab := if ok then upd s.tab s.next (some ⟨u, o⟩) else s.tab }

/-- `add_index_table` (index_service.cpp:161-169); it returns true. -/
def St.add (s : St) (t : Nat) (tb : Tbl) : St :=
  { s with byUuid := ins s.byUuid tb.uuid t, byOrd := ins s.byOrd tb.ord t, added := upd s.added t true }

/-- `remove_index_table` (index_service.cpp:171-183): the new state and what it returns; a destroyed table has no superblock to read the number from. -/
def St.remove (s : St) (t : Nat) (tb : Tbl) : St × Bool :=
  if s.gone t then ({ s with ub := true }, false)
  else if !s.reserved tb.ord then (s, false)
  else ({ s with reserved := upd s.reserved tb.ord false, byUuid := upd s.byUuid tb.uuid none, byOrd := upd s.byOrd tb.ord none,
                 added := upd s.added t false }, true)

/-- One turn of the loop of `start` (index_service.cpp:95-106): `reserve_ordinal(ordinal)`, whose result is not looked at, and
`add_index_table`. -/
def St.found (s : St) (e : Nat × Tbl) : St :=
  let s := { s with tab := upd s.tab e.1 (some e.2), reserved := upd s.reserved e.2.ord true }
  s.add e.1 e.2

/-- `start` after a stop or a crash, with the superblocks in the order in which they are found. -/
def St.restart (s : St) (l : List (Nat × Tbl)) : St :=
  l.foldl St.found { St.init with next := s.next, disk := s.disk }

inductive Op where
  | create (u o : Nat) (ok : Bool)    -- a new index with a number from `reserve()`
  | createAt (u o : Nat) (ok : Bool)  -- a new index with the number the user gives
  | add (t : Nat) | remove (t : Nat) | destroy (t : Nat)
  | restart (l : List (Nat × Tbl))
deriving DecidableEq, Repr

def step (s : St) : Op → Option St
  | .create u o ok => if s.reserved o then none else some (s.construct u o ok)
  | .createAt u o ok =>
    -- `get_index_table(ordinal)` is only an assertion that logs (index_table.hpp:68-69, btree_internal.hpp:144); the result of
    -- `reserve_ordinal(ordinal)` is not looked at (70)
    some (s.construct u o ok)
  | .add t => (s.tab t).map fun tb => if s.gone t then { s with ub := true } else s.add t tb
  | .remove t => (s.tab t).map fun tb => (s.remove t tb).1
  | .destroy t => match s.tab t with
    | some _ => if s.gone t then none else some { s with gone := upd s.gone t true, disk := s.disk.filter fun e => e.1 ≠ t }
    | none => none
  | .restart l => if l.Perm s.disk then some (s.restart l) else none

/-- States reached by steps that satisfy `ok`. -/
inductive Reach (ok : St → Op → Prop) : St → Prop
  | init : Reach ok St.init
  | step {s o s'} : Reach ok s → ok s o → step s o = some s' → Reach ok s'

/-! ## What is claimed -/

/-- The service finds table `t` by both of its names. -/
def St.Finds (s : St) (t : Nat) (tb : Tbl) : Prop := s.byUuid tb.uuid = some t ∧ s.byOrd tb.ord = some t

/-- No two indexes on disk share a name. -/
def St.Apart (s : St) : Prop := ∀ e ∈ s.disk, ∀ e' ∈ s.disk, e.1 ≠ e'.1 → e.2.uuid ≠ e'.2.uuid ∧ e.2.ord ≠ e'.2.ord

/-- Every index on disk has its number marked as taken: none is removed and not yet destroyed. -/
def St.AllTaken (s : St) : Prop := ∀ e ∈ s.disk, s.reserved e.2.ord = true

/-- Proper use: an index is created with a fresh uuid and, if the user gives the number, a free one, and not while another index is removed and not yet destroyed; a table is
added unless it was removed; removed before it is destroyed; destroyed only once removed. -/
def Proper (s : St) : Op → Prop
  | .create u _ _ => (∀ e ∈ s.disk, e.2.uuid ≠ u) ∧ s.AllTaken
  | .createAt u o _ => (∀ e ∈ s.disk, e.2.uuid ≠ u) ∧ s.AllTaken ∧ s.reserved o = false
  | .add t => s.gone t = false ∧ ∀ tb, s.tab t = some tb → s.reserved tb.ord = true
  | .remove t => s.gone t = false
  | .destroy t => s.added t = false
  | .restart _ => True

end HS.Catalog
