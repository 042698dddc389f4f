import Verif.MetaCheck.Model

/-!
# Specification vocabulary for the check of the superblock store
-/
namespace HS.MetaCheck
open HS.Meta

/-- The check comes to an end with the verdict `v` (its loops are unbounded; those of the model are
bounded by `fuel`). -/
def Verifies (c : Cfg) (s : St) (u : Sub) (d : Disk) (v : Verdict) : Prop :=
  ∃ n, ∀ fuel, n ≤ fuel → check c fuel s u d = v

/-- Executions of the service with its map of types: as `Reach` of `Verif.Meta.Spec`, with
registrations at any time and without deregistrations.  A record is added only to a registered type
(`add_sub_sb` asserts it, line 406). -/
inductive SReach (c : Cfg) (ssb : Nat) : St → Disk → List Entry → Sub → Prop
  /-- Register types, format any device and add the first record. -/
  | boot (d0 : Disk) (regs : List Nat) (t : Nat) (x : List Byte) (b : Nat) (sp : Space) (ws : List Write)
      (s : St) (ho : OpOk c (format ssb).2 [] (.add t x b sp))
      (hp : prog c (format ssb).2 (.add t x b sp) = some (ws, s)) (ht : t ∈ regs) :
      SReach c ssb s (exec (exec d0 (format ssb).1) ws) [⟨b, t, x⟩] ((Sub.scan regs []).add t b)
  /-- An operation runs to completion. -/
  | op {s : St} {d : Disk} {es : List Entry} {u : Sub} (h : SReach c ssb s d es u) (op : Op)
      (ws : List Write) (s' : St) (ho : OpOk c s es op) (hp : prog c s op = some (ws, s'))
      (ht : ∀ t x b sp, op = .add t x b sp → t ∈ u.types) :
      SReach c ssb s' (exec d ws) (specOp op es) (subOp u s op)
  /-- A type is registered. -/
  | reg {s : St} {d : Disk} {es : List Entry} {u : Sub} (h : SReach c ssb s d es u) (t : Nat) :
      SReach c ssb s d es (u.reg t)
  /-- A start completes after any history that ended in a crash, with the types `regs` registered
  before it. -/
  | restart {d : Disk} {r : List Entry × St × List Write} (h : Reach c ssb (.down d))
      (hr : Restarts c ssb d r) (regs : List Nat) :
      SReach c ssb r.2.1 (exec d r.2.2) r.1 (Sub.scan regs (r.1.map (fun e => (e.typ, e.bid))))

/-- The overflow chain that starts at `o` consists of blocks that are headers, each with its own id and
with at least one data id. -/
inductive Headed (d : Disk) : Option Nat → Prop
  | done : Headed d none
  | step {b : Nat} {h : OHdr} (hd : d b = .ovf h) (hb : h.bid = b) (hp : h.pieces ≠ [])
      (hn : Headed d h.next) : Headed d (some b)

/-- The device holds, linked from `first` and with the predecessor `p`, records of the types and ids
`l`, in this order and nothing more: right ids, right links forward and back, and for each record
either a content that fits or an overflow chain. -/
inductive Listed (c : Cfg) (d : Disk) : Nat → Option Nat → List (Nat × Nat) → Prop
  | nil (p : Nat) : Listed c d p none []
  | cons {p b : Nat} {m : MBlk} {l : List (Nat × Nat)} (hd : d b = .mblk m) (hb : m.bid = b)
      (hp : m.prev = p) (hi : m.ctxsz ≤ c.inlineMax → m.ovf = none)
      (ho : c.inlineMax < m.ctxsz → m.ovf ≠ none ∧ Headed d m.ovf) (hn : Listed c d b m.next l) :
      Listed c d p (some b) ((m.typ, b) :: l)

/-- The device `d'` has the links of the device `d`: the same records up to their contents, checksums
and compression flags, and the same overflow headers up to their sizes and the (non-empty) lists of
their data ids.  The super block is one, with any first link; all other blocks are arbitrary. -/
structure SameLinks (ssb : Nat) (d d' : Disk) : Prop where
  ssb : ∃ x, d' ssb = .ssb ssb x
  recs : ∀ b m, d b = .mblk m → ∃ i z k, d' b = .mblk { m with inl := i, compressed := z, crc := k }
  ovf : ∀ b o, d b = .ovf o → ∃ n ps, (o.pieces ≠ [] → ps ≠ []) ∧ d' b = .ovf { o with ctxsz := n, pieces := ps }

end HS.MetaCheck
