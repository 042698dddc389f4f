import Verif.Meta.Model

/-!
# Specification vocabulary for the superblock store

What the environment guarantees (allocator, compression), what each operation means for the set
of records, and the executions: operations, crashes at any block write, restarts (themselves
interrupted by crashes any number of times).
-/
namespace HS.Meta

/-- Bytes the pieces have room for. -/
def room (bs : Nat) (ps : List Piece) : Nat := (ps.map (fun p => p.2 * bs)).sum

/-- The number of data ids leaves no header with one id too few (see `C21_violated`). -/
def GoodCount (M N : Nat) : Prop := N ≤ M ∨ ¬ M ∣ (N - 1)

/-- What the externals and the constants must satisfy. -/
structure Cfg.Ok (c : Cfg) : Prop where
  bs : 0 < c.bs
  maxIds : 0 < c.maxIds
  enc_dec : ∀ x e, c.enc x = some e → c.dec e = x

/-- What the allocator guarantees (C11-C14) about the space for `n` bytes: pieces are
non-empty and have room for `n` bytes rounded up to a block. -/
structure SpaceOk (c : Cfg) (n : Nat) (sp : Space) : Prop where
  pos : ∀ p ∈ sp.pieces, 1 ≤ p.2
  total : room c.bs sp.pieces = (n + c.bs - 1) / c.bs * c.bs
  count : GoodCount c.maxIds sp.pieces.length

/-- Blocks named by a space. -/
def Space.blocks (sp : Space) : List Nat := sp.hdrs ++ sp.pieces.flatMap Piece.blocks

/-- The space handed out for an operation is free, and its blocks are distinct. -/
structure Fresh (u : Nat → Bool) (l : List Nat) : Prop where
  nd : l.Nodup
  free : ∀ b ∈ l, u b = false

/-- The records a client expects after an operation, given those before it. -/
def specOp : Op → List Entry → List Entry
  | .add t x b _, es => es ++ [⟨b, t, x⟩]
  | .upd b x _, es => es.map (fun e => if e.bid = b then { e with content := x } else e)
  | .rem b, es => es.filter (fun e => e.bid ≠ b)

/-- The allocator's part of an operation that stores `content` in the space `sp`, with further
blocks `l`: all blocks distinct and free, and `sp` large enough if the content does not fit inline. -/
def AllocOk (c : Cfg) (s : St) (content : List Byte) (l : List Nat) (sp : Space) : Prop :=
  Fresh s.used (l ++ sp.blocks) ∧
  (c.inlineMax < (stored c content).length → SpaceOk c (stored c content).length sp)

/-- The operation is one a client may issue (its cookie is live), the allocator behaved, and it is
not the removal of the only record (`C23_reuse_violated` shows what happens then). -/
def OpOk (c : Cfg) (s : St) (es : List Entry) : Op → Prop
  | .add _ x b sp => AllocOk c s x [b] sp
  | .upd b x sp => b ∈ es.map Entry.bid ∧ AllocOk c s x [] sp
  | .rem b => b ∈ es.map Entry.bid ∧ 2 ≤ es.length

/-- The restart terminates with result `r` (the loops of the code are unbounded; the model's are
bounded by `fuel`). -/
def Restarts (c : Cfg) (ssb : Nat) (d : Disk) (r : List Entry × St × List Write) : Prop :=
  ∃ n, ∀ fuel, n ≤ fuel → restart c fuel ssb d = some r

/-- `run s d es`: the service is up in state `s`, the device holds `d`, and the client expects the
records `es`.  `down d`: crashed. -/
inductive World where
  | run (s : St) (d : Disk) (es : List Entry)
  | down (d : Disk)

/-- Executions. -/
inductive Reach (c : Cfg) (ssb : Nat) : World → Prop
  /-- Format any device and add the first record. -/
  | boot (d0 : Disk) (t : Nat) (x : List Byte) (b : Nat) (sp : Space) (ws : List Write) (s : St)
      (ho : OpOk c (format ssb).2 [] (.add t x b sp))
      (hp : prog c (format ssb).2 (.add t x b sp) = some (ws, s)) :
      Reach c ssb (.run s (exec (exec d0 (format ssb).1) ws) [⟨b, t, x⟩])
  /-- An operation runs to completion. -/
  | op {s : St} {d : Disk} {es : List Entry} (h : Reach c ssb (.run s d es)) (op : Op)
      (ws : List Write) (s' : St) (ho : OpOk c s es op) (hp : prog c s op = some (ws, s')) :
      Reach c ssb (.run s' (exec d ws) (specOp op es))
  /-- A crash during an operation, after its first `k` block writes. -/
  | crash {s : St} {d : Disk} {es : List Entry} (h : Reach c ssb (.run s d es)) (op : Op)
      (ws : List Write) (s' : St) (k : Nat) (ho : OpOk c s es op) (hp : prog c s op = some (ws, s')) :
      Reach c ssb (.down (exec d (ws.take k)))
  /-- A crash while idle. -/
  | idleCrash {s : St} {d : Disk} {es : List Entry} (h : Reach c ssb (.run s d es)) :
      Reach c ssb (.down d)
  /-- A crash during the restart, after its first `k` block writes. -/
  | crashAgain {d : Disk} {r : List Entry × St × List Write} (h : Reach c ssb (.down d)) (k : Nat)
      (hr : Restarts c ssb d r) : Reach c ssb (.down (exec d (r.2.2.take k)))
  /-- A restart completes; from now on the client expects what was delivered. -/
  | restart {d : Disk} {r : List Entry × St × List Write} (h : Reach c ssb (.down d))
      (hr : Restarts c ssb d r) : Reach c ssb (.run r.2.1 (exec d r.2.2) r.1)

end HS.Meta
