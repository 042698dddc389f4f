import Verif.Stop.Seg
/- Which functions are counted while they touch their objects, and which give back what they take. -/
namespace HS.Stop
open Prog Obj

/-- The calls of clients, and the stops, that are counted on every object they touch for as long as they
touch it. -/
inductive Counted : Prog → Prop
  | devAppend (d : Nat) : Counted (devAppend d done done)
  | devRead (d : Nat) : Counted (devRead d done)
  | devCall (d : Nat) : Counted (devCall d done)
  | flushIfNecessary (d : Nat) : Counted (flushIfNecessary d done)
  | devStop (d : Nat) (ns : List Nat) : Counted (devStop d ns done)
  | storeWriteReq (d n : Nat) : Counted (storeWriteReq d n done done)
  | storeWrite (d n : Nat) : Counted (storeWrite d n done done)
  | storeAppend (d n : Nat) : Counted (storeAppend d n done done)
  | storeWriteAndFlush (d n : Nat) : Counted (storeWriteAndFlush d n done)
  | storeRead (d n : Nat) : Counted (storeReadWith devRead d n done)
  | storeEach (d n m : Nat) : Counted (storeEachWith devRead d n m done)
  | storeCall (d n : Nat) : Counted (storeCall d n done)
  | storeTruncate (d n : Nat) : Counted (storeTruncate d n done)
  | storeRollback (d n : Nat) : Counted (storeRollback d n done)
  | storeStop (d n : Nat) : Counted (storeStop d n done)
  | logsStop (ds : List (Nat × List Nat)) : Counted (logsStop ds done)
  | logsCall : Counted (logsCall done)
  | logsDestroyDev (d : Nat) (ns : List Nat) : Counted (logsDestroyDev d ns done)
  | logsCreateStore (d : Nat) : Counted (logsCreateStore d done)
  | logsRemoveStore (d : Nat) : Counted (logsRemoveStore d done)
  | logsTruncate (ds : List Nat) : Counted (logsTruncate ds done)
  | logsStatus (hs : List (Nat × Nat)) : Counted (logsStatus hs done)
  | dataStop : Counted (dataStop done)
  | dataCall : Counted (dataCall done)
  | dataWriteMany : Counted (dataWriteMany done)
  | dataAllocWrite : Counted (dataAllocWriteWith dataWriteMany done)
  | indexStop (ts : List Nat) : Counted (indexStop ts done)
  | indexCall : Counted (indexCall done)
  | tableStop (t : Nat) : Counted (tableStop t done)
  | tableCall (t : Nat) : Counted (tableCall t done)
  | soloCall (g : Nat) : Counted (soloCall g done)
  | soloWrite (g m : Nat) : Counted (soloWrite g m done)
  | rdevStop (g : Nat) : Counted (rdevStop g done)
  | replStop (gs : List Nat) (ds : List (Nat × List Nat)) : Counted (replStop gs ds done)
  | soloRemove (g d : Nat) (ns : List Nat) : Counted (soloRemove g d ns done)
  | replCall : Counted (replCall done)
  | raftDevCall (g : Nat) : Counted (raftDevCall g done)
  | raftLead (g : Nat) : Counted (raftLead g done)
  | raftMember (g : Nat) : Counted (raftMember g done)
  | raftGc : Counted (raftGc done)

/-- The calls of clients, and the stops, that give back every count they take. -/
inductive Returning : Prog → Prop
  | devAppend (d : Nat) : Returning (devAppend d done done)
  | devRead (d : Nat) : Returning (devReadOk d done)
  | devCall (d : Nat) : Returning (devCall d done)
  | flushIfNecessary (d : Nat) : Returning (flushIfNecessary d done)
  | devStop (d : Nat) (ns : List Nat) : Returning (devStop d ns done)
  | storeWriteReq (d n : Nat) : Returning (storeWriteReq d n done done)
  | storeWrite (d n : Nat) : Returning (storeWrite d n done done)
  | storeAppend (d n : Nat) : Returning (storeAppend d n done done)
  | storeWriteAndFlush (d n : Nat) : Returning (storeWriteAndFlushOk d n done)
  | storeRead (d n : Nat) : Returning (storeReadWith devReadOk d n done)
  | storeEach (d n m : Nat) : Returning (storeEachWith devReadOk d n m done)
  | storeCall (d n : Nat) : Returning (storeCall d n done)
  | storeTruncate (d n : Nat) : Returning (storeTruncate d n done)
  | storeRollback (d n : Nat) : Returning (storeRollback d n done)
  | storeStop (d n : Nat) : Returning (storeStop d n done)
  | logsStop (ds : List (Nat × List Nat)) : Returning (logsStop ds done)
  | logsCall : Returning (logsCall done)
  | logsDestroyDev (d : Nat) (ns : List Nat) : Returning (logsDestroyDevOk d ns done)
  | logsCreateStore (d : Nat) : Returning (logsCreateStore d done)
  | logsRemoveStore (d : Nat) : Returning (logsRemoveStoreOk d done)
  | logsTruncate (ds : List Nat) : Returning (logsTruncate ds done)
  | logsStatus (hs : List (Nat × Nat)) : Returning (logsStatus hs done)
  | dataStop : Returning (dataStop done)
  | dataCall : Returning (dataCall done)
  | dataRead : Returning (dataRead done)
  | dataWrite : Returning (dataWrite done)
  | dataFree : Returning (dataFree done)
  | dataAllocWrite : Returning (dataAllocWriteWith dataWrite done)
  | indexStop (ts : List Nat) : Returning (indexStop ts done)
  | indexCall : Returning (indexCall done)
  | tableStop (t : Nat) : Returning (tableStop t done)
  | tableCall (t : Nat) : Returning (tableCall t done)
  | tableQuery (t : Nat) : Returning (tableQuery t done)
  | soloCall (g : Nat) : Returning (soloCall g done)
  | soloWrite (g m : Nat) : Returning (soloWriteOk g m done)
  | rdevStop (g : Nat) : Returning (rdevStop g done)
  | replStop (gs : List Nat) (ds : List (Nat × List Nat)) : Returning (replStop gs ds done)
  | soloRemove (g d : Nat) (ns : List Nat) : Returning (soloRemove g d ns done)
  | replCall : Returning (replCall done)
  | raftDevCall (g : Nat) : Returning (raftDevCall g done)
  | raftLead (g : Nat) : Returning (raftLead g done)
  | raftMember (g : Nat) : Returning (raftMember g done)
  | raftGc : Returning (raftGc done)

/-- The objects below the replication devices. -/
def below : Obj → Bool
  | repl => false
  | rdev _ => false
  | index => false
  | table _ => false
  | _ => true

/-- The calls on replication devices that give back what they take as long as the log and data services
below are not stopping. -/
inductive Journalling : Prog → Prop
  | soloWriteJournal (g d n : Nat) : Journalling (soloWriteJournal g d n done)
  | soloAllocWrite (g d n : Nat) : Journalling (soloAllocWrite g d n done)

variable {A : Obj → Bool} {X : Obj → Prop}

theorem also_self {x : Obj} : also X x x := .inl rfl

/-! ### Touching -/

theorem s_call (x : Obj) : Seg A X (fun k => test x k (inc x (use x (dec x k)))) :=
  seg_count (inner_seg (seg_use also_self) inner_dec)

theorem s_call2 (x : Obj) :
    Seg A X (fun k => test x k (inc x (use x (alt (dec x k) (dec x k))))) :=
  seg_count (inner_seg (seg_use also_self) (inner_alt inner_dec inner_dec))

theorem s_flushHere (d : Nat) : Seg A X (flushHere d) :=
  seg_count (inner_alt (inner_seg (seg_use also_self) inner_dec) inner_dec)

theorem s_flush (d : Nat) : Seg A X (flushIfNecessary d) :=
  seg_count (inner_alt (inner_seg (seg_fork (s_flushHere d)) inner_dec)
    (inner_alt (inner_seg (seg_use also_self) inner_dec) inner_dec))

theorem i_append (d : Nat) : Inner A X (ldev d)
    (fun k => use (ldev d) (alt (flushIfNecessary d (dec (ldev d) k)) (dec (ldev d) k))) :=
  inner_seg (seg_use also_self) (inner_alt (inner_seg (s_flush d) inner_dec) inner_dec)

theorem s_devAppend (d : Nat) : Seg A X (fun k => devAppend d k k) := seg_count (i_append d)

theorem s_devRead (d : Nat) : Seg A X (devRead d) :=
  seg_count (inner_seg (seg_use also_self) (inner_leak inner_dec))

theorem s_devReadOk (d : Nat) : Seg A X (devReadOk d) := s_call (ldev d)

theorem s_devCall (d : Nat) : Seg A X (devCall d) := s_call2 (ldev d)

theorem s_devTruncate (d : Nat) {c : Obj} (hX : X c) (hc : c ≠ ldev d) :
    Seg A X (devTruncate d c) := by
  refine seg_alt seg_id ?_
  have h := seg_incdec (A := A) (X := X) (x := ldev d) (f := fun k => use c (alt k k))
    (seg_comp (seg_use hX) (seg_alt seg_id seg_id)) (fun k hk => ⟨hc, hk, hk⟩)
  exact h

theorem s_devStop (d : Nat) (ns : List Nat) : Seg A X (devStop d ns) := by
  refine seg_comp (f := stop (ldev d)) seg_stop (seg_comp (f := each ns (storeStop d))
    (seg_each (fun n => seg_stop) ns) ?_)
  exact seg_incdec (f := fun k => k) seg_id (fun k hk => hk)

theorem i_write (d n : Nat) {g : Prog → Prog} (hg : ∀ Y, Seg A Y g) :
    Inner A X (store d n) (fun k => use (store d n) (g (dec (store d n) k))) :=
  inner_seg (seg_use also_self) (inner_seg (hg _) inner_dec)

theorem s_writeReq (d n : Nat) : ∀ X, Seg A X (fun k => storeWriteReq d n k k) := fun _ =>
  seg_count (i_write d n (g := fun k => devAppend d k k) (fun _ => s_devAppend d))

theorem s_write (d n : Nat) : ∀ X, Seg A X (fun k => storeWrite d n k k) := fun _ =>
  seg_count (i_write d n (g := fun k => storeWriteReq d n k k) (s_writeReq d n))

theorem s_append (d n : Nat) : ∀ X, Seg A X (fun k => storeAppend d n k k) := fun _ =>
  seg_count (i_write d n (g := fun k => storeWrite d n k k) (s_write d n))

theorem i_writeAndFlush (d n : Nat) : Inner A X (store d n) (fun k =>
    storeWrite d n (use (store d n) (dec (store d n) k)) (use (store d n) (dec (store d n) k))) :=
  inner_seg (f := fun k => storeWrite d n k k) (s_write d n _)
    (inner_seg (seg_use also_self) inner_dec)

theorem s_writeAndFlush (d n : Nat) : Seg A X (storeWriteAndFlush d n) :=
  seg_count (inner_leak (i_writeAndFlush d n))

theorem s_storeCall (d n : Nat) : Seg A X (storeCall d n) := s_call (store d n)

theorem s_storeRead (rd : Nat → Prog → Prog) (hrd : ∀ d Y, Seg A Y (rd d)) (d n : Nat) :
    Seg A X (storeReadWith rd d n) :=
  seg_count (inner_seg (seg_use also_self) (inner_alt inner_dec
    (inner_alt inner_dec (inner_seg (hrd d _) inner_dec))))

theorem s_storeEach (rd : Nat → Prog → Prog) (hrd : ∀ d Y, Seg A Y (rd d)) (d n m : Nat) :
    Seg A X (storeEachWith rd d n m) := by
  refine seg_count (inner_seg (seg_use also_self) (inner_seg
    (f := each (List.range m) (fun _ k => rd d (use (store d n) (alt (devCall d k) k)))) ?_ inner_dec))
  exact seg_each (fun _ => seg_comp (hrd d _) (seg_comp (seg_use also_self) (seg_alt (s_devCall d) seg_id))) _

theorem s_storeTruncate (d n : Nat) : Seg A X (storeTruncate d n) :=
  seg_count (inner_seg (seg_use also_self) (inner_alt inner_dec
    (inner_seg (s_storeCall d n) (inner_seg (seg_use also_self)
      (inner_seg (s_devTruncate d also_self (by simp)) inner_dec)))))

theorem s_storeRollback (d n : Nat) : Seg A X (storeRollback d n) :=
  seg_count (inner_seg (seg_use also_self) (inner_alt inner_dec
    (inner_seg (s_devCall d) (inner_seg (seg_use also_self) inner_dec))))

theorem s_logsStop (ds : List (Nat × List Nat)) : Seg A X (logsStop ds) :=
  seg_comp (f := stop logs) (g := each ds (fun x => devStop x.1 x.2)) seg_stop
    (seg_each (fun x => s_devStop x.1 x.2) ds)

theorem s_logsDestroyDev (d : Nat) (ns : List Nat) : Seg A X (logsDestroyDev d ns) :=
  seg_count (inner_seg (seg_use also_self) (inner_leak
    (inner_seg (s_devStop d ns) (inner_seg (seg_use also_self) inner_dec))))

theorem s_logsDestroyDevOk (d : Nat) (ns : List Nat) : Seg A X (logsDestroyDevOk d ns) :=
  seg_count (inner_seg (seg_use also_self)
    (inner_seg (s_devStop d ns) (inner_seg (seg_use also_self) inner_dec)))

theorem s_logsCreateStore (d : Nat) : Seg A X (logsCreateStore d) :=
  seg_count (inner_seg (seg_use also_self) (inner_seg (s_devCall d) inner_dec))

theorem s_logsRemoveStore (d : Nat) : Seg A X (logsRemoveStore d) :=
  seg_count (inner_seg (seg_use also_self) (inner_leak (inner_seg (s_devCall d) inner_dec)))

theorem s_logsTruncate (ds : List Nat) : Seg A X (logsTruncate ds) :=
  seg_count (inner_seg (seg_use also_self) (inner_seg (f := each ds (fun d => devTruncate d logs))
    (seg_each (fun d => s_devTruncate d also_self (by simp)) ds) inner_dec))

theorem s_logsStatus (hs : List (Nat × Nat)) : Seg A X (logsStatus hs) :=
  seg_count (inner_seg (seg_use also_self)
    (inner_seg (f := each hs (fun x => storeCall x.1 x.2))
      (seg_each (fun x => s_storeCall x.1 x.2) hs) inner_dec))

theorem s_dataAllocWrite : Seg A X (dataAllocWriteWith dataWriteMany) :=
  seg_count (inner_seg (f := dataCall) (s_call2 data) (inner_alt inner_dec
    (inner_seg (f := dataWriteMany) (s_call data) inner_dec)))

theorem s_indexStop (ts : List Nat) : Seg A X (indexStop ts) :=
  seg_comp (f := stop index) (g := each ts tableStop) seg_stop (seg_each (fun _ => seg_stop) ts)

theorem s_soloWrite (g m : Nat) : Seg A X (soloWrite g m) :=
  seg_count (inner_seg (seg_use also_self) (inner_seg (f := each (List.range m) (fun _ => dataWriteMany))
    (seg_each (fun _ => s_call data) _)
    (inner_leak (inner_fork (f := use (rdev g)) (seg_use also_self)))))

theorem s_replStop (gs : List Nat) (ds : List (Nat × List Nat)) : Seg A X (replStop gs ds) :=
  seg_comp (f := stop repl) seg_stop (seg_comp (f := each gs rdevStop)
    (seg_each (fun _ => seg_stop) gs) (seg_comp (s_logsStop ds) (g := dataStop) seg_stop))

theorem s_soloRemove (g d : Nat) (ns : List Nat) : Seg A X (soloRemove g d ns) :=
  seg_comp (f := stop (rdev g)) seg_stop
    (seg_comp (f := logsRemoveStoreOk d) (s_logsCreateStore d) (s_logsDestroyDevOk d ns))

theorem s_raftLead (g : Nat) : Seg A X (raftLead g) :=
  seg_count (inner_seg (seg_use also_self) (inner_fork (f := use (rdev g)) (seg_use also_self)))

theorem s_raftMember (g : Nat) : Seg A X (raftMember g) :=
  seg_count (inner_seg (seg_use also_self) (inner_alt inner_dec
    (inner_seg (f := raftDevCall g) (s_call2 (rdev g)) (inner_fork (f := use repl) (seg_use also_self)))))

theorem s_raftGc : Seg nobody X raftGc := seg_gc rfl (seg_use also_self)

/-- Every function of the list is put together in this way. -/
theorem counted_seg {p : Prog} (hp : Counted p) : ∃ f, p = f done ∧ Seg nobody none' f := by
  cases hp with
  | devAppend d => exact ⟨fun k => devAppend d k k, rfl, s_devAppend d⟩
  | devRead d => exact ⟨_, rfl, s_devRead d⟩
  | devCall d => exact ⟨_, rfl, s_devCall d⟩
  | flushIfNecessary d => exact ⟨_, rfl, s_flush d⟩
  | devStop d ns => exact ⟨_, rfl, s_devStop d ns⟩
  | storeWriteReq d n => exact ⟨fun k => storeWriteReq d n k k, rfl, s_writeReq d n _⟩
  | storeWrite d n => exact ⟨fun k => storeWrite d n k k, rfl, s_write d n _⟩
  | storeAppend d n => exact ⟨fun k => storeAppend d n k k, rfl, s_append d n _⟩
  | storeWriteAndFlush d n => exact ⟨_, rfl, s_writeAndFlush d n⟩
  | storeRead d n => exact ⟨_, rfl, s_storeRead devRead (fun d _ => s_devRead d) d n⟩
  | storeEach d n m => exact ⟨_, rfl, s_storeEach devRead (fun d _ => s_devRead d) d n m⟩
  | storeCall d n => exact ⟨_, rfl, s_storeCall d n⟩
  | storeTruncate d n => exact ⟨_, rfl, s_storeTruncate d n⟩
  | storeRollback d n => exact ⟨_, rfl, s_storeRollback d n⟩
  | storeStop d n => exact ⟨stop (store d n), rfl, seg_stop⟩
  | logsStop ds => exact ⟨_, rfl, s_logsStop ds⟩
  | logsCall => exact ⟨logsCall, rfl, s_call logs⟩
  | logsDestroyDev d ns => exact ⟨_, rfl, s_logsDestroyDev d ns⟩
  | logsCreateStore d => exact ⟨_, rfl, s_logsCreateStore d⟩
  | logsRemoveStore d => exact ⟨_, rfl, s_logsRemoveStore d⟩
  | logsTruncate ds => exact ⟨_, rfl, s_logsTruncate ds⟩
  | logsStatus hs => exact ⟨_, rfl, s_logsStatus hs⟩
  | dataStop => exact ⟨stop data, rfl, seg_stop⟩
  | dataCall => exact ⟨dataCall, rfl, s_call2 data⟩
  | dataWriteMany => exact ⟨dataWriteMany, rfl, s_call data⟩
  | dataAllocWrite => exact ⟨_, rfl, s_dataAllocWrite⟩
  | indexStop ts => exact ⟨_, rfl, s_indexStop ts⟩
  | indexCall => exact ⟨indexCall, rfl, s_call2 index⟩
  | tableStop t => exact ⟨stop (table t), rfl, seg_stop⟩
  | tableCall t => exact ⟨tableCall t, rfl, s_call (table t)⟩
  | soloCall g => exact ⟨soloCall g, rfl, s_call2 (rdev g)⟩
  | soloWrite g m => exact ⟨_, rfl, s_soloWrite g m⟩
  | rdevStop g => exact ⟨stop (rdev g), rfl, seg_stop⟩
  | replStop gs ds => exact ⟨_, rfl, s_replStop gs ds⟩
  | soloRemove g d ns => exact ⟨_, rfl, s_soloRemove g d ns⟩
  | replCall => exact ⟨replCall, rfl, s_call2 repl⟩
  | raftDevCall g => exact ⟨raftDevCall g, rfl, s_call2 (rdev g)⟩
  | raftLead g => exact ⟨_, rfl, s_raftLead g⟩
  | raftMember g => exact ⟨_, rfl, s_raftMember g⟩
  | raftGc => exact ⟨_, rfl, s_raftGc⟩

/-! ### Giving back -/

variable {r : Nat}

theorem b_call (x : Obj) : BSeg A r (fun k => test x k (inc x (use x (dec x k)))) :=
  bseg_count (binner_any (fun _ => bseg_use) binner_dec)

theorem b_call2 (x : Obj) : BSeg A r (fun k => test x k (inc x (use x (alt (dec x k) (dec x k))))) :=
  bseg_count (binner_any (fun _ => bseg_use) (binner_alt binner_dec binner_dec))

theorem b_flushHere (d : Nat) : BSeg A r (flushHere d) :=
  bseg_count (binner_alt (binner_any (fun _ => bseg_use) binner_dec) binner_dec)

theorem b_flush (d : Nat) : BSeg A r (flushIfNecessary d) :=
  bseg_count (binner_alt (binner_any (f := fun k => fork (flushHere d done) k)
      (fun _ => bseg_fork (q := 0) (b_flushHere d)) binner_dec)
    (binner_alt (binner_any (fun _ => bseg_use) binner_dec) binner_dec))

theorem bi_append (d : Nat) : BInner A r (ldev d)
    (fun k => use (ldev d) (alt (flushIfNecessary d (dec (ldev d) k)) (dec (ldev d) k))) :=
  binner_any (fun _ => bseg_use)
    (binner_alt (binner_any (fun _ => b_flush d) binner_dec) binner_dec)

theorem b_devAppend (d : Nat) : BSeg A r (fun k => devAppend d k k) := bseg_count (bi_append d)

theorem b_devReadOk (d : Nat) : BSeg A r (devReadOk d) := b_call (ldev d)

theorem b_devCall (d : Nat) : BSeg A r (devCall d) := b_call2 (ldev d)

theorem b_devTruncate (d : Nat) (c : Obj) : BSeg A r (devTruncate d c) :=
  bseg_alt bseg_id (bseg_inc (binner_any (fun _ => bseg_use) (binner_alt binner_dec binner_dec)))

theorem b_devStop (d : Nat) (ns : List Nat) (hr : r ≤ 3) : BSeg A r (devStop d ns) :=
  bseg_comp (f := stop (ldev d)) (bseg_stop hr) (bseg_comp (f := each ns (storeStop d))
    (bseg_each (fun n => bseg_stop (show r ≤ 4 by omega)) ns) (bseg_inc binner_dec))

theorem bi_write (d n : Nat) {g : Prog → Prog} (hg : ∀ q, BSeg A q g) :
    BInner A r (store d n) (fun k => use (store d n) (g (dec (store d n) k))) :=
  binner_any (fun _ => bseg_use) (binner_any hg binner_dec)

theorem b_writeReq (d n : Nat) : ∀ r, BSeg A r (fun k => storeWriteReq d n k k) := fun _ =>
  bseg_count (bi_write d n (g := fun k => devAppend d k k) (fun _ => b_devAppend d))

theorem b_write (d n : Nat) : ∀ r, BSeg A r (fun k => storeWrite d n k k) := fun _ =>
  bseg_count (bi_write d n (g := fun k => storeWriteReq d n k k) (b_writeReq d n))

theorem b_append (d n : Nat) : ∀ r, BSeg A r (fun k => storeAppend d n k k) := fun _ =>
  bseg_count (bi_write d n (g := fun k => storeWrite d n k k) (b_write d n))

theorem b_writeAndFlushOk (d n : Nat) : BSeg A r (storeWriteAndFlushOk d n) :=
  bseg_count (binner_any (f := fun k => storeWrite d n k k) (b_write d n)
    (binner_any (fun _ => bseg_use) binner_dec))

theorem b_storeCall (d n : Nat) : BSeg A r (storeCall d n) := b_call (store d n)

theorem b_storeRead (d n : Nat) : BSeg A r (storeReadWith devReadOk d n) :=
  bseg_count (binner_any (fun _ => bseg_use) (binner_alt binner_dec
    (binner_alt binner_dec (binner_any (fun _ => b_devReadOk d) binner_dec))))

theorem b_storeEach (d n m : Nat) : BSeg A r (storeEachWith devReadOk d n m) :=
  bseg_count (binner_any (fun _ => bseg_use) (binner_any
    (f := each (List.range m) (fun _ k => devReadOk d (use (store d n) (alt (devCall d k) k))))
    (fun _ => bseg_each (fun _ => bseg_comp (b_devReadOk d) (bseg_comp bseg_use (bseg_alt (b_devCall d) bseg_id))) _)
    binner_dec))

theorem b_storeTruncate (d n : Nat) : BSeg A r (storeTruncate d n) :=
  bseg_count (binner_any (fun _ => bseg_use) (binner_alt binner_dec
    (binner_any (fun _ => b_storeCall d n) (binner_any (fun _ => bseg_use)
      (binner_any (fun _ => b_devTruncate d _) binner_dec)))))

theorem b_storeRollback (d n : Nat) : BSeg A r (storeRollback d n) :=
  bseg_count (binner_any (fun _ => bseg_use) (binner_alt binner_dec
    (binner_any (fun _ => b_devCall d) (binner_any (fun _ => bseg_use) binner_dec))))

theorem b_logsStop (ds : List (Nat × List Nat)) (hr : r ≤ 2) : BSeg A r (logsStop ds) :=
  bseg_comp (f := stop logs) (g := each ds (fun x => devStop x.1 x.2)) (bseg_stop hr)
    (bseg_each (fun x => b_devStop x.1 x.2 (by omega)) ds)

theorem b_logsDestroyDevOk (d : Nat) (ns : List Nat) (hr : r ≤ 3) : BSeg A r (logsDestroyDevOk d ns) :=
  bseg_count (binner_any (fun _ => bseg_use) (binner_seg (b_devStop d ns (Nat.le_refl 3))
    (binner_any (fun _ => bseg_use) binner_dec) (by decide) hr))

theorem b_logsCreateStore (d : Nat) : BSeg A r (logsCreateStore d) :=
  bseg_count (binner_any (fun _ => bseg_use) (binner_any (fun _ => b_devCall d) binner_dec))

theorem b_logsTruncate (ds : List Nat) : BSeg A r (logsTruncate ds) :=
  bseg_count (binner_any (fun _ => bseg_use) (binner_any (f := each ds (fun d => devTruncate d logs))
    (fun _ => bseg_each (fun d => b_devTruncate d _) ds) binner_dec))

theorem b_logsStatus (hs : List (Nat × Nat)) : BSeg A r (logsStatus hs) :=
  bseg_count (binner_any (fun _ => bseg_use)
    (binner_any (f := each hs (fun x => storeCall x.1 x.2))
      (fun _ => bseg_each (fun x => b_storeCall x.1 x.2) hs) binner_dec))

theorem b_dataRead : BSeg A r dataRead :=
  bseg_count (g := fun k => alt (dec data (use data (fork (use data done) k)))
      (use data (fork (use data done) (dec data k))))
    (binner_alt (f := fun k => dec data (use data (fork (use data done) k)))
      ⟨fun o k => by simp only [owed]; split <;> omega, fun o k => by simp only [back]; split <;> omega,
        fun k ho _ => ⟨trivial, ho⟩⟩
      (binner_any (fun _ => bseg_use) (binner_any (f := fun k => fork (use data done) k)
        (fun _ => bseg_fork (q := 0) (f := use data) bseg_use) binner_dec)))

theorem b_dataWrite : BSeg A r dataWrite :=
  bseg_count (g := fun k => alt (dec data (use data k)) (use data (dec data k)))
    (binner_alt (f := fun k => dec data (use data k))
      ⟨fun o k => by simp only [owed]; split <;> omega, fun o k => by simp only [back]; split <;> omega,
        fun k ho _ => ho⟩
      (binner_any (fun _ => bseg_use) binner_dec))

theorem b_dataFree : BSeg A r dataFree :=
  bseg_count (binner_any (fun _ => bseg_use) (binner_alt binner_dec
    (binner_alt (binner_any (fun _ => bseg_use) binner_dec)
      (binner_any (f := fun k => fork (use data done) k)
        (fun _ => bseg_fork (q := 0) (f := use data) bseg_use) binner_dec))))

theorem b_dataAllocWrite (wr : Prog → Prog) (hwr : ∀ q, BSeg A q wr) :
    BSeg A r (dataAllocWriteWith wr) :=
  bseg_count (binner_any (f := dataCall) (fun _ => b_call2 data) (binner_alt binner_dec
    (binner_any hwr binner_dec)))

theorem b_indexStop (ts : List Nat) (hr : r ≤ 2) : BSeg A r (indexStop ts) :=
  bseg_comp (f := stop index) (g := each ts tableStop) (bseg_stop hr)
    (bseg_each (fun _ => bseg_stop (show r ≤ 3 by omega)) ts)

theorem b_soloWriteOk (g m : Nat) : BSeg A r (soloWriteOk g m) :=
  bseg_count (binner_any (fun _ => bseg_use)
    (binner_any (f := each (List.range m) (fun _ => dataWriteMany))
      (fun _ => bseg_each (fun _ => b_call data) _)
      (binner_fork (f := use (rdev g)) (fun _ => bseg_use))))

theorem b_replStop (gs : List Nat) (ds : List (Nat × List Nat)) : BSeg A 0 (replStop gs ds) :=
  bseg_comp (f := stop repl) (bseg_stop (Nat.zero_le _)) (bseg_comp (f := each gs rdevStop)
    (bseg_each (fun _ => bseg_stop (Nat.zero_le _)) gs)
    (bseg_comp (b_logsStop ds (Nat.zero_le _)) (g := dataStop) (bseg_stop (Nat.zero_le _))))

theorem b_soloRemove (g d : Nat) (ns : List Nat) : BSeg A 0 (soloRemove g d ns) :=
  bseg_comp (f := stop (rdev g)) (bseg_stop (Nat.zero_le _))
    (bseg_comp (f := logsRemoveStoreOk d) (b_logsCreateStore d)
      (b_logsDestroyDevOk d ns (Nat.zero_le _)))

theorem b_raftLead (g : Nat) : BSeg A r (raftLead g) :=
  bseg_count (binner_any (fun _ => bseg_use) (binner_fork (f := use (rdev g)) (fun _ => bseg_use)))

theorem b_raftMember (g : Nat) : BSeg A r (raftMember g) :=
  bseg_count (binner_any (fun _ => bseg_use) (binner_alt binner_dec
    (binner_any (f := raftDevCall g) (fun _ => b_call2 (rdev g))
      (binner_fork (f := use repl) (fun _ => bseg_use)))))

theorem b_raftGc : BSeg A r raftGc :=
  bseg_inc (binner_test binner_dec (binner_any (fun _ => bseg_use) binner_dec))

/-- Every function of the list is put together in this way. -/
theorem returning_bseg {p : Prog} (hp : Returning p) : ∃ f, p = f done ∧ BSeg A 0 f := by
  cases hp with
  | devAppend d => exact ⟨fun k => devAppend d k k, rfl, b_devAppend d⟩
  | devRead d => exact ⟨_, rfl, b_devReadOk d⟩
  | devCall d => exact ⟨_, rfl, b_devCall d⟩
  | flushIfNecessary d => exact ⟨_, rfl, b_flush d⟩
  | devStop d ns => exact ⟨_, rfl, b_devStop d ns (Nat.zero_le _)⟩
  | storeWriteReq d n => exact ⟨fun k => storeWriteReq d n k k, rfl, b_writeReq d n _⟩
  | storeWrite d n => exact ⟨fun k => storeWrite d n k k, rfl, b_write d n _⟩
  | storeAppend d n => exact ⟨fun k => storeAppend d n k k, rfl, b_append d n _⟩
  | storeWriteAndFlush d n => exact ⟨_, rfl, b_writeAndFlushOk d n⟩
  | storeRead d n => exact ⟨_, rfl, b_storeRead d n⟩
  | storeEach d n m => exact ⟨_, rfl, b_storeEach d n m⟩
  | storeCall d n => exact ⟨_, rfl, b_storeCall d n⟩
  | storeTruncate d n => exact ⟨_, rfl, b_storeTruncate d n⟩
  | storeRollback d n => exact ⟨_, rfl, b_storeRollback d n⟩
  | storeStop d n => exact ⟨stop (store d n), rfl, bseg_stop (Nat.zero_le _)⟩
  | logsStop ds => exact ⟨_, rfl, b_logsStop ds (Nat.zero_le _)⟩
  | logsCall => exact ⟨logsCall, rfl, b_call logs⟩
  | logsDestroyDev d ns => exact ⟨_, rfl, b_logsDestroyDevOk d ns (Nat.zero_le _)⟩
  | logsCreateStore d => exact ⟨_, rfl, b_logsCreateStore d⟩
  | logsRemoveStore d => exact ⟨logsRemoveStoreOk d, rfl, b_logsCreateStore d⟩
  | logsTruncate ds => exact ⟨_, rfl, b_logsTruncate ds⟩
  | logsStatus hs => exact ⟨_, rfl, b_logsStatus hs⟩
  | dataStop => exact ⟨stop data, rfl, bseg_stop (Nat.zero_le _)⟩
  | dataCall => exact ⟨dataCall, rfl, b_call2 data⟩
  | dataRead => exact ⟨_, rfl, b_dataRead⟩
  | dataWrite => exact ⟨_, rfl, b_dataWrite⟩
  | dataFree => exact ⟨_, rfl, b_dataFree⟩
  | dataAllocWrite => exact ⟨_, rfl, b_dataAllocWrite _ (fun _ => b_dataWrite)⟩
  | indexStop ts => exact ⟨_, rfl, b_indexStop ts (Nat.zero_le _)⟩
  | indexCall => exact ⟨indexCall, rfl, b_call2 index⟩
  | tableStop t => exact ⟨stop (table t), rfl, bseg_stop (Nat.zero_le _)⟩
  | tableCall t => exact ⟨tableCall t, rfl, b_call (table t)⟩
  | tableQuery t => exact ⟨tableQuery t, rfl, bseg_use⟩
  | soloCall g => exact ⟨soloCall g, rfl, b_call2 (rdev g)⟩
  | soloWrite g m => exact ⟨_, rfl, b_soloWriteOk g m⟩
  | rdevStop g => exact ⟨stop (rdev g), rfl, bseg_stop (Nat.zero_le _)⟩
  | replStop gs ds => exact ⟨_, rfl, b_replStop gs ds⟩
  | soloRemove g d ns => exact ⟨_, rfl, b_soloRemove g d ns⟩
  | replCall => exact ⟨replCall, rfl, b_call2 repl⟩
  | raftDevCall g => exact ⟨raftDevCall g, rfl, b_call2 (rdev g)⟩
  | raftLead g => exact ⟨_, rfl, b_raftLead g⟩
  | raftMember g => exact ⟨_, rfl, b_raftMember g⟩
  | raftGc => exact ⟨_, rfl, b_raftGc⟩

theorem returning_counts {p : Prog} (hp : Returning p) (A : Obj → Bool) :
    (∀ o, owed A o p = 0) ∧ (∀ o, back A o p = 0) ∧ Ord A p := by
  obtain ⟨f, rfl, hf⟩ := returning_bseg (A := A) hp
  refine ⟨fun o => by rw [hf.owed_eq]; rfl, fun o => by rw [hf.back_eq]; rfl, ?_⟩
  exact hf.ord done trivial (by intro o h; simp [back] at h)

/-! ### Appends to a journal below which nothing is stopping -/

theorem a_devAppend (d : Nat) : ASeg below (devAppend d) where
  owed_eq o r k := by
    have := (b_devAppend (A := below) (r := 0) d).owed_eq o k
    simp only [devAppend, owed, below, if_true] at this ⊢
    exact this
  back_eq o r k := by
    have := (b_devAppend (A := below) (r := 0) d).back_eq o k
    simp only [devAppend, back, below, if_true] at this ⊢
    exact this
  ord r k ho := by
    have := (b_devAppend (A := below) (r := 6) d).ord k ho
      (by intro o _; cases o <;> simp [rank])
    simp only [devAppend, Ord, below, if_true] at this ⊢
    exact this

theorem a_storeAppend (d n : Nat) : ASeg below (storeAppend d n) :=
  aseg_count (f := storeWrite d n) rfl
    (aseg_count (f := storeWriteReq d n) rfl
      (aseg_count (f := devAppend d) rfl (a_devAppend d) (dec (store d n))) (dec (store d n)))
    (dec (store d n))

theorem bi_soloJournal (g d n : Nat) : BInner below r (rdev g) (soloJournal g d n) := by
  have h : BInner below r (rdev g)
      (fun k => fork (use (rdev g) (dataCall (dec (rdev g) done))) k) :=
    binner_fork (f := fun k => use (rdev g) (dataCall k))
      (fun _ => bseg_comp bseg_use (g := dataCall) (b_call2 data))
  have ha := a_storeAppend d n
  refine ⟨fun o k => ?_, fun o k => ?_, fun k ho hr => ?_⟩
  · rw [soloJournal, owed, ha.owed_eq]; exact h.owed_eq o k
  · rw [soloJournal, back, ha.back_eq]; exact h.back_eq o k
  · exact ha.ord _ _ (h.ord k ho hr)

theorem journalling_bseg {p : Prog} (hp : Journalling p) : ∃ f, p = f done ∧ BSeg below 0 f := by
  cases hp with
  | soloWriteJournal g d n => exact ⟨_, rfl, bseg_count (bi_soloJournal g d n)⟩
  | soloAllocWrite g d n =>
    refine ⟨_, rfl, bseg_inc (binner_any (fun _ => bseg_use) (binner_alt (bi_soloJournal g d n)
      (binner_any (f := dataWriteMany) (fun _ => b_call data) ?_)))⟩
    have h := bi_soloJournal (r := 0) g d n
    refine ⟨fun o k => ?_, fun o k => ?_, fun k ho hr => ⟨h.ord done trivial ?_, ho⟩⟩
    · simp only [owed, h.owed_eq]; omega
    · simp only [back, h.back_eq]; omega
    · intro o hb; simp [back] at hb

theorem journalling_counts {p : Prog} (hp : Journalling p) :
    (∀ o, owed below o p = 0) ∧ (∀ o, back below o p = 0) ∧ Ord below p := by
  obtain ⟨f, rfl, hf⟩ := journalling_bseg hp
  refine ⟨fun o => by rw [hf.owed_eq]; rfl, fun o => by rw [hf.back_eq]; rfl, ?_⟩
  exact hf.ord done trivial (by intro o h; simp [back] at h)

/-! ### No call gives back what it has not taken -/

theorem counted_owed {p : Prog} (hp : Counted p) (o : Obj) : owed nobody o p = 0 := by
  obtain ⟨f, rfl, hf⟩ := counted_seg hp
  rw [hf.owed_eq]; rfl

theorem owed_append (d n : Nat) (o : Obj) (r k : Prog) (m : Int) (hr : owed nobody o r ≤ m)
    (hk : owed nobody o k ≤ m) : owed nobody o (storeAppend d n r k) ≤ m := by
  have hn := owed_nonneg nobody o r
  have hn' := owed_nonneg nobody o k
  simp only [storeAppend, storeWrite, storeWriteReq, devAppend, owed, nobody, Bool.false_eq_true,
    if_false, (b_flush (A := nobody) (r := 0) d).owed_eq] at *
  by_cases h1 : store d n = o
  · subst h1; simp only [if_true, reduceCtorEq, if_false] at *; omega
  · by_cases h2 : ldev d = o
    · subst h2; simp only [if_true, reduceCtorEq, if_false] at *; omega
    · simp only [h1, h2, if_false] at *; omega

theorem owed_soloJournal (g d n : Nat) (o : Obj) (k : Prog) :
    owed nobody o (soloJournal g d n k) ≤ owed nobody o k + if rdev g = o then 1 else 0 := by
  rw [soloJournal, owed]
  have hn := owed_nonneg nobody o k
  refine owed_append d n o _ _ _ (by split <;> omega) ?_
  have e : dataCall = (fun k => test data k (inc data (use data (alt (dec data k) (dec data k))))) := rfl
  simp only [owed, e, (b_call2 (A := nobody) (r := 0) data).owed_eq]
  split <;> omega

theorem journalling_owed {p : Prog} (hp : Journalling p) (o : Obj) : owed nobody o p = 0 := by
  cases hp with
  | soloWriteJournal g d n =>
    have h := owed_soloJournal g d n o done
    have hn := owed_nonneg nobody o (soloJournal g d n done)
    simp only [soloWriteJournal, owed, nobody, Bool.false_eq_true, if_false] at *
    split <;> simp_all <;> omega
  | soloAllocWrite g d n =>
    have h := owed_soloJournal g d n o done
    have hn := owed_nonneg nobody o (soloJournal g d n done)
    have e : dataWriteMany = (fun k => test data k (inc data (use data (dec data k)))) := rfl
    simp only [soloAllocWrite, owed, e, (b_call (A := nobody) (r := 0) data).owed_eq] at *
    split <;> simp_all <;> omega

/-! ### No function begins by waiting -/

theorem plain_each {α : Type} {f : α → Prog → Prog} (hf : ∀ a k, Plain k → Plain (f a k)) (l : List α)
    {k : Prog} (hk : Plain k) : Plain (each l f k) := by
  induction l with
  | nil => exact hk
  | cons a l ih => exact hf a _ ih

theorem plain_devStop (d : Nat) (ns : List Nat) {k : Prog} (hk : Plain k) : Plain (devStop d ns k) :=
  plain_each (f := storeStop d) (fun _ _ h => h) ns hk

theorem plain_logsStop (ds : List (Nat × List Nat)) {k : Prog} (hk : Plain k) : Plain (logsStop ds k) := by
  show Plain (each ds (fun x => devStop x.1 x.2) k)
  exact plain_each (fun x _ h => plain_devStop x.1 x.2 h) ds hk

theorem counted_plain {p : Prog} (hp : Counted p) : Plain p := by
  cases hp
  case devStop d ns => exact plain_devStop d ns trivial
  case storeEach d n m =>
    refine ⟨trivial, plain_each (f := fun _ k => devRead d (use (store d n) (alt (devCall d k) k)))
      (fun _ k hk => ?_) _ (k := dec (store d n) done) trivial⟩
    simp [devRead, devCall, Plain, hk]
  case logsStop ds => exact plain_logsStop ds trivial
  case logsDestroyDev d ns => exact ⟨trivial, trivial, plain_devStop d ns trivial⟩
  case logsTruncate ds =>
    refine ⟨trivial, plain_each (f := fun d => devTruncate d logs) (fun d k hk => ?_) ds
      (k := dec logs done) trivial⟩
    simp [devTruncate, Plain, hk]
  case logsStatus hs =>
    refine ⟨trivial, plain_each (f := fun (x : Nat × Nat) => storeCall x.1 x.2) (fun d k hk => ?_) hs
      (k := dec logs done) trivial⟩
    simp [storeCall, Plain, hk]
  case indexStop ts =>
    exact plain_each (f := tableStop) (fun _ _ h => h) ts (k := done) trivial
  case soloWrite g m =>
    refine ⟨trivial, plain_each (f := fun _ => dataWriteMany) (fun d k hk => ?_) _
      ⟨trivial, trivial, trivial⟩⟩
    simp [dataWriteMany, Plain, hk]
  case replStop gs ds =>
    exact plain_each (f := rdevStop) (fun _ _ h => h) gs (plain_logsStop ds trivial)
  case soloRemove g d ns =>
    have h : Plain (logsDestroyDevOk d ns done) := ⟨trivial, plain_devStop d ns trivial⟩
    exact ⟨h, h, h, h⟩
  all_goals (simp [Plain, devAppend, flushIfNecessary, flushHere, devRead, devCall, storeWriteReq,
    storeWrite, storeAppend, storeWriteAndFlush, storeReadWith, storeCall, storeTruncate, devTruncate,
    storeRollback, storeStop, logsCall, logsCreateStore, logsRemoveStore, dataStop, dataCall,
    dataWriteMany, dataAllocWriteWith, indexCall, tableStop, tableCall, soloCall, rdevStop, replCall,
    raftDevCall, raftLead, raftMember, raftGc])

end HS.Stop
