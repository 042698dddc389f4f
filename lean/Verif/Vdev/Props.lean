import Verif.Vdev.Lemmas
import Verif.Vdev.Exec
import Verif.Vdev.Reuse
/-!
# Properties of block commit, deferred free and checkpoint flush (C09, C10, C15)

Executions start from a fresh chunk and may contain any number of crashes (`Act.crash`) at any
point.  The history variables used in the statements (`com`, `own`, `late`, `snap`, `durable`) are
described in `Verif.Vdev.Model`; no branch of `step` that models code reads them, except for the
client obligations (commit what you allocated, free what you own).
-/
namespace HS.Vdev

/-- Every interleaving, with no restriction. -/
def anything (_ : St) (_ : Act) : Prop := True

/-! ## C09 -/

/-- **C09** partial: after any execution, with crashes anywhere, a block that was committed and not
freed as of the last completed checkpoint is marked in the persisted bitmap; after a restart it is
marked used and cannot be allocated again.
Missing: the converse for freed blocks (`C09_frees_not_persisted_violated`) and executions with
immediate frees that race with a flush (`noRacyFree`, see `C10_racy_free_violated`). -/
theorem C09_durable_partial (as : List Act) (s : St) (h : Exec noRacyFree init as s) (x : Blk)
    (hx : s.durable x = true) :
    s.disk x = true ∧
    ∀ s', step s .crash = some s' → s'.bm x = true ∧ s'.com x = true ∧ step s' (.alloc x) = none := by
  have hi := inv_exec h
  have hd := hi.durDisk x hx
  refine ⟨hd, ?_⟩
  intro s' hs
  simp only [step, Option.some.injEq] at hs
  subst hs
  simp [step, hd]

/-- **C09** partial: the image a flush takes of the bitmap marks exactly the blocks that are
committed and not freed at that point, leaving out the commits that began after the flush ordered
its snapshot.  `write` then makes this very image the persisted bitmap. -/
theorem C09_image_exact_partial (as : List Act) (s s' : St) (h : Exec noRacyFree init as s)
    (hw : waitOk s .sync1) (hs : step s .sync1 = some s') :
    ∃ i, s'.phase = .img i ∧ (∀ x, i x = true ↔ (s.com x = true ∧ s.late x = false)) ∧
      ∀ s1 s2, s1.phase = .img i → step s1 .write = some s2 → s2.disk = i := by
  have hi := inv_exec h
  simp only [step] at hs
  split at hs
  rotate_left
  · simp at hs
  rename_i hp
  simp only [Option.some.injEq] at hs
  subst hs
  refine ⟨s.bm, rfl, ?_, ?_⟩
  · intro x
    have hin : s.initializing = false := by
      cases hc : s.initializing with
      | false => rfl
      | true => have := hi.initIdle hc; rw [hp] at this; cases this
    have hl : s.phase.listy = true := by rw [hp]; rfl
    have hR : s.phase.todoR = [] := by rw [hp]; rfl
    constructor
    · intro hb
      have hcom : s.com x = true := by
        rcases hi.bmCom x hb with h1 | h1
        · exact h1
        · obtain ⟨t, sc, h2, h3⟩ := hi.secEx x h1
          have h4 := hw t sc h2
          have h5 := (hi.secTodo t sc h2).2.2.2 h4
          have h6 := hi.todoBm hin t sc h2 x (by rw [h5]; exact h3)
          rw [hb] at h6; cases h6
      refine ⟨hcom, ?_⟩
      cases hlt : s.late x with
      | false => rfl
      | true =>
        have h1 := hi.L x (hi.lateL hl x hlt hcom)
        rw [hb] at h1; cases h1.2.1
    · rintro ⟨hc, hlt⟩
      rcases hi.J x hc with h1 | h1 | h1
      · exact h1
      · have := (hi.L x h1).2.2.1; rw [hlt] at this; cases this
      · rw [hR] at h1; cases h1
  · intro s1 s2 h1 h2
    simp only [step, h1, Option.some.injEq] at h2
    subst h2; rfl

/-- A full checkpoint with nothing racing. -/
def ckpt (nfree : Nat) : List Act :=
  [.switchover, .flushStart, .acquire, .sync1, .write, .clear, .release, .sync2, .replay] ++
  List.replicate nfree .doFree ++ [.flushDone]

/-- A checkpoint that finds the bitmap clean. -/
def ckptClean (nfree : Nat) : List Act :=
  [.switchover, .flushStart, .acquire] ++ List.replicate nfree .doFree ++ [.flushDone]

/-- Witness: commit block 5, checkpoint, request the free of block 5, checkpoint three times, crash. -/
def lostFree : List Act :=
  [.alloc 5, .commitBegin 0 [5], .commitStep 0, .commitStep 0] ++ ckpt 0 ++
  [.freeReq 5 false] ++ ckptClean 1 ++ ckptClean 0 ++ ckptClean 0

/-- **C09** is violated as stated: `free_on_disk` does not set the dirty flag, so after a commit, a
checkpoint, a free and three more completed checkpoints with no other commit, the persisted bitmap
still marks the freed block; a restart finds it allocated. -/
theorem C09_frees_not_persisted_violated :
    ∃ s s', Exec anything init lostFree s ∧ s.phase = .idle ∧ s.own 5 = .free ∧ s.durable 5 = false ∧
      s.disk 5 = true ∧ step s .crash = some s' ∧ step s' (.alloc 5) = none ∧ s'.own 5 = .live := by
  have hr : ∃ s, runB 1 (fun _ _ => true) init lostFree = some s ∧ s.phase = .idle ∧ s.own 5 = .free ∧
      s.durable 5 = false ∧ s.disk 5 = true := ⟨_, rfl, rfl, rfl, rfl, rfl⟩
  obtain ⟨s, h1, h2, h3, h4, h5⟩ := hr
  refine ⟨s, _, exec_of_runB (n := 1) (fun _ _ _ => trivial) _ _ _ (fun _ _ => rfl) h1, h2, h3, h4, h5, rfl, ?_, ?_⟩
  · simp [step, h5]
  · simp [h5]

/-- Non-vacuity of `C09_durable_partial`: two commits (one of two pieces, one racing with the flush),
a completed checkpoint, then block 5 is durable. -/
def busyFlush : List Act :=
  [.alloc 5, .alloc 6, .alloc 7, .commitBegin 0 [5, 6], .commitStep 0, .commitStep 0, .commitStep 0,
   .freeReq 6 false, .switchover, .flushStart, .acquire, .commitBegin 1 [7], .sync1, .commitStep 1,
   .write, .clear, .release, .sync2, .replay, .replay, .doFree, .flushDone]

def okFree (s : St) : Act → Bool
  | .freeNow x => ! s.late x
  | _ => true

theorem okFree_ok (s : St) (a : Act) (h : okFree s a = true) : noRacyFree s a := by
  cases a <;> simp_all [okFree, noRacyFree]

example : ∃ s, Exec noRacyFree init busyFlush s ∧ s.durable 5 = true ∧ s.bm 7 = true ∧ s.disk 7 = false := by
  have hr : ∃ s, runB 2 okFree init busyFlush = some s ∧ s.durable 5 = true ∧ s.bm 7 = true ∧ s.disk 7 = false :=
    ⟨_, rfl, rfl, rfl, rfl⟩
  obtain ⟨s, h1, h2⟩ := hr
  exact ⟨s, exec_of_runB (n := 2) okFree_ok _ _ _ (fun _ _ => rfl) h1, h2⟩

/-- Non-vacuity of `C09_image_exact_partial`: `sync1` is reached with a commit in flight. -/
example : ∃ s s', Exec noRacyFree init (busyFlush.take 12) s ∧ waitOk s .sync1 ∧
    step s .sync1 = some s' ∧ s.com 5 = true ∧ s.late 7 = true := by
  have hr : ∃ s s', runB 2 okFree init (busyFlush.take 12) = some s ∧
      runB 2 okFree init (busyFlush.take 12 ++ [.sync1]) = some s' ∧ step s .sync1 = some s' ∧
      s.com 5 = true ∧ s.late 7 = true := ⟨_, _, rfl, rfl, rfl, rfl, rfl⟩
  obtain ⟨s, s', h1, h2, h3, h4, h5⟩ := hr
  have h6 := exec_of_runB (n := 2) okFree_ok _ _ _ (fun _ _ => rfl) h1
  have h7 := exec_of_runB (n := 2) okFree_ok _ _ _ (fun _ _ => rfl) h2
  obtain ⟨m, h8, h9⟩ := h7.split
  have hm : m = s := h8.det h6
  subst hm
  cases h9 with
  | cons _ hw hs hn => exact ⟨m, _, h6, hw, h3, h4, h5⟩

/-! ## C10 -/

/-- **C10** partial: under any interleaving of commits, deferred frees, checkpoint phases and crashes
the flush does not abort.  Missing: immediate frees of blocks committed during the flush
(`C10_racy_free_violated`). -/
theorem C10_no_abort_partial (as : List Act) (s : St) (h : Exec noRacyFree init as s) :
    s.aborted = false := (inv_exec h).noabort

/-- **C10** partial: a block whose commit began after the flush ordered its snapshot is not in the
image; a multi-piece commit that is in the image is there with all its pieces (none is torn). -/
theorem C10_not_in_image_partial (as : List Act) (s s' : St) (h : Exec noRacyFree init as s)
    (hw : waitOk s .sync1) (hs : step s .sync1 = some s') :
    ∃ i, s'.phase = .img i ∧ (∀ x, s.late x = true → i x = false) ∧
      (∀ t sc, s.sec t = some sc → ∀ x ∈ sc.all, i x = false) := by
  obtain ⟨i, h1, h2, _⟩ := C09_image_exact_partial as s s' h hw hs
  refine ⟨i, h1, ?_, ?_⟩
  · intro x hx
    cases hi : i x with
    | false => rfl
    | true => have := (h2 x).1 hi; rw [hx] at this; cases this.2
  · intro t sc hsc x hx
    cases hi : i x with
    | false => rfl
    | true =>
      have h3 := (h2 x).1 hi
      have h4 := (inv_exec h).secList t sc hsc (hw t sc hsc)
      rw [h4.2 x hx] at h3; cases h3.2

/-- **C10** partial: once the flush of the bitmap has finished (and whenever none is running) the live
bitmap marks every block whose commit has returned and that has not been freed, and nothing else
except pieces of commits still in progress.  So no commit was lost. -/
theorem C10_present_after_flush_partial (as : List Act) (s : St) (h : Exec noRacyFree init as s)
    (hp : s.phase = .idle ∨ ∃ td, s.phase = .frees td) (x : Blk) :
    (s.com x = true → s.bm x = true) ∧ (s.bm x = true → s.com x = true ∨ s.own x = .committing) := by
  have hi := inv_exec h
  refine ⟨?_, hi.bmCom x⟩
  intro hc
  have hl : s.lst = [] := hi.lstPh (by rcases hp with hp | ⟨td, hp⟩ <;> rw [hp] <;> rfl)
  have hR : s.phase.todoR = [] := by rcases hp with hp | ⟨td, hp⟩ <;> rw [hp] <;> rfl
  rcases hi.J x hc with h1 | h1 | h1
  · exact h1
  · rw [hl] at h1; cases h1
  · rw [hR] at h1; cases h1

/-- Non-vacuity: block 7 was committed during the flush, is not on disk, and is in the live bitmap
when the flush has finished. -/
example : ∃ s, Exec noRacyFree init busyFlush s ∧ s.phase = .idle ∧ s.com 7 = true := by
  have hr : ∃ s, runB 2 okFree init busyFlush = some s ∧ s.phase = .idle ∧ s.com 7 = true :=
    ⟨_, rfl, rfl, rfl⟩
  obtain ⟨s, h1, h2⟩ := hr
  exact ⟨s, exec_of_runB (n := 2) okFree_ok _ _ _ (fun _ _ => rfl) h1, h2⟩

/-- Witness: block 7 is committed during a flush (so it waits in the list), freed immediately,
allocated and committed a second time in the same flush. -/
def racyFree : List Act :=
  [.alloc 5, .commitBegin 0 [5], .commitStep 0, .commitStep 0, .alloc 7, .switchover, .flushStart,
   .acquire, .sync1, .commitBegin 0 [7], .commitStep 0, .freeNow 7, .alloc 7, .commitBegin 0 [7],
   .commitStep 0, .write, .clear, .release, .sync2, .replay, .replay]

/-- **C10** is violated with immediate frees: the block is in the list twice, and the replay of the
second entry fails the release assertion "Expected disk blks to reset". -/
theorem C10_racy_free_violated :
    ∃ s, Exec anything init racyFree s ∧ s.aborted = true := by
  have hr : ∃ s, runB 1 (fun _ _ => true) init racyFree = some s ∧ s.aborted = true := ⟨_, rfl, rfl⟩
  obtain ⟨s, h1, h2⟩ := hr
  exact ⟨s, exec_of_runB (n := 1) (fun _ _ _ => trivial) _ _ _ (fun _ _ => rfl) h1, h2⟩

/-- Witness without re-allocation: commit during the flush, immediate free, flush completes. -/
def racyFree2 : List Act :=
  [.alloc 7, .switchover, .flushStart, .acquire, .sync1, .commitBegin 0 [7], .commitStep 0, .freeNow 7,
   .write, .clear, .release, .sync2, .replay, .replay, .flushDone]

/-- **C10** is violated with immediate frees: the freed block is set again by the replay, so the block
is both available for allocation and marked in the live bitmap; the next commit of it aborts. -/
theorem C10_racy_free_resurrects_violated :
    ∃ s s', Exec anything init racyFree2 s ∧ s.phase = .idle ∧ s.own 7 = .free ∧ s.bm 7 = true ∧
      Exec anything s [.alloc 7, .commitBegin 0 [7], .commitStep 0] s' ∧ s'.aborted = true := by
  have hr : ∃ s s', runB 1 (fun _ _ => true) init racyFree2 = some s ∧ s.phase = .idle ∧ s.own 7 = .free ∧
      s.bm 7 = true ∧ runB 1 (fun _ _ => true) init (racyFree2 ++ [.alloc 7, .commitBegin 0 [7], .commitStep 0]) = some s' ∧
      s'.aborted = true ∧ Exec anything s [.alloc 7, .commitBegin 0 [7], .commitStep 0] s' :=
    ⟨_, _, rfl, rfl, rfl, rfl, rfl, rfl, .cons trivial trivial rfl (.cons trivial trivial rfl (.cons trivial trivial rfl (.nil _)))⟩
  obtain ⟨s, s', h1, h2, h3, h4, h5, h6, h7⟩ := hr
  exact ⟨s, s', exec_of_runB (n := 1) (fun _ _ _ => trivial) _ _ _ (fun _ _ => rfl) h1, h2, h3, h4, h7, h6⟩

/-! ## C15 -/

def noCrashB (_ : St) : Act → Bool
  | .crash => false
  | _ => true

theorem noCrashB_ok (s : St) (a : Act) (h : noCrashB s a = true) : noCrash s a := by
  cases a <;> simp_all [noCrashB, noCrash]

/-- **C15**: take any reachable state and free block `x` there (deferred, in the current checkpoint).
After any continuation without a crash, if `x` can be allocated again then the continuation consists of
a part `p` that switches over and flushes the checkpoint up to persisting the bitmap (`Persisted`),
then the step that executes the free, then the rest.  (After a crash the request is gone: then the
persisted bitmap alone decides, `C09_durable_partial`.) -/
theorem C15_no_early_reuse (hist as : List Act) (s s1 s' : St) (x : Blk)
    (h : Exec anything init hist s) (hreq : step s (.freeReq x false) = some s1)
    (hc : Exec noCrash s1 as s') (hre : ∃ s'', step s' (.alloc x) = some s'') :
    ∃ p q, as = p ++ .doFree :: q ∧ Persisted s1 p := by
  have hi : InvO s1 := invO_step s _ s1 (invO_exec h) hreq
  have h0 : Pending s1 x [] s1 := by
    simp only [step] at hreq
    split at hreq
    rotate_left
    · simp at hreq
    rw [if_neg (by simp)] at hreq
    cases hreq
    exact Or.inl ⟨by simp [upd], Or.inl (by simp)⟩
  have hh := Exec.hist (s0 := s1) (ok := noCrash) (P := fun pre s => InvO s ∧ Pending s1 x pre s)
    (fun pre s a s2 he hP hok _ hs =>
      ⟨invO_step s a s2 hP.1 hs, pending_step s1 x pre s a s2 he hP.1 hP.2 hok hs⟩)
    (.nil _) hc ⟨hi, h0⟩
  simp only [List.nil_append] at hh
  rcases hh.2 with hp | hp
  · obtain ⟨s'', hs⟩ := hre
    have := (hh.1.free x)
    simp only [step] at hs
    split at hs
    · rename_i hcf; rw [hp.1] at this; simp at this; rw [this] at hcf; cases hcf
    · simp at hs
  · exact hp

/-- **C09** partial, what "persisted" gives to C15: at the moment a deferred free is executed, the persisted bitmap marks every
block that was committed and not freed as of the checkpoint being flushed (so handing the freed block
out again cannot make a restart lose a live block). -/
theorem C09_image_on_disk_before_free_partial (as : List Act) (s s' : St)
    (h : Exec noRacyFree init as s) (hs : step s .doFree = some s') (y : Blk)
    (hy : s.snap y = true) : s.disk y = true := by
  have hi := inv_exec h
  simp only [step] at hs
  split at hs
  rotate_left
  · simp at hs
  rename_i hp
  exact hi.snapDisk (by rw [hp]; rfl) (by rw [hp]; rfl) (by rw [hp]; simp) y hy

/-- Non-vacuity: free block 6, then a checkpoint racing with a commit; afterwards 6 is allocatable. -/
example : ∃ s s1 s' s'', Exec anything init (busyFlush.take 7) s ∧ step s (.freeReq 6 false) = some s1 ∧
    Exec noCrash s1 (busyFlush.drop 8) s' ∧ step s' (.alloc 6) = some s'' := by
  have hr : ∃ s s1 s' s'', runB 2 (fun _ _ => true) init (busyFlush.take 7) = some s ∧
      step s (.freeReq 6 false) = some s1 ∧ runB 2 noCrashB init (busyFlush.take 8) = some s1 ∧
      runB 2 noCrashB init (busyFlush.take 8 ++ busyFlush.drop 8) = some s' ∧ step s' (.alloc 6) = some s'' :=
    ⟨_, _, _, _, rfl, rfl, rfl, rfl, rfl⟩
  obtain ⟨s, s1, s', s'', h1, h2, h3, h4, h5⟩ := hr
  obtain ⟨m, h6, h7⟩ := (exec_of_runB (n := 2) noCrashB_ok _ _ _ (fun _ _ => rfl) h4).split
  have := h6.det (exec_of_runB (n := 2) noCrashB_ok _ _ _ (fun _ _ => rfl) h3)
  subst this
  exact ⟨s, _, s', s'', exec_of_runB (n := 2) (fun _ _ _ => trivial) _ _ _ (fun _ _ => rfl) h1, h2, h7, h5⟩

/-- A free requested in checkpoint n does not become effective early even when the request comes while
checkpoint n-1 is still being flushed: block 7, freed during the flush, is not allocatable when that
flush is done. -/
example : ∃ s, runB 2 okFree init (busyFlush.take 16 ++ [.freeReq 7 false] ++ busyFlush.drop 16) = some s ∧
    s.phase = .idle ∧ s.cacheFree 7 = false := ⟨_, rfl, rfl, rfl⟩

end HS.Vdev
