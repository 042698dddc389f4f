import Verif.Reset.Bitmap

/-!
# C117: cases that meet the hypotheses, and runs that break the statement
-/
namespace HS.Reset

/-- Run a list of steps while each is allowed. -/
def runB (ok : St → Op → Bool) (s : St) : List Op → Option St
  | [] => some s
  | op :: l => if ok s op then
      match step s op with
      | .ok s' => runB ok s' l
      | _ => none
    else none

theorem reach_run {k : Kind} {total : Nat} {ok : St → Op → Prop} {okb : St → Op → Bool}
    (hok : ∀ s op, okb s op = true → ok s op) (l : List Op) : ∀ {s s' : St}, Reach k total ok s →
    runB okb s l = some s' → Reach k total ok s' := by
  induction l with
  | nil => intro s s' h hr; simp [runB] at hr; subst hr; exact h
  | cons op l ih =>
    intro s s' h hr
    simp only [runB] at hr
    split at hr
    · rename_i ho
      split at hr
      · rename_i s1 hs
        exact ih (.step op h (hok _ _ ho) hs) hr
      · simp at hr
    · simp at hr

theorem reach_test {k : Kind} {total : Nat} {ok : St → Op → Prop} {okb : St → Op → Bool}
    (hok : ∀ s op, okb s op = true → ok s op) (l : List Op) (p : St → Bool)
    (h : (runB okb (init k total) l).map p = some true) : ∃ s, Reach k total ok s ∧ p s = true := by
  obtain ⟨s, hs, hp⟩ := Option.map_eq_some_iff.mp h
  exact ⟨s, reach_run hok l .base hs, hp⟩

def anyB (_ : St) (_ : Op) : Bool := true
theorem anyB_any (s : St) (op : Op) (_ : anyB s op = true) : any s op := trivial

def Out.isUb : Out → Bool
  | .ub => true
  | _ => false

def Out.isAbort : Out → Bool
  | .abort => true
  | _ => false

theorem isUb_eq {o : Out} (h : o.isUb = true) : o = .ub := by cases o <;> simp_all [Out.isUb]
theorem isAbort_eq {o : Out} (h : o.isAbort = true) : o = .abort := by cases o <;> simp_all [Out.isAbort]

instance (s : St) (b : Nat) : Decidable (usedAfter s b) := by unfold usedAfter; infer_instance
instance (s : St) (b : Nat) : Decidable (usedNow s b) := by unfold usedNow; infer_instance

/-! ## Cases -/

/-- Two blocks, a checkpoint, a reset that the next checkpoint overlaps, a block of the new life, a checkpoint. -/
def caseA : List Op :=
  [.ioGet, .alloc 0 0, .commit 0 0, .alloc 0 1, .commit 0 1, .flushGet, .flushRun 7, .freeReq 0, .ioDrop 0,
   .flushGet, .rsReset, .rsCreate, .rsSet, .flushRun 8, .ioGet, .alloc 1 0, .commit 1 0, .flushGet, .flushRun 3]

example : ∃ s, Reach .append 10 any s ∧ s.dur = [0] ∧ s.ever = [0] ∧ usedAfter s 0 ∧ ¬ usedAfter s 1 := by
  obtain ⟨s, h, hp⟩ := reach_test anyB_any caseA
    (fun s => decide (s.dur = [0] ∧ s.ever = [0] ∧ usedAfter s 0 ∧ ¬ usedAfter s 1))
    (show _ = _ by decide +kernel : (runB anyB (init .append 10) caseA).map _ = some true)
  exact ⟨s, h, of_decide_eq_true hp⟩

example : ∃ s, Reach .append 10 okA s ∧ s.com = [0] ∧ s.held = [1] ∧
    step s (.alloc 1 1) ≠ .no := by
  obtain ⟨s, h, hp⟩ := reach_test (fun _ _ => okAB_okA) caseA
    (fun s => decide (s.com = [0] ∧ s.held = [1]) && (match step s (.alloc 1 1) with | .no => false | _ => true))
    (show _ = _ by decide +kernel : (runB okAB (init .append 10) caseA).map _ = some true)
  simp only [Bool.and_eq_true, decide_eq_true_eq] at hp
  refine ⟨s, h, hp.1.1, hp.1.2, ?_⟩
  intro e
  rw [e] at hp
  simp at hp

def caseB : List Op :=
  [.ioGet, .alloc 0 4, .commit 0 4, .alloc 0 5, .flushGet, .flushRun 7, .commit 0 5, .flushWrite 7, .freeReq 4,
   .flushGet, .flushRun 8, .flushWrite 8, .flushFree, .ioDrop 0,
   .rsReset, .rsCreate, .rsSet, .ioGet, .alloc 1 4, .commit 1 4, .alloc 1 6, .commit 1 6, .flushGet, .flushRun 3,
   .flushWrite 3]

example : ∃ s, Reach .bitmap 10 okB s ∧ s.dur = [6, 4] ∧ usedAfter s 4 ∧ usedAfter s 6 ∧ ¬ usedAfter s 5 := by
  obtain ⟨s, h, hp⟩ := reach_test (fun _ _ => okBB_okB) caseB
    (fun s => decide (s.dur = [6, 4] ∧ usedAfter s 4 ∧ usedAfter s 6 ∧ ¬ usedAfter s 5))
    (show _ = _ by decide +kernel : (runB okBB (init .bitmap 10) caseB).map _ = some true)
  exact ⟨s, h, of_decide_eq_true hp⟩

/-- After a crash the run goes on. -/
example : ∃ s, Reach .bitmap 10 okB s ∧ s.com = [6, 4] ∧ usedNow s 4 := by
  obtain ⟨s, h, hp⟩ := reach_test (fun _ _ => okBB_okB) (caseB ++ [.crash, .ioGet])
    (fun s => decide (s.com = [6, 4] ∧ usedNow s 4))
    (show _ = _ by decide +kernel : (runB okBB (init .bitmap 10) (caseB ++ [.crash, .ioGet])).map _ = some true)
  exact ⟨s, h, of_decide_eq_true hp⟩

/-! ## Where the statement fails -/

/-- A checkpoint took the allocator before the reset: it writes the old bitmap after it. -/
def stale : List Op :=
  [.ioGet, .alloc 0 4, .commit 0 4, .ioDrop 0, .flushGet, .rsReset, .rsCreate, .rsSet, .flushRun 9, .flushWrite 9]

/-- C117 fails for the bitmap allocators: a block stored before the reset is in use again after a restart. -/
theorem C117_bitmap_back_violated : ∃ s, Reach .bitmap 10 any s ∧ quiet s ∧ s.ever = [] ∧ ¬ usedNow s 4 ∧ usedAfter s 4 := by
  obtain ⟨s, h, hp⟩ := reach_test anyB_any stale
    (fun s => decide (s.rs = .idle ∧ s.ever = [] ∧ ¬ usedNow s 4 ∧ usedAfter s 4))
    (show _ = _ by decide +kernel : (runB anyB (init .bitmap 10) stale).map _ = some true)
  have := of_decide_eq_true hp
  exact ⟨s, h, this⟩

/-- … and worse: the old bitmap hides the new one, so that a block committed after the reset and covered by a
later checkpoint is free after the restart, and given to someone else. -/
theorem C117_bitmap_lost_violated : ∃ s, Reach .bitmap 10 any s ∧ 5 ∈ s.dur ∧ ¬ usedAfter s 5 := by
  obtain ⟨s, h, hp⟩ := reach_test anyB_any (stale ++ [.ioGet, .alloc 1 5, .commit 1 5, .flushGet, .flushRun 2, .flushWrite 2])
    (fun s => decide (5 ∈ s.dur ∧ ¬ usedAfter s 5))
    (show _ = _ by decide +kernel : (runB anyB (init .bitmap 10) (stale ++ [.ioGet, .alloc 1 5, .commit 1 5, .flushGet, .flushRun 2, .flushWrite 2])).map _ = some true)
  exact ⟨s, h, of_decide_eq_true hp⟩

/-- A block released before the reset and waiting for the checkpoint; the block is given again after the
reset. -/
def late : List Op :=
  [.ioGet, .alloc 0 4, .commit 0 4, .freeReq 4, .ioDrop 0, .rsReset, .rsCreate, .rsSet, .ioGet, .alloc 1 4,
   .commit 1 4, .flushGet, .flushRun 2, .flushWrite 2, .flushFree]

/-- C117 fails for the bitmap allocators without any overlap: the old release frees the block of the new life,
and the next allocation gives it a second time. -/
theorem C117_bitmap_twice_violated : ∃ s, Reach .bitmap 10 any s ∧ 4 ∈ s.com ∧ ¬ usedNow s 4 ∧
    ∃ s', step s (.alloc 1 4) = .ok s' := by
  obtain ⟨s, h, hp⟩ := reach_test anyB_any late
    (fun s => decide (4 ∈ s.com ∧ ¬ usedNow s 4) && (match step s (.alloc 1 4) with | .ok _ => true | _ => false))
    (show _ = _ by decide +kernel : (runB anyB (init .bitmap 10) late).map _ = some true)
  simp only [Bool.and_eq_true, decide_eq_true_eq] at hp
  refine ⟨s, h, hp.1.1, hp.1.2, ?_⟩
  cases hs : step s (.alloc 1 4) with
  | ok s' => exact ⟨s', rfl⟩
  | ub => simp [hs] at hp
  | abort => simp [hs] at hp
  | no => simp [hs] at hp

/-- … or, if the block was not given again, the process stops at the checkpoint. -/
theorem C117_bitmap_release_violated : ∃ s, Reach .bitmap 10 any s ∧ quiet s ∧ step s .flushFree = .abort := by
  obtain ⟨s, h, hp⟩ := reach_test anyB_any
    [.ioGet, .alloc 0 4, .commit 0 4, .freeReq 4, .ioDrop 0, .rsReset, .rsCreate, .rsSet, .flushGet, .flushRun 2, .flushWrite 2]
    (fun s => decide (s.rs = .idle) && (step s .flushFree).isAbort)
    (show _ = _ by decide +kernel : (runB anyB (init .bitmap 10)
      [.ioGet, .alloc 0 4, .commit 0 4, .freeReq 4, .ioDrop 0, .rsReset, .rsCreate, .rsSet, .flushGet, .flushRun 2, .flushWrite 2]).map _ = some true)
  simp only [Bool.and_eq_true, decide_eq_true_eq] at hp
  exact ⟨s, h, hp.1, isAbort_eq hp.2⟩

/-- C117 fails for the bitmap allocators without any overlap: after a reset, a crash before the next checkpoint
and a restart, the first checkpoint uses a null pointer, and so it does after every restart. -/
theorem C117_bitmap_restart_violated : ∃ s, Reach .bitmap 10 any s ∧ quiet s ∧ s.recs = [] ∧ step s (.flushRun 2) = .ub := by
  obtain ⟨s, h, hp⟩ := reach_test anyB_any
    [.flushGet, .flushRun 1, .flushWrite 1, .rsReset, .rsCreate, .rsSet, .crash, .flushGet]
    (fun s => decide (s.rs = .idle ∧ s.recs = []) && (step s (.flushRun 2)).isUb)
    (show _ = _ by decide +kernel : (runB anyB (init .bitmap 10)
      [.flushGet, .flushRun 1, .flushWrite 1, .rsReset, .rsCreate, .rsSet, .crash, .flushGet]).map _ = some true)
  simp only [Bool.and_eq_true, decide_eq_true_eq] at hp
  exact ⟨s, h, hp.1.1, hp.1.2, isUb_eq hp.2⟩

/-- A checkpoint of a bitmap allocator inside the reset stops the process: the name is not registered. -/
theorem C117_bitmap_window_violated : ∃ s, Reach .bitmap 10 any s ∧ step s (.flushWrite 2) = .abort := by
  obtain ⟨s, h, hp⟩ := reach_test anyB_any [.rsReset, .flushGet, .flushRun 2]
    (fun s => (step s (.flushWrite 2)).isAbort)
    (show _ = _ by decide +kernel : (runB anyB (init .bitmap 10) [.rsReset, .flushGet, .flushRun 2]).map _ = some true)
  exact ⟨s, h, isAbort_eq hp⟩

/-- A reset between the copy and the write of a checkpoint of a bitmap allocator: the super block that is
updated is gone. -/
theorem C117_bitmap_update_violated : ∃ s, Reach .bitmap 10 any s ∧ step s (.flushWrite 2) = .ub := by
  obtain ⟨s, h, hp⟩ := reach_test anyB_any
    [.flushGet, .flushRun 1, .flushWrite 1, .ioGet, .alloc 0 4, .commit 0 4, .flushGet, .flushRun 2, .rsReset]
    (fun s => (step s (.flushWrite 2)).isUb)
    (show _ = _ by decide +kernel : (runB anyB (init .bitmap 10)
      [.flushGet, .flushRun 1, .flushWrite 1, .ioGet, .alloc 0 4, .commit 0 4, .flushGet, .flushRun 2, .rsReset]).map _ = some true)
  exact ⟨s, h, isUb_eq hp⟩

/-- C117 fails for the append allocator if a block is released inside the reset: the checkpoint that holds the
old allocator uses the super block that is gone. -/
theorem C117_append_release_violated : ∃ s, Reach .append 10 any s ∧ step s (.flushRun 2) = .ub := by
  obtain ⟨s, h, hp⟩ := reach_test anyB_any
    [.ioGet, .alloc 0 0, .commit 0 0, .ioDrop 0, .flushGet, .flushRun 1, .flushGet, .rsReset, .freeReq 0, .rsCreate, .rsSet]
    (fun s => (step s (.flushRun 2)).isUb)
    (show _ = _ by decide +kernel : (runB anyB (init .append 10)
      [.ioGet, .alloc 0 0, .commit 0 0, .ioDrop 0, .flushGet, .flushRun 1, .flushGet, .rsReset, .freeReq 0, .rsCreate, .rsSet]).map _ = some true)
  exact ⟨s, h, isUb_eq hp⟩

/-- C117 fails for both if an I/O thread has the old allocator: it is freed memory after the reset. -/
theorem C117_pointer_violated (k : Kind) : ∃ s, Reach k 10 any s ∧ quiet s ∧ step s (.alloc 0 0) = .ub := by
  have key : ∀ k : Kind, (runB anyB (init k 10) [.ioGet, .rsReset, .rsCreate, .rsSet]).map
      (fun s => decide (s.rs = .idle) && (step s (.alloc 0 0)).isUb) = some true := by
    intro k; cases k <;> decide +kernel
  obtain ⟨s, h, hp⟩ := reach_test anyB_any _ _ (key k)
  simp only [Bool.and_eq_true, decide_eq_true_eq] at hp
  exact ⟨s, h, hp.1, isUb_eq hp.2⟩

end HS.Reset
