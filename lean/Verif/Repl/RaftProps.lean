import Verif.Repl.RaftLemmas
/-!
# C65, C66: what a member of a replica set keeps across a crash

The statements use the model's state (`Verif.Repl.Raft`) and nothing else but the following, written
out here: `RaceFree` (which histories are considered), `isApp` (an entry is an application write),
`apps` (the application entries of a range, ascending).
-/
namespace HS.Repl.Raft

/-- A history in which the replication service never writes its superblock while the timer's
`flush_durable_commit_lsn` is between its read and its write. -/
def RaceFree (d : Dev) : List Op → Prop
  | [] => True
  | op :: ops => NoRace d op ∧ ∀ d', d.step op = .ok d' → RaceFree d' ops

theorem inv_run (ops : List Op) : ∀ d : Dev, Inv d → RaceFree d ops →
    d.run ops ≠ .fault ∧ ∀ d', d.run ops = .ok d' → Inv d' := by
  induction ops with
  | nil =>
    intro d h _
    refine ⟨(nofun), fun d' hr => ?_⟩
    simp only [Dev.run, Res.ok.injEq] at hr
    exact hr ▸ h
  | cons op ops ih =>
    intro d h hq
    have hnf := inv_nofault d op h
    simp only [Dev.run]
    cases hs : d.step op with
    | na => exact ⟨(nofun), (nofun)⟩
    | fault => exact absurd hs hnf
    | ok d1 => exact ih d1 (inv_step d d1 op h hq.1 hs) (hq.2 d1 hs)

/-- **C65 (partial).**  Take any history of a member of a replica set — appends, removals of entries
that were not committed, flushes of the log, commits in stages, checkpoints in stages, the timer
that saves the commit number in stages, compactions, crashes and restarts — in which the timer and
the checkpoint do not write the superblock across one another.  Then

* the process has not met a committed entry whose request is missing;
* if the process stops now and is started again, for every write that was ever reported committed to
  the listener: its entry is still in the log with the same blocks, all its blocks are allocated, and
  either the write is in the listener's state, or its entry is beyond the commit number that the
  restarted member tells Raft, with its request ready, so that Raft commits it again.

Missing: the two do write across one another in the code (`C65_timer_checkpoint_race_violated`). -/
theorem C65_raft_recovery_partial (ops : List Op) (hq : RaceFree Dev.create ops) :
    Dev.create.run ops ≠ .fault ∧
    ∀ d, Dev.create.run ops = .ok d → ∀ lsn ∈ d.acked, ∃ blks, d.isApp lsn blks ∧
      d.restart.isApp lsn blks ∧ (∀ b ∈ blks, b ∈ d.restart.bits) ∧
      (lsn ∈ d.restart.app ∨ (d.restart.upto < lsn ∧ lsn ≤ d.restart.flushed ∧
        lsn ∈ d.restart.map)) := by
  obtain ⟨h1, h2⟩ := inv_run ops Dev.create inv_create hq
  refine ⟨h1, fun d hr lsn hl => ?_⟩
  have h := h2 d hr
  have h' : Inv d.restart := inv_step d d.restart .crash h trivial rfl
  obtain ⟨ha, blks, hb⟩ := h.ak lsn hl
  have hacked : lsn ∈ d.restart.acked := by
    have : d.restart.acked = d.acked ++ _ := (replay_app d.crash (d.first + 1) (d.flushed - d.first)).2
    rw [this]; exact List.mem_append_left _ hl
  obtain ⟨ha', blks', hb'⟩ := h'.ak lsn hacked
  obtain ⟨e1, e2, e3, e4, e5, e6, e7, e8, e9, e10, e11, e12, e13, e14⟩ := restart_frame d
  have heq : blks' = blks := by
    have x := hb'.2
    rw [e1, List.getElem?_take] at x
    split at x
    · rw [hb.2] at x; simpa using x.symm
    · cases x
  subst heq
  refine ⟨blks', hb, hb', ?_, ?_⟩
  · by_cases hu : lsn ≤ d.restart.upto
    · exact (h'.done lsn blks' hb' hu).2
    · have hx := (replay_bits d.crash (d.first + 1) (d.flushed - d.first)).2 lsn blks'
      have hcp := h'.cd; have hdu := h'.du; have hcf := h'.cf; have hfi := h'.fi
      rw [e2] at hcf
      rw [e5] at hcf ha'
      rw [e3, e10] at hfi
      rw [e4] at hu
      have hcd := h.cd
      refine hx (by omega) (by omega) (by omega) (show d.cp < lsn by omega) ?_
      have x := hb'.2
      rwa [e1] at x
  · by_cases hu : lsn ≤ d.restart.upto
    · exact Or.inl (h'.done lsn blks' hb' hu).1
    · right
      have := h'.cf
      exact ⟨by omega, by omega, h'.map lsn blks' hb' (by omega)⟩

/-- A history that uses every step; at its end entry 4 is being committed. -/
def demo : List Op :=
  [.append (.app [7, 8]), .append .conf, .append (.app [9]), .append (.app [1]), .append (.app [2]),
   .flush, .rollback 5,
   .commitBegin, .commitBlk, .commitBlk, .commitApp, .commitEnd, .commitBegin,
   .cpCapture, .commitBegin, .commitBlk, .commitApp, .cpSwap, .cpData, .commitEnd, .cpRepl false,
   .cpDone, .boundary 10, .compact 5, .dcLoad, .commitBegin, .commitBlk, .dcStore, .crash,
   .commitBegin, .commitBlk, .commitApp]

instance : ∀ d op, Decidable (NoRace d op)
  | d, .cpRepl _ => inferInstanceAs (Decidable (d.load = none))
  | _, .append _ | _, .flush | _, .rollback _ | _, .commitBegin | _, .commitBlk | _, .commitApp
  | _, .commitEnd | _, .cpCapture | _, .cpSwap | _, .cpData | _, .cpDone | _, .dcLoad
  | _, .dcStore | _, .boundary _ | _, .compact _ | _, .crash => isTrue trivial

/-- `RaceFree`, computed. -/
def raceFreeB (d : Dev) : List Op → Bool
  | [] => true
  | op :: ops => decide (NoRace d op) && match d.step op with
    | .ok d' => raceFreeB d' ops
    | _ => true

theorem raceFree_of_b (ops : List Op) : ∀ d, raceFreeB d ops = true → RaceFree d ops := by
  induction ops with
  | nil => intro d _; trivial
  | cons op ops ih =>
    intro d h
    simp only [raceFreeB, Bool.and_eq_true, decide_eq_true_eq] at h
    refine ⟨h.1, fun d' hs => ih d' ?_⟩
    have := h.2
    rwa [hs] at this


/-- The hypotheses of `C65_raft_recovery_partial` hold of a history that uses every step.  Writes 1,
3, 3 (again, in the restart) and 4 were reported; after stopping at its end, 3 comes from the log
once more and 4 is to be committed again. -/
example : RaceFree Dev.create demo ∧
    ∃ d, Dev.create.run demo = .ok d ∧ d.acked = [1, 3, 3, 4] ∧ d.first = 2 ∧
      d.restart.app = [1, 3, 3] ∧ d.restart.upto = 3 ∧ d.restart.map = [4] :=
  ⟨raceFree_of_b _ _ (by decide), _, rfl, by decide, by decide, by decide, by decide, by decide⟩

/-- One step does not take the saved commit number back. -/
theorem dc_step (d d' : Dev) (op : Op) (h : Inv d) (hl : ∀ l, d.load = some l → d.dc ≤ l)
    (hn : NoRace d op) (hs : d.step op = .ok d') :
    d.dc ≤ d'.dc ∧ ∀ l, d'.load = some l → d'.dc ≤ l := by
  cases op with
  | append e => simp only [Dev.step, Res.ok.injEq] at hs; subst hs; exact ⟨Nat.le_refl _, hl⟩
  | flush => simp only [Dev.step, Res.ok.injEq] at hs; subst hs; exact ⟨Nat.le_refl _, hl⟩
  | rollback lsn =>
    simp only [Dev.step] at hs
    split at hs
    · simp only [Res.ok.injEq] at hs; subst hs; exact ⟨Nat.le_refl _, hl⟩
    · cases hs
  | commitBegin =>
    simp only [Dev.step] at hs
    split at hs
    · split at hs
      · split at hs
        · simp only [Res.ok.injEq] at hs; subst hs; exact ⟨Nat.le_refl _, hl⟩
        · cases hs
      · simp only [Res.ok.injEq] at hs; subst hs; exact ⟨Nat.le_refl _, hl⟩
      · cases hs
    · cases hs
  | commitBlk =>
    simp only [Dev.step] at hs
    split at hs
    · simp only [Res.ok.injEq] at hs; subst hs; exact ⟨Nat.le_refl _, hl⟩
    · cases hs
  | commitApp =>
    simp only [Dev.step] at hs
    split at hs
    · simp only [Res.ok.injEq] at hs; subst hs; exact ⟨Nat.le_refl _, hl⟩
    · cases hs
  | commitEnd =>
    simp only [Dev.step] at hs
    split at hs
    · simp only [Res.ok.injEq] at hs; subst hs; exact ⟨Nat.le_refl _, hl⟩
    · cases hs
  | cpCapture =>
    simp only [Dev.step] at hs
    split at hs
    · simp only [Res.ok.injEq] at hs; subst hs; exact ⟨Nat.le_refl _, hl⟩
    · cases hs
  | cpSwap =>
    simp only [Dev.step] at hs
    split at hs
    · simp only [Res.ok.injEq] at hs; subst hs; exact ⟨Nat.le_refl _, hl⟩
    · cases hs
  | cpData =>
    simp only [Dev.step] at hs
    split at hs
    · simp only [Res.ok.injEq] at hs; subst hs; exact ⟨Nat.le_refl _, hl⟩
    · cases hs
  | cpRepl dirty =>
    have hln : d.load = none := hn
    simp only [Dev.step] at hs
    split at hs
    · split at hs
      · simp only [Res.ok.injEq] at hs; subst hs; exact ⟨Nat.le_refl _, hl⟩
      · simp only [Res.ok.injEq] at hs; subst hs
        refine ⟨Nat.le_max_right _ _, fun l hx => ?_⟩
        have hx' : d.load = some l := hx
        rw [hln] at hx'; cases hx'
    · cases hs
  | cpDone =>
    simp only [Dev.step] at hs
    split at hs
    · simp only [Res.ok.injEq] at hs; subst hs; exact ⟨Nat.le_refl _, hl⟩
    · cases hs
  | dcLoad =>
    simp only [Dev.step] at hs
    split at hs
    · simp only [Res.ok.injEq] at hs; subst hs
      refine ⟨Nat.le_refl _, fun l hx => ?_⟩
      have hx' : some d.upto = some l := hx
      have := h.du
      have e := Option.some.inj hx'
      show d.dc ≤ l
      omega
    · cases hs
  | dcStore =>
    simp only [Dev.step] at hs
    split at hs
    · rename_i lsn hlo
      simp only [Res.ok.injEq] at hs; subst hs
      exact ⟨hl lsn hlo, (nofun)⟩
    · cases hs
  | boundary limit =>
    simp only [Dev.step] at hs
    split at hs <;> (simp only [Res.ok.injEq] at hs; subst hs; exact ⟨Nat.le_refl _, hl⟩)
  | compact lsn => simp only [Dev.step, Res.ok.injEq] at hs; subst hs; exact ⟨Nat.le_refl _, hl⟩
  | crash =>
    simp only [Dev.step, Res.ok.injEq] at hs; subst hs
    obtain ⟨e1, e2, e3, e4, e5, e6, e7, e8, e9, e10, e11, e12, e13, e14⟩ := restart_frame d
    have hdc : d.restart.dc = d.dc := by assumption
    have hlo : d.restart.load = none := by assumption
    refine ⟨by omega, fun l hx => ?_⟩
    rw [hlo] at hx; cases hx

/-- **C65, the commit number on disk (partial).**  In every history of a member in which the timer and
the checkpoint do not write the superblock across one another, the commit number that a restart would
begin with never goes back. -/
theorem C65_saved_commit_monotone_partial (ops : List Op) (hq : RaceFree Dev.create ops) (d : Dev)
    (hr : Dev.create.run ops = .ok d) (op : Op) (hn : NoRace d op) (d' : Dev)
    (hs : d.step op = .ok d') : d.restart.upto ≤ d'.restart.upto := by
  have key : ∀ (ops : List Op) (c : Dev), Inv c → (∀ l, c.load = some l → c.dc ≤ l) → RaceFree c ops →
      ∀ d, c.run ops = .ok d → Inv d ∧ ∀ l, d.load = some l → d.dc ≤ l := by
    intro ops
    induction ops with
    | nil =>
      intro c hi hl _ d hr
      simp only [Dev.run, Res.ok.injEq] at hr; subst hr; exact ⟨hi, hl⟩
    | cons op ops ih =>
      intro c hi hl hq d hr
      simp only [Dev.run] at hr
      cases hs : c.step op with
      | na => rw [hs] at hr; cases hr
      | fault => rw [hs] at hr; cases hr
      | ok c1 =>
        rw [hs] at hr
        exact ih c1 (inv_step c c1 op hi hq.1 hs) (dc_step c c1 op hi hl hq.1 hs).2 (hq.2 c1 hs) d hr
  obtain ⟨hi, hl⟩ := key ops Dev.create inv_create (by simp [Dev.create]) hq d hr
  have h1 := (dc_step d d' op hi hl hn hs).1
  obtain ⟨e1, e2, e3, e4, -⟩ := restart_frame d
  obtain ⟨f1, f2, f3, f4, -⟩ := restart_frame d'
  rw [e4, f4]; exact h1

example : ∃ d d', Dev.create.run demo = .ok d ∧ NoRace d .commitEnd ∧ d.step .commitEnd = .ok d' ∧
    d.restart.upto = 3 := ⟨_, _, rfl, trivial, rfl, by decide⟩

/-- **C65, order of delivery at a restart.**  For every state: a restart reports to the listener
exactly the application entries that are in the log on disk, above the checkpoint number and not
above the saved commit number, each once and in ascending order; and it tells Raft the saved commit
number as the last one committed. -/
theorem C65_raft_replay_order (d : Dev) :
    d.restart.upto = d.dc ∧
    ∃ l : List Nat, d.restart.acked = d.acked ++ l ∧ d.restart.app = d.appDisk ++ l ∧
      l.Pairwise (· < ·) ∧
      ∀ lsn, lsn ∈ l ↔ (∃ blks, d.isApp lsn blks) ∧ d.first < lsn ∧ lsn ≤ d.flushed ∧
        d.cp < lsn ∧ lsn ≤ d.dc := by
  obtain ⟨h1, h2⟩ := replay_app d.crash (d.first + 1) (d.flushed - d.first)
  refine ⟨(restart_frame d).2.2.2.1, _, h2, h1, ?_, ?_⟩
  · have : ∀ (log : List Ent) (lo hi lsn k : Nat), (apps log lo hi lsn k).Pairwise (· < ·) := by
      intro log lo hi lsn k
      induction k generalizing lsn with
      | zero => exact List.Pairwise.nil
      | succ k ih =>
        rw [apps]
        split
        · split
          · refine List.pairwise_cons.2 ⟨fun j hj => ?_, ih _⟩
            have := (mem_apps _ _ _ _ _ _).1 hj
            omega
          · exact ih _
        · exact ih _
    exact this _ _ _ _ _
  · intro lsn
    rw [mem_apps]
    have hc : d.crash.log = d.log.take d.flushed := rfl
    have hd : d.crash.dc = d.dc := rfl
    have hcp : d.crash.cp = d.cp := rfl
    rw [hc, hd, hcp]
    constructor
    · rintro ⟨⟨b, hb⟩, a1, a2, a3, a4⟩
      rw [List.getElem?_take] at hb
      split at hb
      · exact ⟨⟨b, by omega, hb⟩, by omega, by omega, a1, a2⟩
      · cases hb
    · rintro ⟨⟨b, hb⟩, a1, a2, a3, a4⟩
      refine ⟨⟨b, ?_⟩, a3, a4, by omega, by omega⟩
      rw [List.getElem?_take, if_pos (by omega)]
      exact hb.2

/-- The history of the violation: write 1 is committed; the timer reads the commit number 1 and calls
the listener; meanwhile write 2 is committed and a checkpoint runs; then the timer writes its
superblock, and the process stops. -/
def raceOps : List Op :=
  [.append (.app [7]), .append (.app [8]), .flush,
   .commitBegin, .commitBlk, .commitApp, .commitEnd, .dcLoad,
   .commitBegin, .commitBlk, .commitApp, .commitEnd,
   .cpCapture, .cpSwap, .cpData, .cpRepl false, .cpDone, .dcStore, .crash]

/-- **C65 is violated** when the timer and a checkpoint cross.  The saved commit number goes back
below the checkpoint number (`flush_durable_commit_lsn` stores what it read earlier, without the
maximum that `cp_flush` takes), so the restarted member tells Raft that it has committed less than its
checkpoint covers, while the restart has passed over the entries that the checkpoint covers.  When
Raft commits the next one, its request is missing and a null pointer is dereferenced. -/
theorem C65_timer_checkpoint_race_violated :
    (∃ d, Dev.create.run raceOps = .ok d ∧ d.dc < d.cp ∧ d.upto = 1 ∧ d.isApp 2 [8] ∧ 2 ∉ d.map) ∧
    Dev.create.run (raceOps ++ [.commitBegin]) = .fault := by
  refine ⟨⟨_, rfl, by decide, by decide, ⟨by decide, by decide⟩, by decide⟩, by decide⟩

/-- **C66 — truncation never removes an entry that recovery needs.**  After any such history, with
compaction asked for at any numbers and boundaries of any size: no compacted entry lies above the
saved checkpoint number; so every entry that a restart has to deliver or hand back to Raft is still
there; and what each compacted write did is on disk: it is in the listener's durable state and its
blocks are allocated in the durable bitmap.

Missing: histories in which the timer and the checkpoint cross (`C66_race_violated`). -/
theorem C66_truncation_safe_partial (ops : List Op) (hq : RaceFree Dev.create ops) (d : Dev)
    (hr : Dev.create.run ops = .ok d) :
    d.first ≤ d.cp ∧
    (∀ lsn, d.restart.cp < lsn → d.restart.first < lsn) ∧
    (∀ lsn blks, d.isApp lsn blks → lsn ≤ d.first →
      lsn ∈ d.appDisk ∧ ∀ b ∈ blks, b ∈ d.dataDisk) := by
  have h := (inv_run ops Dev.create inv_create hq).2 d hr
  obtain ⟨e1, e2, e3, e4, e5, e6, e7, e8, e9, e10, e11, e12, e13, e14⟩ := restart_frame d
  refine ⟨h.fi, fun lsn hl => ?_, fun lsn blks ha hl => h.disk lsn blks ha (by have := h.fi; omega)⟩
  rw [e10] at hl
  rw [e3]
  have := h.fi
  omega

/-- Compaction was asked for at 5 with the boundary at 10, and stopped at the checkpoint number 2. -/
example : RaceFree Dev.create demo ∧
    ∃ d, Dev.create.run demo = .ok d ∧ d.first = 2 ∧ d.cp = 2 ∧ d.appDisk = [1, 3] ∧
      d.dataDisk = [7, 8, 9] :=
  ⟨raceFree_of_b _ _ (by decide), _, rfl, by decide, by decide, by decide, by decide⟩

/-- **C66 is violated** when the timer and a checkpoint cross: after the restart the member's commit
number is below the saved checkpoint number and below what was compacted, and the next checkpoint
saves that smaller number: entry 2 is above the saved checkpoint number, and gone. -/
theorem C66_race_violated :
    ∃ d, Dev.create.run [.append (.app [7]), .append .conf, .flush,
        .commitBegin, .commitBlk, .commitApp, .commitEnd, .dcLoad, .commitBegin,
        .cpCapture, .cpSwap, .cpData, .cpRepl false, .cpDone, .boundary 10, .compact 10,
        .dcStore, .crash, .cpCapture, .cpSwap, .cpData, .cpRepl false, .cpDone] = .ok d ∧
      d.cp = 1 ∧ d.first = 2 := by
  refine ⟨_, rfl, by decide, by decide⟩

/-- **C66, progress.**  A compaction that is asked for at or beyond the boundary removes everything up
to the boundary: what is asked for is not ignored. -/
theorem C66_compaction_reaches_boundary (d : Dev) (limit : Int) (lsn : Nat)
    (h1 : (d.limit : Int) < limit) (h2 : limit ≤ d.cp) (h3 : limit ≤ lsn) :
    ∃ d1 d2, d.step (.boundary limit) = .ok d1 ∧ d1.step (.compact lsn) = .ok d2 ∧
      limit ≤ d2.first := by
  refine ⟨{ d with limit := limit.toNat }, _, ?_, rfl, ?_⟩
  · simp only [Dev.step]
    rw [if_neg (by omega)]
    rw [Int.min_eq_left h2]
  · simp only []
    omega

example : ∃ d1 d2, ({ Dev.create with cp := 9 } : Dev).step (.boundary 4) = .ok d1 ∧
    d1.step (.compact 6) = .ok d2 ∧ (4 : Int) ≤ d2.first :=
  C66_compaction_reaches_boundary _ 4 6 (by decide) (by decide) (by decide)

theorem lastCp_step (d d' : Dev) (op : Op) (h : d.lastCp = d.cp) (hs : d.step op = .ok d') : d'.lastCp = d'.cp := by
  cases op with
  | crash =>
    injection hs with hs; subst hs
    have hf := restart_frame d
    rw [hf.2.2.2.2.2.2.2.2.2.2.1, hf.2.2.2.2.2.2.2.2.2.1]
  | _ =>
    simp only [Dev.step] at hs
    repeat' split at hs
    all_goals first
      | (cases hs; done)
      | (injection hs with hs; subst hs; first | exact h | rfl)

theorem lastCp_run (ops : List Op) : ∀ d d' : Dev, d.lastCp = d.cp → d.run ops = .ok d' → d'.lastCp = d'.cp := by
  induction ops with
  | nil => intro d d' h hr; injection hr with hr; subst hr; exact h
  | cons op ops ih =>
    intro d d' h hr
    simp only [Dev.run] at hr
    cases hs : d.step op with
    | ok d1 => rw [hs] at hr; exact ih d1 d' (lastCp_step d d1 op h hs) hr
    | na => rw [hs] at hr; cases hr
    | fault => rw [hs] at hr; cases hr

/-- **C65, progress.**  In all histories, races included: when the replication service has flushed in a checkpoint, the superblock has
the commit number that the checkpoint captured, whether or not it was written again. -/
theorem C65_checkpoint_recorded (ops : List Op) (d d' : Dev) (lsn : Nat) (dirty : Bool) (hr : Dev.create.run ops = .ok d)
    (hp : d.phase = .dataDone lsn) (hs : d.step (.cpRepl dirty) = .ok d') : d'.cp = lsn := by
  have h := lastCp_run ops Dev.create d rfl hr
  simp only [Dev.step, hp] at hs
  split at hs
  · rename_i hc
    injection hs with hs; subst hs
    exact (hc.1.trans h).symm
  · injection hs with hs; subst hs; rfl

example : ∃ d d', Dev.create.run [.append (.app [7]), .append .conf, .flush, .commitBegin, .commitBlk, .commitApp, .commitEnd,
      .cpCapture, .cpSwap, .cpData] = .ok d ∧ d.step (.cpRepl false) = .ok d' ∧ d'.cp = 1 := by
  refine ⟨_, _, rfl, rfl, ?_⟩
  exact C65_checkpoint_recorded [.append (.app [7]), .append .conf, .flush, .commitBegin, .commitBlk, .commitApp, .commitEnd,
      .cpCapture, .cpSwap, .cpData] _ _ 1 false rfl rfl rfl

end HS.Repl.Raft
