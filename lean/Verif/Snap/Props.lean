import Verif.Snap.Run
/-!
# C88: a member that is brought up to date by a snapshot misses nothing

The statements use the model's state and step (`Verif.Snap.Model`) and the small specification
`Verif.Snap.Spec` (`Com`, `Holds`, `GoodRun`).
-/
namespace HS.Snap

theorem restart_pend (d : Dev) : d.restart.pend = d.pend ∧ d.restart.glog = d.glog ∧
    d.restart.sm = max d.dc d.first ∧ d.restart.flushed = d.flushed ∧ d.restart.snp = d.snp ∧
    d.restart.phase = .idle ∧ d.restart.res = .none ∧ d.restart.work = none ∧ d.restart.load = none ∧
    d.restart.first = d.first ∧ d.restart.cp = d.cp := by
  obtain ⟨m, a, hf⟩ := replay_frame (d.flushed - d.first) d.crash (d.first + 1)
  unfold Dev.restart
  rw [hf]
  exact ⟨rfl, rfl, rfl, rfl, rfl, rfl, rfl, rfl, rfl, rfl, rfl⟩

theorem restart_entry (d : Dev) (n : Nat) (h : n ≤ d.flushed) : d.restart.entry? n = d.entry? n := by
  obtain ⟨m, a, hf⟩ := replay_frame (d.flushed - d.first) d.crash (d.first + 1)
  unfold Dev.restart
  rw [hf]
  exact entry_crash d n h

/-- **C88 (partial) — nothing is missed.**  Take any history of a member of a group: entries appended,
removed, flushed and committed; checkpoints, compactions and crashes at any point; transfers of
snapshots that are begun, interrupted at any point, begun again, and completed.  Suppose the steps
are `Good`.  Then the process has not met a committed entry whose request is missing, and whenever no
transfer is pending:

* the listener's state holds everything that the group committed up to the member's commit index, by
  `on_commit` or inside a snapshot, and nothing else;
* if the process stops now and is started again, no transfer is pending, and the listener's state
  again holds everything up to the (possibly smaller) commit index;
* every committed write between the two indexes is in the log that survives, with its request ready,
  so that it is committed again.

Missing: steps that are not `Good` (`C88_abandoned_violated`, `C88_older_snapshot_violated`, and
`C65_timer_checkpoint_race_violated`). -/
theorem C88_nothing_missed_partial (ops : List Op) (hg : GoodRun Dev.create ops) :
    Dev.create.run ops ≠ .fault ∧ ∀ d, Dev.create.run ops = .ok d → d.pend = false →
      Holds d.glog d.sm d.app ∧
      d.restart.pend = false ∧ Holds d.glog d.restart.sm d.restart.app ∧
      ∀ n v, d.restart.sm < n → n ≤ d.sm → Com d.glog n v →
        d.restart.entry? n = some (.app v) ∧ n ≤ d.restart.flushed ∧ n ∈ d.restart.map := by
  obtain ⟨h1, h2⟩ := inv_run ops Dev.create inv_create hg
  refine ⟨h1, fun d hr hp => ?_⟩
  have h := h2 d hr
  have h' := inv_restart d h
  obtain ⟨e1, e2, e3, e4, e5, e6, e7, e8, e9, e10, e11⟩ := restart_pend d
  have hp' : d.restart.pend = false := by rw [e1]; exact hp
  refine ⟨(h.who hp).ap.mono (Nat.le_max_left _ _), hp', ?_, fun n v hn1 hn2 hv => ?_⟩
  · have := (h'.who hp').ap.mono (Nat.le_max_left _ _)
    rw [e2] at this; exact this
  · have hsc := h.num.sc; have hci := h.num.ci
    have hent : d.restart.entry? n = some (.app v) := by
      rw [restart_entry d n (by omega), h.num.ag n (by omega) (by omega)]
      exact hv.2
    refine ⟨hent, by omega, h'.num.mp n v hn1 (by omega) ?_ hent⟩
    have := (h.who hp).sf
    omega

/-- **C88 (partial) — `on_commit` is called on a complete state.**  In such a history, whenever
`on_commit` is called and no transfer is pending, the listener already holds everything that the group
committed before this entry, and the value it is given is the one that the group committed. -/
theorem C88_on_commit_in_order_partial (ops : List Op) (hg : GoodRun Dev.create ops) (d d' : Dev)
    (hr : Dev.create.run ops = .ok d) (hp : d.pend = false) (hs : d.step .commitApp = .ok d') :
    Holds d.glog d.sm d.app ∧ ∃ v, Com d.glog (d.sm + 1) v ∧ d'.app = d.app ++ [(d.sm + 1, v)] := by
  have h := (inv_run ops Dev.create inv_create hg).2 d hr
  refine ⟨(h.who hp).ap.mono (Nat.le_max_left _ _), ?_⟩
  simp only [Dev.step] at hs
  cases hwk : d.work with
  | none => rw [hwk] at hs; simp at hs
  | some b =>
    cases b with
    | true => rw [hwk] at hs; simp at hs
    | false =>
      rw [hwk] at hs
      cases hent : d.entry? (d.sm + 1) with
      | none => rw [hent] at hs; simp at hs
      | some e =>
        cases e with
        | conf => rw [hent] at hs; simp at hs
        | app v =>
          rw [hent] at hs
          simp only [Res.ok.injEq] at hs; subst hs
          obtain ⟨hc, hb⟩ := h.num.wk (by rw [hwk]; nofun)
          have hfs : d.first ≤ d.sm := by have := h.num.fs; rw [hb] at this; simpa using this
          refine ⟨v, ⟨by omega, ?_⟩, rfl⟩
          rw [← h.num.ag (d.sm + 1) (by omega) hc]; exact hent

/-- **C88 (partial) — a completed transfer survives.**  Once the library has compacted the log at the
end of a transfer to number `l`, whether or not `apply_snapshot` is reached: after a crash the
member's commit index is at least `l`, and the listener holds everything up to `l`. -/
theorem C88_completed_survives_partial (ops : List Op) (hg : GoodRun Dev.create ops) (d d' : Dev) (l : Nat)
    (hr : Dev.create.run ops = .ok d) (hres : d.res = .flushed l) (hs : d.step .snpCompact = .ok d') :
    l ≤ d'.restart.sm ∧ Holds d.glog l d'.restart.app ∧ d'.restart.pend = false := by
  have h := (inv_run ops Dev.create inv_create hg).2 d hr
  have h' := inv_step d d' .snpCompact h trivial hs
  have h'' := inv_restart d' h'
  obtain ⟨e1, e2, e3, e4, e5, e6, e7, e8, e9, e10, e11⟩ := restart_pend d'
  simp only [Dev.step, hres] at hs
  by_cases hc : d.sm ≤ l ∧ d.work = none
  · rw [if_pos hc] at hs
    simp only [Res.ok.injEq] at hs
    have hre := h'.rea
    have hpf : d'.pend = false := by rw [← hs]
    have hr' : d'.res = .compacted l := by rw [← hs]
    have hg' : d'.glog = d.glog := by rw [← hs]; simp only; rw [cut_frame]
    unfold Reached at hre
    rw [hr'] at hre
    have hl : l ≤ d'.restart.sm := by have := hre.2.2.1; omega
    have hp'' : d'.restart.pend = false := by rw [e1]; exact hpf
    refine ⟨hl, ?_, hp''⟩
    have := (h''.who hp'').ap.mono (k' := l) (by omega)
    rw [e2, hg'] at this
    exact this
  · rw [if_neg hc] at hs; cases hs

/-- What the leader does to bring a restarted member to entry `l`. -/
def resync (l : Nat) : List Op :=
  [.snpBegin l, .snpLast, .cpCapture, .cpSwap, .cpData, .cpRepl true, .cpDone, .snpCompact, .snpApply]

/-- **C88 (partial) — an interrupted transfer can be repeated.**  After any such history, and a crash
at any point of a transfer (or of anything else): a snapshot at any number that is beyond the commit
index and not before the one announced last can be transferred, and brings the listener to it. -/
theorem C88_retry_completes_partial (ops : List Op) (hg : GoodRun Dev.create ops) (d : Dev) (l : Nat)
    (hr : Dev.create.run ops = .ok d) (h1 : d.restart.sm < l) (h2 : l ≤ d.glog.length) (h3 : d.snp ≤ l) :
    ∃ d', d.restart.run (resync l) = .ok d' ∧ d'.sm = l ∧ d'.upto = l ∧ d'.pend = false ∧
      d'.glog = d.glog ∧ Holds d.glog l d'.app := by
  have h := (inv_run ops Dev.create inv_create hg).2 d hr
  have h' := inv_restart d h
  obtain ⟨e1, e2, e3, e4, e5, e6, e7, e8, e9, e10, e11⟩ := restart_pend d
  revert h' e1 e2 e3 e4 e5 e6 e7 e8 e9 e10 e11 h1
  generalize hx : d.restart = r
  intro h1 h' e1 e2 e3 e4 e5 e6 e7 e8 e9 e10 e11
  rw [← e2] at h2 ⊢
  have hgood : GoodRun r (resync l) := by
    refine ⟨by rw [show Good r (.snpBegin l) = (r.snp ≤ l) from rfl, e5]; exact h3, fun d1 hd1 => ?_⟩
    have hl1 : d1.load = none := by
      simp only [Dev.step] at hd1
      split at hd1
      · cases hd1; exact e9
      · cases hd1
    refine ⟨trivial, fun d2 hd2 => ⟨trivial, fun d3 hd3 => ⟨trivial, fun d4 hd4 => ⟨trivial, fun d5 hd5 =>
      ⟨?_, fun d6 hd6 => ⟨trivial, fun d7 hd7 => ⟨trivial, fun d8 hd8 => ⟨trivial, fun _ _ => trivial⟩⟩⟩⟩⟩⟩⟩⟩
    have hl2 : d2.load = none := by
      simp only [Dev.step] at hd2
      repeat' split at hd2
      all_goals first | cases hd2; exact hl1 | cases hd2
    have hl3 : d3.load = none := by
      simp only [Dev.step] at hd3
      repeat' split at hd3
      all_goals first | cases hd3; exact hl2 | cases hd3
    have hl4 : d4.load = none := by
      simp only [Dev.step] at hd4
      repeat' split at hd4
      all_goals first | cases hd4; exact hl3 | cases hd4
    have hl5 : d5.load = none := by
      simp only [Dev.step] at hd5
      repeat' split at hd5
      all_goals first | cases hd5; exact hl4 | cases hd5
    exact hl5
  have hrun : ∃ d', r.run (resync l) = .ok d' ∧ d'.sm = l ∧ d'.upto = l ∧ d'.pend = false ∧ d'.glog = r.glog := by
    have hc : r.sm < l ∧ l ≤ r.glog.length ∧ r.res.between = false := ⟨h1, h2, by rw [e7]; rfl⟩
    have hle : r.sm ≤ l := by omega
    have s1 : r.step (.snpBegin l) = .ok { r with snp := l, res := .recv l, pend := true } := by
      simp only [Dev.step]; rw [if_pos hc]
    simp only [resync, Dev.run, s1]
    simp only [Dev.step, hle, if_true, e6, e8, Resync.swap, Resync.done]
    simp only [and_true, Bool.false_eq_true, and_false, if_false, hle, if_true, reduceCtorEq]
    refine ⟨_, rfl, rfl, rfl, ?_, ?_⟩
    · rfl
    · simp only; rw [cut_frame]
  obtain ⟨d', a, b, c, e, f⟩ := hrun
  refine ⟨d', a, b, c, e, f, ?_⟩
  have hi := (inv_run (resync l) r h' hgood).2 d' a
  have := (hi.who e).ap.mono (k' := l) (by omega)
  rw [f] at this
  exact this

/-! ## Cases that meet the hypotheses -/

/-- `GoodRun`, decided. -/
def goodRunB (d : Dev) : List Op → Bool
  | [] => true
  | op :: ops =>
    (match op with
     | .cpRepl _ => decide (d.load = none)
     | .commitBegin => !d.pend || decide (d.sm + 1 ≤ d.snp)
     | .snpBegin l => decide (d.snp ≤ l)
     | _ => true) &&
    match d.step op with
    | .ok d' => goodRunB d' ops
    | _ => true

theorem goodRun_of_b (ops : List Op) : ∀ d, goodRunB d ops = true → GoodRun d ops := by
  induction ops with
  | nil => intro d _; trivial
  | cons op ops ih =>
    intro d h
    simp only [goodRunB, Bool.and_eq_true] at h
    refine ⟨?_, fun d' hs => ih d' ?_⟩
    · cases op with
      | cpRepl b => simpa [Good] using h.1
      | commitBegin =>
        have h1 := h.1
        intro hp
        simpa [hp] using h1
      | snpBegin l => simpa [Good] using h.1
      | _ => trivial
    · have := h.2; rw [hs] at this; exact this

/-- Commit of the next application entry. -/
def commit1 : List Op := [.commitBegin, .commitApp, .commitEnd]

/-- A checkpoint. -/
def ckpt1 : List Op := [.cpCapture, .cpSwap, .cpData, .cpRepl true, .cpDone]

/-- The group commits five entries; the member gets and commits one; a transfer to 3 is begun, the
listener clears its state, a checkpoint runs, and the process stops; the transfer is repeated to 4,
and the process stops between compaction and `apply_snapshot`; entry 5 arrives and is committed. -/
def demo : List Op :=
  [.group (.app 11), .group (.app 12), .group .conf, .group (.app 14), .group (.app 15),
   .append (.app 11), .append (.app 12), .flush] ++ commit1 ++
  [.snpBegin 3, .commitBegin, .snpObj []] ++ ckpt1 ++ [.crash, .snpBegin 4, .snpObj [(1, 11)], .snpLast] ++ ckpt1 ++
  [.snpCompact, .crash, .append (.app 15), .flush] ++ commit1 ++ [.dcLoad, .dcStore]

example : GoodRun Dev.create demo ∧ ∃ d, Dev.create.run demo = .ok d ∧ d.pend = false ∧ d.sm = 5 ∧ d.upto = 5 ∧
    d.cp = 1 ∧ d.first = 4 ∧ d.app = [(1, 11), (2, 12), (4, 14), (5, 15)] ∧
    d.restart.app = [(1, 11), (2, 12), (4, 14), (5, 15)] ∧ d.restart.sm = 5 :=
  ⟨goodRun_of_b _ _ (by decide +kernel), _, rfl, by decide +kernel, by decide +kernel, by decide +kernel,
    by decide +kernel, by decide +kernel, by decide +kernel, by decide +kernel, by decide +kernel⟩

/-- Entry 5 while `on_commit` runs; and after a crash before its commit number was saved. -/
example : GoodRun Dev.create (demo.take 33) ∧ ∃ d d', Dev.create.run (demo.take 33) = .ok d ∧ d.pend = false ∧
    d.step .commitApp = .ok d' ∧ d.app = [(1, 11), (2, 12), (4, 14)] ∧ d'.app = d.app ++ [(5, 15)] ∧
    d.restart.sm = 4 ∧ d.restart.map = [5] :=
  ⟨goodRun_of_b _ _ (by decide +kernel), _, _, rfl, by decide +kernel, rfl, by decide +kernel, by decide +kernel,
    by decide +kernel, by decide +kernel⟩

/-- The end of the second transfer. -/
example : GoodRun Dev.create (demo.take 28) ∧ ∃ d d', Dev.create.run (demo.take 28) = .ok d ∧ d.res = .flushed 4 ∧
    d.step .snpCompact = .ok d' ∧ d'.restart.sm = 4 ∧ d'.restart.app = [(1, 11), (2, 12), (4, 14)] ∧ d'.dc = 1 :=
  ⟨goodRun_of_b _ _ (by decide +kernel), _, _, rfl, by decide +kernel, rfl, by decide +kernel, by decide +kernel,
    by decide +kernel⟩

/-- The first transfer, interrupted when the listener's durable state was empty. -/
example : GoodRun Dev.create (demo.take 19) ∧ ∃ d, Dev.create.run (demo.take 19) = .ok d ∧ d.pend = true ∧
    d.restart.app = [] ∧ d.restart.sm = 1 ∧ d.glog.length = 5 ∧ d.snp = 3 :=
  ⟨goodRun_of_b _ _ (by decide +kernel), _, rfl, by decide +kernel, by decide +kernel, by decide +kernel,
    by decide +kernel, by decide +kernel⟩

/-! ## What is not so -/

/-- The first message of a snapshot at 3 is received; then the leader changes, and the new leader,
whose log reaches back far enough, sends the entries. -/
def abandoned : List Op :=
  [.group (.app 11), .group (.app 12), .group (.app 13), .group (.app 14), .append (.app 11), .flush] ++ commit1 ++
  [.snpBegin 3, .append (.app 12), .append (.app 13), .append (.app 14), .flush, .commitBegin, .commitBegin] ++
  commit1 ++ ckpt1

/-- **C88 is violated by a transfer that is abandoned.**  `save_snp_resync_data` writes
`last_snapshot_lsn` when the first message arrives, before anything of the snapshot has been received,
and nothing takes it back.  If the group then goes on with log entries, `commit_ext` passes over those
up to the announced number, and commits the next: `on_commit` is called for entry 4 on a state that
misses entries 2 and 3, the member tells Raft that it has committed 4, and after a checkpoint and a
restart this is still so: writes that the group has committed never reach this member's listener. -/
theorem C88_abandoned_violated : ∃ d, Dev.create.run abandoned = .ok d ∧
    d.upto = 4 ∧ d.sm = 4 ∧ d.app = [(1, 11), (4, 14)] ∧ Com d.glog 2 12 ∧ Com d.glog 3 13 ∧
    d.entry? 2 = some (.app 12) ∧ d.entry? 3 = some (.app 13) ∧
    d.restart.app = [(1, 11), (4, 14)] ∧ d.restart.sm = 4 ∧ d.restart.map = [] :=
  ⟨_, rfl, by decide +kernel, by decide +kernel, by decide +kernel, by constructor <;> decide +kernel,
    by constructor <;> decide +kernel, by decide +kernel, by decide +kernel, by decide +kernel, by decide +kernel,
    by decide +kernel⟩

/-- The same in general: while `last_snapshot_lsn` is ahead, the library's commit of an application
entry up to it calls nothing and succeeds. -/
theorem C88_commit_passed_over_violated (d : Dev) (v : Nat) (hw : d.work = none) (hb : d.res.between = false)
    (hf : d.sm < d.flushed) (he : d.entry? (d.sm + 1) = some (.app v)) (hc : Com d.glog (d.sm + 1) v)
    (hk : d.sm + 1 ≤ d.snp) :
    ∃ d', d.step .commitBegin = .ok d' ∧ d'.sm = d.sm + 1 ∧ d'.work = none ∧ d'.app = d.app ∧
      d'.upto = d.upto := by
  refine ⟨{ d with sm := d.sm + 1, cidx := max d.cidx (d.sm + 1) }, ?_, rfl, hw, rfl, rfl⟩
  simp only [Dev.step]
  have := hc.2
  rw [show d.sm + 1 - 1 = d.sm by omega] at this
  rw [if_pos ⟨hw, hb, hf, by rw [he, this]⟩, he]
  simp [Dev.skips, hk]

/-- A snapshot at 3 is announced and the process stops; a snapshot at 2 is transferred. -/
def older : List Op :=
  [.group (.app 11), .group (.app 12), .group (.app 13), .append (.app 11), .append (.app 12), .append (.app 13),
   .flush, .snpBegin 3, .crash, .snpBegin 2, .snpLast] ++ ckpt1 ++ [.snpCompact, .snpApply]

/-- **C88 is violated by a transfer to a smaller number.**  Replay passes over entry 3, which the
announced snapshot was to bring, and links no request; a later snapshot at 2 lowers
`last_snapshot_lsn`; when the library commits entry 3, which is in the log, its request is missing and
a null pointer is dereferenced. -/
theorem C88_older_snapshot_violated :
    (∃ d, Dev.create.run older = .ok d ∧ d.pend = false ∧ d.sm = 2 ∧ d.snp = 2 ∧ d.entry? 3 = some (.app 13) ∧
      Com d.glog 3 13 ∧ d.map = []) ∧
    Dev.create.run (older ++ [.commitBegin]) = .fault :=
  ⟨⟨_, rfl, by decide +kernel, by decide +kernel, by decide +kernel, by decide +kernel,
    by constructor <;> decide +kernel, by decide +kernel⟩, by decide +kernel⟩

end HS.Snap
