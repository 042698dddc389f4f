import Verif.Repl.SoloLemmas
/-!
# C63, C64 — the single-copy replicated device across crashes

The user writes through the device and is told by `on_commit` that a write is committed.
-/
namespace HS.Repl.Solo

/-- A history in which no completion overlaps the flush of a checkpoint. -/
def QuietHist (d : Dev) : List Op → Prop
  | [] => True
  | op :: ops => Quiet d op ∧ ∀ d', d.step op = some d' → QuietHist d' ops

/-- Every step of a quiet history keeps the invariant, as long as entry 0 is only counted on if no
crash precedes the first checkpoint. -/
theorem inv_run (z : Prop) (d d' : Dev) (ops : List Op) (hb : Bnd d) (h : Inv z d)
    (hq : QuietHist d ops) (hc : z → d.cps = [] → .crash ∉ ops) (hr : d.run ops = some d') :
    Inv z d' := by
  induction ops generalizing d with
  | nil => simp only [Dev.run, Option.some.injEq] at hr; exact hr ▸ h
  | cons op ops ih =>
    simp only [Dev.run, Option.bind_eq_some_iff] at hr
    obtain ⟨e, he, hr⟩ := hr
    refine ih e (bnd_step d e op hb he)
      (inv_step z d e op hb h hq.1 (fun ho hz hcps => hc hz hcps (by simp [ho])) he) (hq.2 e he)
      (fun hz hcps => ?_) hr
    have hd : d.cps = [] := by
      cases op with
      | crash =>
        simp only [Dev.step, Option.some.injEq] at he; subst he
        rw [(restart_frame d).2.2.2.2.2.2.2.2.2] at hcps; exact hcps
      | cpRepl =>
        simp only [Dev.step] at he
        split at he
        · simp only [Option.some.injEq] at he; subst he; cases hcps
        · cases he
      | append b => simp only [Dev.step, Option.some.injEq] at he; subst he; exact hcps
      | flush => simp only [Dev.step, Option.some.injEq] at he; subst he; exact hcps
      | advance =>
        simp only [Dev.step] at he
        split at he
        · simp only [Option.some.injEq] at he; subst he; exact hcps
        · cases he
      | commitBlk =>
        simp only [Dev.step] at he
        split at he
        · simp only [Option.some.injEq] at he; subst he; exact hcps
        · cases he
      | commit =>
        simp only [Dev.step] at he
        split at he
        · simp only [Option.some.injEq] at he; subst he; exact hcps
        · cases he
      | cpStart =>
        simp only [Dev.step] at he
        split at he
        · simp only [Option.some.injEq] at he; subst he; exact hcps
        · cases he
      | cpData =>
        simp only [Dev.step] at he
        split at he
        · simp only [Option.some.injEq] at he; subst he; exact hcps
        · cases he
      | cpDone =>
        simp only [Dev.step] at he
        split at he
        · simp only [Option.some.injEq] at he; subst he; exact hcps
        · cases he
    intro hmem
    exact hc hz hd (List.mem_cons_of_mem _ hmem)

theorem quiet_append (d : Dev) (xs ys : List Op) (h : QuietHist d (xs ++ ys)) :
    QuietHist d xs ∧ ∀ d', d.run xs = some d' → QuietHist d' ys := by
  induction xs generalizing d with
  | nil =>
    refine ⟨trivial, fun d' hr => ?_⟩
    simp only [Dev.run, Option.some.injEq] at hr
    exact hr ▸ h
  | cons x xs ih =>
    refine ⟨⟨h.1, fun d' hd' => (ih d' (h.2 d' hd')).1⟩, fun d' hr => ?_⟩
    simp only [Dev.run, Option.bind_eq_some_iff] at hr
    obtain ⟨e, he, hr⟩ := hr
    exact (ih e (h.2 e he)).2 d' hr

theorem run_append (d : Dev) (xs ys : List Op) :
    d.run (xs ++ ys) = (d.run xs).bind (fun d' => d'.run ys) := by
  induction xs generalizing d with
  | nil => rfl
  | cons x xs ih =>
    simp only [List.cons_append, Dev.run]
    cases d.step x with
    | none => rfl
    | some e => simp [ih]

/-- After the first checkpoint the superblock is never again the one of a new device. -/
theorem cps_run (d d' : Dev) (ops : List Op) (h : d.cps ≠ []) (hr : d.run ops = some d') :
    d'.cps ≠ [] := by
  induction ops generalizing d with
  | nil => simp only [Dev.run, Option.some.injEq] at hr; exact hr ▸ h
  | cons op ops ih =>
    simp only [Dev.run, Option.bind_eq_some_iff] at hr
    obtain ⟨e, he, hr⟩ := hr
    refine ih e ?_ hr
    cases op <;> simp only [Dev.step] at he <;> (try split at he) <;>
      (try simp only [Option.some.injEq, reduceCtorEq] at he) <;> subst_vars <;> (try exact h)
    · simp
    · rw [(restart_frame d).2.2.2.2.2.2.2.2.2]; exact h

/-- **C63** For every history of writes, journal flushes, commits, checkpoints and crashes of a new
device in which commits and checkpoint flushes do not overlap: if the device then crashes and
restarts, every write that was ever reported by `on_commit` is still there — either its effects are
part of the listener's last checkpoint or `on_commit` has been called for it again — and all its
blocks are allocated.  For the very first write (number 0) this needs that no crash came before the
first checkpoint of the device.

Missing for the full property: commits during the flush of a checkpoint
(`C63_commit_during_checkpoint_violated`, `C63_never_delivered_violated`) and a crash before the
first checkpoint (`C63_first_write_lost_violated`). -/
theorem C63_solo_recovery_partial (hist : List Op) (d : Dev)
    (hr : Dev.create.run hist = some d) (hq : QuietHist Dev.create hist)
    (lsn : Nat) (hl : lsn ∈ d.acked)
    (h0 : lsn = 0 → ∃ pre post, hist = pre ++ .cpRepl :: post ∧ .crash ∉ pre) :
    lsn ∈ d.restart.app ∧ ∀ b ∈ d.log.getD lsn [], b ∈ d.restart.bits := by
  have hbnd := bnd_run _ _ _ bnd_create hr
  have hlt := hbnd.ak lsn hl
  have hblk : d.restart.blks lsn = d.log.getD lsn [] := by
    have := hbnd.nx
    simp only [Dev.blks, (restart_frame d).1, List.getD]
    rw [List.getElem?_take, if_pos (by omega)]
  have key : ∀ z : Prop, Inv z d → (z → d.cps ≠ []) → (lsn = 0 → z) →
      lsn ∈ d.restart.app ∧ ∀ b ∈ d.log.getD lsn [], b ∈ d.restart.bits := by
    intro z hinv hc hz
    have := inv_step z d d.restart .crash hbnd hinv trivial (fun _ => hc) rfl
    have := this.done lsn (by rw [(restart_frame d).2.2.2.1]; have := hbnd.nx; omega) hz
    rw [hblk] at this
    exact this
  by_cases hz : lsn = 0
  · obtain ⟨pre, post, rfl, hpre⟩ := h0 hz
    rw [show pre ++ Op.cpRepl :: post = (pre ++ [.cpRepl]) ++ post by simp] at hr hq
    rw [run_append] at hr
    obtain ⟨e, he, hr⟩ := Option.bind_eq_some_iff.1 hr
    have hq' := quiet_append _ _ _ hq
    have hbe := bnd_run _ _ _ bnd_create he
    have hie : Inv True e := inv_run True _ _ _ bnd_create (inv_create True) hq'.1
      (fun _ _ => by simpa using hpre) he
    have hce : e.cps ≠ [] := by
      rw [run_append] at he
      obtain ⟨f, _, he⟩ := Option.bind_eq_some_iff.1 he
      simp only [Dev.run, Dev.step, Option.bind_eq_some_iff] at he
      obtain ⟨g, hg, he⟩ := he
      split at hg
      · simp only [Option.some.injEq] at hg he
        subst hg; subst he; simp
      · cases hg
    have hid := inv_run True e d post hbe hie (hq'.2 e he) (fun _ h => absurd h hce) hr
    exact key True hid (fun _ => cps_run e d post hce hr) (fun _ => trivial)
  · have hid := inv_run False _ _ _ bnd_create (inv_create False) hq (fun h => h.elim) hr
    exact key False hid (fun h => h.elim) (fun h => absurd h hz)

/-- One write: append, flush, completion. -/
def write (blk : Nat) : List Op := [.append [blk], .flush, .advance, .commitBlk, .commit]

/-- One checkpoint. -/
def checkpoint : List Op := [.cpStart, .cpData, .cpRepl, .cpDone]

/-- Deciding that a history is quiet. -/
def quietB (d : Dev) : List Op → Bool
  | [] => true
  | op :: ops =>
    (match op with
     | .advance | .commitBlk | .commit => decide (d.phase = .idle ∨ d.phase = .replDone)
     | .cpStart => decide (d.work = none)
     | _ => true) &&
    (match d.step op with
     | some d' => quietB d' ops
     | none => true)

theorem quietB_sound (d : Dev) (ops : List Op) (h : quietB d ops = true) : QuietHist d ops := by
  induction ops generalizing d with
  | nil => trivial
  | cons op ops ih =>
    simp only [quietB, Bool.and_eq_true] at h
    refine ⟨?_, fun d' hd' => ih d' ?_⟩
    · have := h.1
      cases op <;> simp_all [Quiet]
    · have := h.2
      rw [hd'] at this
      exact this

/-- A quiet history with writes before and after three checkpoints, two crashes, and an entry that
is on disk but not yet committed at the end. -/
def quietHist : List Op :=
  write 10 ++ checkpoint ++ write 11 ++ write 12 ++ [.crash] ++ checkpoint ++ write 13 ++
    checkpoint ++ write 14 ++ [.crash, .append [15], .flush]

example : QuietHist Dev.create quietHist ∧
    (∃ pre post, quietHist = pre ++ .cpRepl :: post ∧ .crash ∉ pre) ∧
    (Dev.create.run quietHist).map (fun d => (d.acked, d.restart.app, d.restart.bits)) =
      some ([0, 1, 2, 1, 2, 3, 4, 4], [0, 1, 2, 3, 4, 5], [10, 11, 12, 13, 14, 15]) := by
  refine ⟨quietB_sound _ _ (by decide +kernel),
    ⟨write 10 ++ [.cpStart, .cpData], quietHist.drop 8, by decide +kernel, by decide +kernel⟩,
    by decide +kernel⟩

theorem above_eq_range' (u : Int) (lsn k : Nat) (h : (lsn : Int) ≤ u + 1) (hu : -1 ≤ u) :
    above u lsn k = List.range' (u + 1).toNat (lsn + k - (u + 1).toNat) := by
  induction k generalizing lsn with
  | zero =>
    have : lsn + 0 - (u + 1).toNat = 0 := by omega
    rw [this]; rfl
  | succ k ih =>
    rw [above]
    split
    · rw [ih (lsn + 1) (by omega)]
      congr 1; omega
    · have e : lsn = (u + 1).toNat := by omega
      have hab : ∀ (n m : Nat), u < n → above u n m = List.range' n m := by
        intro n m
        induction m generalizing n with
        | zero => intro _; rfl
        | succ m ihm =>
          intro hn
          rw [above, if_neg (by omega), ihm (n + 1) (by omega)]
          rfl
      rw [hab (lsn + 1) k (by omega), ← e]
      have : lsn + (k + 1) - lsn = k + 1 := by omega
      rw [this]; rfl

/-- **C63** (order) After every history whatsoever, a crash and restart calls `on_commit` exactly
once for each entry on disk above the committed number in the superblock, in the order of the
entries and without a gap, up to the last entry on disk. -/
theorem C63_solo_replay_order (hist : List Op) (d : Dev) (hr : Dev.create.run hist = some d) :
    let from_ := (d.sb.durable + 1).toNat
    d.restart.acked = d.acked ++ List.range' from_ (d.flushed - from_) := by
  have hb := bnd_run _ _ _ bnd_create hr
  obtain ⟨fl, nx, wk, fi, up, cp, cpu, c1, c2, lo, tr, du, h0, h1, h2, ak⟩ := hb
  show d.restart.acked = _
  rw [(restart_spec d).2.1, above_eq_range' _ _ _ (by omega) (by omega)]
  congr 2; omega

example : (Dev.create.run (quietHist ++ [.append [16]])).map
    (fun d => (d.sb.durable, d.flushed, d.log.length, d.restart.acked.drop d.acked.length)) =
    some (3, 6, 7, [4, 5]) := by decide +kernel

/-- **C63** is violated by the first write of a device: `durable_commit_lsn` of a new device is 0
and the first write has number 0, so if the device crashes before its first checkpoint, the first
write — committed, reported, and on disk in the journal — is skipped by the replay.  The second
write, in the same situation, is replayed. -/
theorem C63_first_write_lost_violated :
    ∃ d, Dev.create.run (write 10 ++ write 11) = some d ∧ QuietHist Dev.create (write 10 ++ write 11) ∧
      d.acked = [0, 1] ∧ d.flushed = 2 ∧
      d.restart.app = [1] ∧ d.restart.bits = [11] := by
  refine ⟨_, rfl, quietB_sound _ _ (by decide +kernel), ?_⟩
  decide +kernel

/-- A checkpoint has completed, then a second one starts and the data service flushes its bitmap;
a write commits and is reported; then the replication service flushes. -/
def raceHist : List Op :=
  write 10 ++ checkpoint ++ [.cpStart, .cpData] ++ write 11 ++ [.cpRepl, .cpDone]

/-- **C63** is violated by a commit during the flush of a checkpoint: the superblock takes
`m_commit_upto` at the time of its own flush, which is after the data service's.  The write is
counted as checkpointed although neither its block nor its effects are: after a crash `on_commit`
is not called and the block is free. -/
theorem C63_commit_during_checkpoint_violated :
    ∃ d, Dev.create.run raceHist = some d ∧ d.acked = [0, 1] ∧ d.flushed = 2 ∧
      d.sb.durable = 1 ∧ 1 ∉ d.restart.app ∧ 11 ∉ d.restart.bits := by
  refine ⟨_, rfl, ?_⟩
  decide +kernel

/-- The same with a completion that has only just begun: `m_commit_upto` is advanced before the
blocks are committed and the listener is called. -/
def raceHist2 : List Op :=
  write 10 ++ checkpoint ++ [.append [11], .flush, .cpStart, .cpData, .advance, .cpRepl, .crash]

/-- **C63** is violated even in its weakest form: an entry that is on disk in the journal is never
delivered to the listener at all, neither before the crash nor after the restart. -/
theorem C63_never_delivered_violated :
    ∃ d, Dev.create.run raceHist2 = some d ∧ d.flushed = 2 ∧ d.next = 2 ∧ d.acked = [0] ∧
      d.app = [0] ∧ d.bits = [10] ∧ d.first = 0 := by
  refine ⟨_, rfl, ?_⟩
  decide +kernel

/-- **C64** After every history whatsoever, an entry that has been dropped from the journal is
covered by the last three checkpoints: they all completed, and already the oldest of the three
recorded the entry as committed.  And every entry on disk above the committed number in the
superblock — every entry a restart would replay — is still in the journal. -/
theorem C64_solo_journal_retention (hist : List Op) (d : Dev)
    (hr : Dev.create.run hist = some d) :
    (∀ lsn < d.first, ∃ c0 c1 c2 rest, d.cps = c0 :: c1 :: c2 :: rest ∧
      (lsn : Int) ≤ c2 ∧ c2 ≤ c1 ∧ c1 ≤ c0 ∧ c0 = d.sb.durable) ∧
    (∀ lsn < d.flushed, d.sb.durable < (lsn : Int) → d.first ≤ lsn) ∧
    d.first ≤ d.flushed := by
  have hb := bnd_run _ _ _ bnd_create hr
  obtain ⟨fl, nx, wk, fi, up, cp, cpu, c1, c2, lo, tr, du, h0, h1, h2, ak⟩ := hb
  refine ⟨fun lsn hlsn => ?_, fun lsn _ hd => by omega, fi⟩
  match hc : d.cps with
  | [] => rw [hc] at h2; simp at h2; omega
  | [_] => rw [hc] at h2; simp at h2; omega
  | [_, _] => rw [hc] at h2; simp at h2; omega
  | a :: b :: c :: rest =>
    rw [hc] at h0 h1 h2 du
    simp at h0 h1 h2 du
    exact ⟨a, b, c, rest, rfl, by omega, by omega, by omega, by omega⟩

/-- After three checkpoints the two writes that the first one covered are dropped, nothing else. -/
example : (Dev.create.run (write 10 ++ write 11 ++ checkpoint ++ write 12 ++ checkpoint ++
    write 13 ++ checkpoint)).map (fun d => (d.first, d.flushed, d.cps, d.sb.durable)) =
    some (2, 4, [3, 2, 1], 3) := by decide +kernel

end HS.Repl.Solo
