import Verif.Life.Fair

/-!
# C91, C92, C93: the life of a replication group on one member

* C91: a removed group does not come back, leaves nothing on disk, and the application is told.
* C92: whenever the machine fails, the next start succeeds and finds a group whole or not at all.
* C93: a removal that was asked for either happens or leaves the group as it was; a removed group
  takes no writes.
-/
namespace HS.Life

/-! ## C91 -/

/-- **C91.** Once the removal of a group is on disk, whatever happens next (failures at any point,
further calls to remove it, checkpoints), short of creating the group anew: after a failure of the
machine a member that runs does not have the group and has nothing of it on disk. -/
theorem C91_removed_for_good {before after : List Op} {s s' : St} {m : Mem}
    (h1 : run St.init before = some s) (hr : Recorded s.disk)
    (h2 : run s after = some s') (hc : .create ∉ after) (hx : .crash ∈ after)
    (hm : s'.proc = .up m) : m.dev = none ∧ s'.disk = Disk.empty := by
  have hg := (going_run (all_run h1) (going_of_recorded (all_run h1) hr) hc h2).1 hx
  simp only [Gone, hm] at hg
  exact ⟨by rw [hg.1]; rfl, hg.2⟩

/-- It is met: a group is created, written to and removed; the machine fails, and once more in the
middle of the next start; the start after that ends. -/
example : ∃ s s' m, run St.init (creation ++ [.write] ++ removal) = some s ∧ Recorded s.disk ∧
    run s ([.gcBegin, .gcStep, .gcStep, .crash, .bootStep, .bootStep, .bootStep, .crash] ++ start) =
      some s' ∧ s'.proc = .up m :=
  ⟨_, _, _, rfl, rfl, rfl, rfl⟩

/-- **C91.** The same, while the machine does not fail: a member never has a superblock on disk
that would let the next start load the removed group. -/
theorem C91_removal_not_undone {before after : List Op} {s s' : St}
    (h1 : run St.init before = some s) (hr : Recorded s.disk)
    (h2 : run s after = some s') (hc : .create ∉ after) : s'.disk.rd ≠ some false := by
  have hg := (going_run (all_run h1) (going_of_recorded (all_run h1) hr) hc h2).2
  rcases hg with hg | hg
  · simp only [Gone] at hg
    split at hg
    · exact hg
    · exact hg
    · exact hg.1
    · rw [hg.2]; simp [Disk.empty]
  · exact hg.1

example : ∃ s s', run St.init (creation ++ removal) = some s ∧ Recorded s.disk ∧
    run s [.rmBegin, .rmProposeFail, .write, .cpCheck, .cpWrite] = some s' ∧
    s'.disk.rd = some true :=
  ⟨_, _, rfl, rfl, rfl, rfl⟩

/-- **C91 (partial).** In a fair history, a group whose removal is done is collected: the
collector's steps run to their end, nothing is left on disk, the member does not have the group and
the application was told. Not covered: histories that are not fair (see the violations). -/
theorem C91_collected_partial {ops : List Op} {s : St} {m : Mem} {d : Dev}
    (h : RunP Fair St.init ops s) (hm : s.proc = .up m) (hd : m.dev = some d)
    (hst : d.stage = .destroyed) (hlv : m.lv = none) (hgc : m.gc = none) (hcp : m.cp = false) :
    run s collection = some ⟨Disk.empty, .up Mem.idle, false⟩ := by
  have hok := ok_run h
  obtain ⟨dk, p, a⟩ := s
  simp only at hm
  subst hm
  obtain ⟨dv, cr, lv, gc, cp, calls⟩ := m
  simp only at hd hlv hgc hcp
  subst hd hlv hgc hcp
  simp only [Ok, UpOk] at hok
  cases cr with
  | some k => exact absurd hok.1 (by simp)
  | none =>
    obtain ⟨hl, _, _⟩ := hok
    obtain ⟨rd, cfg, ld, rb, chunks⟩ := dk
    simp [collection, List.replicate, run, step, upStep, gcStep, hst, hl, Disk.empty]

example : ∃ s m d, RunP Fair St.init (creation ++ [.write, .rmBegin, .rmProposed] ++ removal) s ∧
    s.proc = .up m ∧ m.dev = some d ∧ d.stage = .destroyed ∧ m.lv = none ∧ m.gc = none ∧
    m.cp = false := by
  refine ⟨_, _, _, ⟨_, rfl, ?_, _, rfl, ?_, _, rfl, ?_, _, rfl, ?_, _, rfl, ?_, _, rfl, ?_, _, rfl, ?_,
    _, rfl, ?_, _, rfl, ?_, _, rfl, ?_, _, rfl, ?_, _, rfl, ?_, rfl⟩, rfl, rfl, rfl, rfl, rfl, rfl⟩
  all_goals (simp [Fair, Mem.idle])
  rintro m d rfl hd
  cases hd
  rfl

/-- **C91 (partial).** In a fair history in which the machine does not fail between the record of
a removal and the collector's call of `on_destroy`, the application holds nothing for a group that
a running member does not have. -/
theorem C91_application_told_partial {ops : List Op} {s : St} {m : Mem}
    (h : RunP FairApp St.init ops s) (hm : s.proc = .up m) (hd : m.dev = none) : s.app = false := by
  have := (app_run h).2
  cases ha : s.app with
  | false => rfl
  | true =>
    have := this ha
    simp only [hm] at this
    exact absurd hd this.1

/-- It is met: a group is created, written to, removed and collected, and the machine fails. -/
example : ∃ s, RunP FairApp St.init
      (creation ++ [.write] ++ removal ++ [.gcBegin, .gcStep, .crash] ++ start) s ∧
    s.proc = .up Mem.idle := by
  refine ⟨_, ⟨_, rfl, ?_, _, rfl, ?_, _, rfl, ?_, _, rfl, ?_, _, rfl, ?_, _, rfl, ?_, _, rfl, ?_,
    _, rfl, ?_, _, rfl, ?_, _, rfl, ?_, _, rfl, ?_, _, rfl, ?_, _, rfl, ?_, _, rfl, ?_, _, rfl, ?_,
    _, rfl, ?_, _, rfl, ?_, _, rfl, ?_, _, rfl, ?_, _, rfl, ?_, _, rfl, ?_, _, rfl, ?_, _, rfl, ?_,
    rfl⟩, rfl⟩
  all_goals (simp [FairApp, Fair, Torn, Mem.idle])

/-- **C91 (violated).** The application need not be told: the machine fails after the removal was
recorded and before the collector comes to it; the next start drops the group without a word, and
however the member goes on without creating the group again, the application holds its structures
for ever. -/
theorem C91_application_not_told_violated :
    ∃ s, run St.init (creation ++ [.write] ++ removal ++ [.crash] ++ start) = some s ∧
      s.proc = .up Mem.idle ∧ s.disk = Disk.empty ∧ s.app = true ∧
      ∀ ops s', .create ∉ ops → run s ops = some s' → s'.app = true := by
  refine ⟨_, rfl, rfl, rfl, rfl, fun ops s' hc hr => ?_⟩
  refine (run_inv (I := fun s => Gone s ∧ s.app = true) (fun s op t hm hi hs => ?_) hr
    ⟨⟨rfl, rfl⟩, rfl⟩).2
  have hne : op ≠ .create := fun e => hc (e ▸ hm)
  refine ⟨gone_step hi.1 hne hs, ?_⟩
  obtain ⟨hg, ha⟩ := hi
  obtain ⟨d, p, a⟩ := s
  simp only at ha
  subst ha
  cases p with
  | dead => simp only [step] at hs; steps hs; cases hs; rfl
  | down => simp only [step] at hs; steps hs; cases hs; rfl
  | boot b =>
    cases op <;> simp only [step] at hs <;> try (cases hs; done)
    · cases hs; rfl
    · obtain ⟨k, dv, o⟩ := b
      rcases k with _|_|_|_|_|_|_|_|_|k <;> simp only [bootStep] at hs <;> steps hs <;>
        cases hs <;> rfl
  | up m =>
    obtain ⟨h1, _⟩ := hg
    subst h1
    cases op <;> simp only [step, upStep, Mem.idle] at hs <;> try (cases hs; done)
    · exact absurd rfl hne
    · cases hs; rfl

/-- The superblock of a log device is on disk without its rollback block. -/
def Headless (s : St) : Prop :=
  s.disk.ld = true ∧ s.disk.rb = false ∧
    match s.proc with
    | .up _ => False
    | .boot b => b.k ≤ 3
    | _ => True

theorem headless_step {s t : St} {op : Op} (hi : Headless s) (h : step s op = some t) :
    Headless t := by
  obtain ⟨⟨rd, cfg, ld, rb, chunks⟩, p, a⟩ := s
  obtain ⟨h1, h2, h3⟩ := hi
  simp only at h1 h2
  subst h1 h2
  cases p with
  | dead => simp only [step] at h; steps h; cases h; exact ⟨rfl, rfl, trivial⟩
  | down => simp only [step] at h; steps h; cases h; exact ⟨rfl, rfl, by simp⟩
  | up m => exact h3.elim
  | boot b =>
    cases op <;> simp only [step] at h <;> try (cases h; done)
    · cases h; exact ⟨rfl, rfl, trivial⟩
    · obtain ⟨k, dv, o⟩ := b
      simp only at h3
      rcases k with _|_|_|_|k <;> simp only [bootStep] at h <;> steps h <;>
        first | (cases h; simp_all [Headless, die]; done) | omega | (simp_all; done)

theorem headless_run {s s' : St} {ops : List Op} (hi : Headless s) (h : run s ops = some s') :
    ∀ m, s'.proc ≠ .up m := by
  intro m e
  have := run_inv (fun _ _ _ _ hi h => headless_step hi h) h hi
  simp only [Headless, e] at this
  exact this.2.2

/-- **C91 (violated).** The machine fails while the collector removes the group, between the two
blocks of its log device: no start of the member ends ever after. -/
theorem C91_failure_in_collection_violated :
    ∃ s, run St.init (creation ++ [.write] ++ removal ++
        [.gcBegin, .gcStep, .gcStep, .gcStep, .gcStep, .crash]) = some s ∧
      ∀ ops s', run s ops = some s' → ∀ m, s'.proc ≠ .up m :=
  ⟨_, rfl, fun _ _ h => headless_run ⟨rfl, rfl, trivial⟩ h⟩

/-- **C91 (violated).** A checkpoint that looks at the stage before the collector removes the
superblock, and writes it after, follows a null pointer. -/
theorem C91_checkpoint_beside_collection_violated :
    ∃ s, run St.init (creation ++ removal ++ [.cpCheck] ++ collection.take 8 ++ [.cpWrite]) =
      some s ∧ s.proc = .dead :=
  ⟨_, rfl, rfl⟩

/-! ## C92 -/

/-- **C92 (partial).** In a fair history, after a failure of the machine the next start ends. If the
superblock of the group was on disk without the record of a removal, the group is then there, whole,
with a listener and ready for writes; if not, the member does not have the group and nothing of it
is on disk. Not covered: histories that are not fair (see the violations). -/
theorem C92_start_finds_whole_or_nothing_partial {ops : List Op} {s : St}
    (h : RunP Fair St.init ops s) (hp : s.proc = .down) :
    ∃ s' m, run s start = some s' ∧ s'.proc = .up m ∧
      (s.disk.rd = some false →
        ∃ d, m.dev = some d ∧ d.stage = .active ∧ d.listener = true ∧ Whole s'.disk) ∧
      (s.disk.rd ≠ some false → m.dev = none ∧ s'.disk = Disk.empty) := by
  have hok := ok_run h
  simp only [Ok, hp] at hok
  obtain ⟨s', dv, hr, hm, _, hu, hrd, hst⟩ := start_ends hp hok
  refine ⟨s', _, hr, hm, fun hs => ?_, fun hs => ?_⟩
  · simp only [UpOk, Mem.idle] at hu
    cases dv with
    | none => rw [hu.2] at hrd; exact absurd (hrd.mpr hs) (by simp [Disk.empty])
    | some d =>
      obtain ⟨hl, ⟨h1, h2, h3, h4, _⟩, _⟩ := hu
      exact ⟨d, rfl, hst d rfl, hl, hrd.mpr hs, h2, h3, h4⟩
  · simp only [UpOk, Mem.idle] at hu
    cases dv with
    | none => exact ⟨rfl, hu.2⟩
    | some d =>
      obtain ⟨hl, ⟨h1, _⟩, _, h2, _⟩ := hu
      have := (h2 (hst d rfl)).1
      rw [this] at h1
      exact absurd (hrd.mp h1) hs

/-- It is met, both ways: the machine fails after a creation, and in the course of one. -/
example : ∃ s, RunP Fair St.init (creation ++ [.write, .crash]) s ∧ s.proc = .down ∧
    s.disk.rd = some false := by
  refine ⟨_, ⟨_, rfl, ?_, _, rfl, ?_, _, rfl, ?_, _, rfl, ?_, _, rfl, ?_, _, rfl, ?_, _, rfl, ?_,
    _, rfl, ?_, rfl⟩, rfl, rfl⟩
  all_goals (simp [Fair, Torn])

example : ∃ s, RunP Fair St.init [.create, .mkStep, .mkStep, .crash] s ∧ s.proc = .down ∧
    s.disk.rd ≠ some false ∧ s.disk.ld = true := by
  refine ⟨_, ⟨_, rfl, ?_, _, rfl, ?_, _, rfl, ?_, _, rfl, ?_, rfl⟩, rfl, by decide, rfl⟩
  all_goals (simp [Fair, Torn, Disk.empty, St.init])

/-- **C92 (partial).** In a fair history the process does not end itself. -/
theorem C92_never_dies_partial {ops : List Op} {s : St} (h : RunP Fair St.init ops s) :
    s.proc ≠ .dead := by
  intro e
  have := ok_run h
  simp only [Ok, e] at this

/-- **C92 (partial).** In a fair history a group that a running member has, and that the collector
is not at, is whole on disk, but for the record of its removal; what is on disk of a group that the
member neither has nor creates is nothing. -/
theorem C92_running_whole_or_nothing_partial {ops : List Op} {s : St} {m : Mem}
    (h : RunP Fair St.init ops s) (hm : s.proc = .up m) (hc : m.cr = none) (hg : m.gc = none) :
    (m.dev = none ∧ s.disk = Disk.empty) ∨
    (∃ d, m.dev = some d ∧ d.listener = true ∧ (Whole s.disk ∨ Recorded s.disk) ∧
      s.disk.cfg = true ∧ s.disk.ld = true ∧ s.disk.rb = true) := by
  have hok := ok_run h
  simp only [Ok, UpOk, hm, hc] at hok
  cases hd : m.dev with
  | none => rw [hd] at hok; exact Or.inl ⟨rfl, hok.2⟩
  | some d =>
    rw [hd, hg] at hok
    obtain ⟨hl, ⟨h1, h2, h3, h4, _⟩, _⟩ := hok
    refine Or.inr ⟨d, rfl, hl, ?_, h2, h3, h4⟩
    cases hp : d.pend with
    | false => left; exact ⟨by rw [h1, hp], h2, h3, h4⟩
    | true => right; rw [Recorded, h1, hp]

/-- **C92 (violated).** The machine fails in the course of a creation, between the two blocks of
the log device: no start of the member ends ever after. -/
theorem C92_failure_between_log_blocks_violated :
    ∃ s, run St.init [.create, .mkStep, .crash] = some s ∧
      ∀ ops s', run s ops = some s' → ∀ m, s'.proc ≠ .up m :=
  ⟨_, rfl, fun _ _ h => headless_run ⟨rfl, rfl, trivial⟩ h⟩

/-- The group is on disk without its Raft configuration. -/
def Listless (s : St) : Prop :=
  s.disk.rd = some false ∧ s.disk.cfg = false ∧
    match s.proc with
    | .up _ => False
    | .boot b => b.k ≤ 4 ∧ (2 ≤ b.k → b.dev ≠ none) ∧ ∀ d, b.dev = some d → d.listener = false
    | _ => True

theorem listless_step {s t : St} {op : Op} (hi : Listless s) (h : step s op = some t) :
    Listless t := by
  obtain ⟨⟨rd, cfg, ld, rb, chunks⟩, p, a⟩ := s
  obtain ⟨h1, h2, h3⟩ := hi
  simp only at h1 h2
  subst h1 h2
  cases p with
  | dead => simp only [step] at h; steps h; cases h; exact ⟨rfl, rfl, trivial⟩
  | down => simp only [step] at h; steps h; cases h; exact ⟨rfl, rfl, by simp⟩
  | up m => exact h3.elim
  | boot b =>
    cases op <;> simp only [step] at h <;> try (cases h; done)
    · cases h; exact ⟨rfl, rfl, trivial⟩
    · obtain ⟨k, dv, o⟩ := b
      simp only at h3
      rcases k with _|_|_|_|_|k <;> simp only [bootStep] at h <;> steps h <;>
        first | (cases h; simp_all [Listless, die]; done) | omega | (simp_all; done)

/-- **C92 (violated).** The machine fails in the course of a creation, when the superblock of the
group is on disk and its Raft configuration is not: no start of the member ends ever after. -/
theorem C92_failure_before_configuration_violated :
    ∃ s, run St.init [.create, .mkStep, .mkStep, .mkStep, .crash] = some s ∧
      ∀ ops s', run s ops = some s' → ∀ m, s'.proc ≠ .up m := by
  refine ⟨_, rfl, fun ops s' h m e => ?_⟩
  have := run_inv (fun _ _ _ _ hi h => listless_step hi h) h ⟨rfl, rfl, trivial⟩
  simp only [Listless, e] at this
  exact this.2.2

/-! ## C93 -/

/-- **C93 (partial).** In a fair history, a group takes writes only if its removal is not on disk
and has not begun. Not covered: histories that are not fair. -/
theorem C93_writes_only_before_removal_partial {ops : List Op} {s : St}
    (h : RunP Fair St.init ops s) (hw : Serves s) :
    Whole s.disk ∧ ∃ m, s.proc = .up m ∧ m.lv = none ∧ m.gc = none ∧ m.calls = 0 := by
  have hok := ok_run h
  obtain ⟨s', hs⟩ := hw
  obtain ⟨d, p, a⟩ := s
  cases p with
  | dead => simp [step] at hs
  | down => simp [step] at hs
  | boot b => simp [step] at hs
  | up m =>
    simp only [step, upStep] at hs
    cases hd : m.dev with
    | none => rw [hd] at hs; cases hs
    | some dv =>
      rw [hd] at hs
      simp only [write] at hs
      split at hs
      · rename_i hst
        simp only [Ok, UpOk] at hok
        cases hc : m.cr with
        | some k => rw [hc] at hok; rw [hok.1] at hd; cases hd
        | none =>
          rw [hc, hd] at hok
          obtain ⟨hl, hg, _, h2, _⟩ := hok
          obtain ⟨e1, e2, e3, e4, e5⟩ := h2 hst
          cases hgc : m.gc with
          | some k =>
            rw [hgc] at hg
            have := hg.2.2.2.1
            rw [hst] at this
            split at this <;> cases this
          | none =>
            rw [hgc] at hg
            obtain ⟨g1, g2, g3, g4, _⟩ := hg
            exact ⟨⟨by rw [g1, e1], g2, g3, g4⟩, m, rfl, e4, hgc, e5⟩
      · cases hs

/-- It is met: after a creation. -/
example : ∃ s, RunP Fair St.init creation s ∧ Serves s := by
  refine ⟨_, ⟨_, rfl, ?_, _, rfl, ?_, _, rfl, ?_, _, rfl, ?_, _, rfl, ?_, _, rfl, ?_, rfl⟩, ⟨_, rfl⟩⟩
  all_goals (simp [Fair])

/-- **C93 (partial).** A call to remove a group that is active, and which Raft refuses, leaves
everything as it was before the call, if nothing else happened in between. -/
theorem C93_refused_call_changes_nothing_partial {s t u : St} (h1 : step s .rmBegin = some t) (hf : Fair s .rmBegin)
    (h2 : step t .rmProposeFail = some u) : u = s := by
  obtain ⟨d, p, a⟩ := s
  cases p with
  | dead => simp [step] at h1
  | down => simp [step] at h1
  | boot b => simp [step] at h1
  | up m =>
    obtain ⟨dv, cr, lv, gc, cp, calls⟩ := m
    cases dv with
    | none => simp [step, upStep] at h1
    | some dv =>
      have hst : dv.stage = .active := hf _ dv rfl rfl
      simp only [step, upStep, Option.some.injEq] at h1
      subst h1
      simp only [step, upStep, Nat.add_one_ne_zero, if_false, Option.some.injEq] at h2
      subst h2
      obtain ⟨st, l, pe, ta, dn⟩ := dv
      simp only at hst
      subst hst
      simp

/-- **C93 (partial).** In a fair history, a call to remove a group whose proposal Raft accepts gets
the future it is to wait for: it is the first to ask for it. -/
theorem C93_call_gets_its_future_partial {ops : List Op} {s t : St} {m : Mem} {d : Dev}
    (h : RunP Fair St.init ops s) (hm : s.proc = .up m) (hd : m.dev = some d)
    (h1 : step s .rmProposed = some t) : d.taken = false := by
  have hok := ok_run h
  simp only [Ok, UpOk, hm] at hok
  cases hc : m.cr with
  | some k => rw [hc] at hok; rw [hok.1] at hd; cases hd
  | none =>
    rw [hc, hd] at hok
    obtain ⟨_, _, _, _, _, _, _, h6, h7⟩ := hok
    simp only [step, hm, upStep, hd] at h1
    split at h1
    · cases h1
    · exact h7 (by omega)

example : ∃ s m d t, RunP Fair St.init (creation ++ [.rmBegin]) s ∧ s.proc = .up m ∧
    m.dev = some d ∧ step s .rmProposed = some t := by
  refine ⟨_, _, _, _, ⟨_, rfl, ?_, _, rfl, ?_, _, rfl, ?_, _, rfl, ?_, _, rfl, ?_, _, rfl, ?_,
    _, rfl, ?_, rfl⟩, rfl, rfl, rfl⟩
  all_goals (simp [Fair, Mem.idle])
  rintro m d rfl hd
  cases hd
  rfl

/-- **C93 (violated).** A call to remove a group that is removed already, refused by Raft because
this member is not the leader, makes the group active again: it takes a write, which is gone, with
the group, after the next start, while the application keeps what it stored for it. -/
theorem C93_refused_call_revives_violated :
    ∃ s s' s'', run St.init (creation ++ removal ++ [.rmBegin, .rmProposeFail]) = some s ∧
      Recorded s.disk ∧ step s .write = some s' ∧ run s' (.crash :: start) = some s'' ∧
      s''.proc = .up Mem.idle ∧ s''.disk = Disk.empty ∧ s''.app = true :=
  ⟨_, _, _, rfl, rfl, rfl, rfl, rfl, rfl, rfl⟩

/-- **C93 (violated).** A call that overlaps with a removal that another member asked for undoes it
in the same way. -/
theorem C93_overlapping_call_revives_violated :
    ∃ s, run St.init (creation ++ [.rmBegin] ++ removal ++ [.rmProposeFail]) = some s ∧
      Recorded s.disk ∧ Serves s ∧ step s .gcBegin = none :=
  ⟨_, rfl, rfl, ⟨_, rfl⟩, rfl⟩

/-- The stage is `DESTROYING` and no call is under way. -/
def Locked (s : St) : Prop :=
  ∃ m d, s.proc = .up m ∧ m.dev = some d ∧ d.stage = .destroying ∧ m.calls = 0 ∧ m.cr = none ∧
    m.gc = none ∧ m.lv = none ∧ s.disk.rd ≠ none

theorem locked_step {s t : St} {op : Op} (hi : Locked s) (h1 : op ≠ .rmBegin) (h2 : op ≠ .leave)
    (h3 : op ≠ .crash) (h : step s op = some t) : Locked t := by
  obtain ⟨d, p, a⟩ := s
  obtain ⟨m, dv, hp, hd, hst, hca, hcr, hgc, hlv, hrd⟩ := hi
  simp only at hp hrd
  subst hp
  obtain ⟨dv', cr, lv, gc, cp, calls⟩ := m
  simp only at hd hca hcr hgc hlv
  subst hd hca hcr hgc hlv
  cases op <;> simp only [step, upStep, write] at h <;> steps h
  all_goals first
    | (cases h; simp_all [Locked]; done)
    | (exact absurd rfl h1)
    | (exact absurd rfl h2)
    | (exact absurd rfl h3)
    | (simp_all; done)

/-- **C93 (violated).** A call that fails because the group is quiesced leaves it unusable: as long
as nobody asks to remove it again, no other member has it removed and the machine does not fail, the
group takes no write, though nothing on disk says it is to be removed. -/
theorem C93_failed_call_locks_violated :
    ∃ s, run St.init (creation ++ [.rmBegin, .rmInitFail]) = some s ∧ Whole s.disk ∧
      ∀ ops s', .rmBegin ∉ ops → .leave ∉ ops → .crash ∉ ops → run s ops = some s' → ¬ Serves s' := by
  refine ⟨_, rfl, ⟨rfl, rfl, rfl, rfl⟩, fun ops s' h1 h2 h3 hr hw => ?_⟩
  have hl : Locked s' := run_inv (I := Locked) (fun s op t hm hi hs =>
    locked_step hi (fun e => h1 (e ▸ hm)) (fun e => h2 (e ▸ hm)) (fun e => h3 (e ▸ hm)) hs) hr
    ⟨_, _, rfl, rfl, rfl, rfl, rfl, rfl, rfl, by simp⟩
  obtain ⟨m, d, hp, hd, hst, _⟩ := hl
  obtain ⟨t, ht⟩ := hw
  simp [step, hp, upStep, hd, write, hst] at ht

/-- **C93 (violated).** Removing a group twice ends the process: the second call gets an exception
instead of its future, and the commit of its entry fulfils a promise that is fulfilled. -/
theorem C93_second_removal_violated :
    ∃ s m d s', run St.init (creation ++ [.rmBegin, .rmProposed] ++ removal ++ [.rmBegin]) = some s ∧
      s.proc = .up m ∧ m.dev = some d ∧ d.taken = true ∧
      run s (.rmProposed :: removal) = some s' ∧ s'.proc = .dead :=
  ⟨_, _, _, _, rfl, rfl, rfl, rfl, rfl, rfl⟩

end HS.Life
