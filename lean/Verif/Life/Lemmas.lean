import Verif.Life.Spec

/-! # Invariants of the life of a group -/
namespace HS.Life

theorem run_append {s s' : St} {a b : List Op} :
    run s (a ++ b) = some s' ↔ ∃ t, run s a = some t ∧ run t b = some s' := by
  induction a generalizing s with
  | nil => simp [run]
  | cons op a ih =>
    simp only [List.cons_append, run]
    cases h : step s op with
    | none => simp
    | some t => simpa using ih

theorem runP_run {P : St → Op → Prop} {s s' : St} {ops : List Op} (h : RunP P s ops s') :
    run s ops = some s' := by
  induction ops generalizing s with
  | nil => simpa [RunP, run] using h
  | cons op ops ih =>
    obtain ⟨t, h1, _, h2⟩ := h
    simp [run, h1, ih h2]

theorem runP_mono {P Q : St → Op → Prop} (hpq : ∀ s op, P s op → Q s op) {s s' : St}
    {ops : List Op} (h : RunP P s ops s') : RunP Q s ops s' := by
  induction ops generalizing s with
  | nil => exact h
  | cons op ops ih =>
    obtain ⟨t, h1, hp, h2⟩ := h
    exact ⟨t, h1, hpq _ _ hp, ih h2⟩

theorem runP_inv {P : St → Op → Prop} {I : St → Prop}
    (hstep : ∀ s op t, I s → step s op = some t → P s op → I t) {s s' : St} {ops : List Op}
    (h : RunP P s ops s') (hi : I s) : I s' := by
  induction ops generalizing s with
  | nil => cases h; exact hi
  | cons op ops ih =>
    obtain ⟨t, h1, hp, h2⟩ := h
    exact ih h2 (hstep _ _ _ hi h1 hp)

theorem run_inv {I : St → Prop} {s s' : St} {ops : List Op}
    (hstep : ∀ s op t, op ∈ ops → I s → step s op = some t → I t)
    (h : run s ops = some s') (hi : I s) : I s' := by
  induction ops generalizing s with
  | nil => simp only [run, Option.some.injEq] at h; exact h ▸ hi
  | cons op ops ih =>
    simp only [run] at h
    cases h1 : step s op with
    | none => simp [h1] at h
    | some t =>
      rw [h1] at h
      exact ih (fun s op t hm => hstep s op t (List.mem_cons_of_mem _ hm)) h
        (hstep _ _ _ List.mem_cons_self hi h1)

/-! ## Of all histories -/

/-- The start has loaded nothing of a removed group. -/
def BootAll (d : Disk) (b : Boot) : Prop :=
  (b.k ≤ 1 → b.dev = none ∧ b.opened = false) ∧
  (2 ≤ b.k → d.rd ≠ some true ∧ (d.rd = none → b.dev = none ∧ b.opened = false) ∧
    (d.rd = some false → b.dev ≠ none) ∧ (∀ dv, b.dev = some dv → dv.pend = false))

/-- What holds of a running member in every history. -/
def UpAll (d : Disk) (m : Mem) : Prop :=
  match m.cr with
  | some k => m.dev = none ∧ m.gc = none ∧ d.rd ≠ some true ∧ (k ≤ 2 → d.rd = none)
  | none =>
    match m.dev with
    | none => d.rd = none ∧ m.gc = none
    | some dv => (d.rd = none ∨ d.rd = some dv.pend) ∧ (m.gc = some 7 → d.rd = none)

/-- What holds in every history. -/
def All (s : St) : Prop :=
  match s.proc with
  | .boot b => BootAll s.disk b
  | .up m => UpAll s.disk m
  | _ => True

/-- Takes a step apart. -/
macro "steps" h:ident : tactic =>
  `(tactic| (
    repeat' first
      | (cases $h:ident; done)
      | split at $h:ident))

theorem all_step {s t : St} {op : Op} (hi : All s) (h : step s op = some t) : All t := by
  obtain ⟨d, p, a⟩ := s
  cases p with
  | dead => simp only [step] at h; steps h; cases h; trivial
  | down =>
    simp only [step] at h
    steps h
    cases h; exact ⟨fun _ => ⟨rfl, rfl⟩, fun h => by simp at h⟩
  | boot b =>
    simp only [All] at hi
    cases op <;> simp only [step] at h <;> try (cases h; done)
    · cases h; simp [crash, All]
    · obtain ⟨k, dv, o⟩ := b
      rcases k with _|_|_|_|_|_|_|_|_|k <;> simp only [bootStep] at h <;> steps h <;>
        cases h <;> simp_all [All, BootAll, UpAll, die, Mem.idle]
      cases dv with
      | none => rcases hrd : d.rd with _ | _ | _ <;> simp_all
      | some dv =>
        obtain ⟨h1, _, _, h3⟩ := hi
        have := h3 dv rfl
        rcases hrd : d.rd with _ | _ | _ <;> simp_all
  | up m =>
    simp only [All] at hi
    obtain ⟨dv, cr, lv, gc, cp, calls⟩ := m
    cases op <;> simp only [step, upStep, write, leave] at h <;> steps h
    all_goals first
      | (cases h; simp_all [All, UpAll, crash, die]; done)
      | (cases cr <;> cases h <;> simp_all [All, UpAll, crash, die]; done)
      | skip
    · rename_i k
      rcases k with _|_|_|_|_|k <;> simp only [mkStep] at h <;> cases h <;>
        simp_all [All, UpAll]
      rcases hrd : d.rd with _ | _ | _ <;> simp_all
    · rename_i dv k
      cases cr with
      | some j => simp [UpAll] at hi
      | none =>
        rcases k with _|_|k <;> simp only [leaveStep] at h <;> steps h <;> cases h <;>
          simp_all [All, UpAll, die]
    · rename_i dv k
      cases cr with
      | some j => simp [UpAll] at hi
      | none =>
        rcases k with _|_|_|_|_|_|_|_|k <;> simp only [gcStep] at h <;> steps h <;> cases h <;>
          simp_all [All, UpAll, die, Mem.idle]

/-! ## Of a group whose removal is on disk -/

/-- After a failure of the machine, a removed group is on its way out. -/
def Gone (s : St) : Prop :=
  match s.proc with
  | .down => s.disk.rd ≠ some false
  | .dead => s.disk.rd ≠ some false
  | .boot b => s.disk.rd ≠ some false ∧ b.dev = none ∧ b.opened = false ∧
      (2 ≤ b.k → s.disk.rd = none) ∧ (3 ≤ b.k → s.disk.cfg = false) ∧
      (6 ≤ b.k → s.disk.chunks = false) ∧ (7 ≤ b.k → s.disk.rb = false) ∧
      (8 ≤ b.k → s.disk.ld = false)
  | .up m => m = Mem.idle ∧ s.disk = Disk.empty

/-- A removed group, before or after a failure of the machine. -/
def Going (s : St) : Prop :=
  Gone s ∨ (s.disk.rd ≠ some false ∧
    (s.proc = .dead ∨ ∃ m, s.proc = .up m ∧ m.cr = none ∧ ∀ d, m.dev = some d → d.pend = true))

theorem gone_step {s t : St} {op : Op} (hi : Gone s) (hc : op ≠ .create)
    (h : step s op = some t) : Gone t := by
  obtain ⟨d, p, a⟩ := s
  cases p with
  | dead => simp only [step] at h; steps h; cases h; simpa [Gone, crash] using hi
  | down =>
    simp only [step] at h
    steps h
    cases h; simp only [Gone] at hi; simp [Gone, hi]
  | boot b =>
    simp only [Gone] at hi
    cases op <;> simp only [step] at h <;> try (cases h; done)
    · cases h; simp [crash, Gone, hi]
    · obtain ⟨k, dv, o⟩ := b
      rcases k with _|_|_|_|_|_|_|_|_|k <;> simp only [bootStep] at h <;> steps h <;>
        cases h <;> simp_all [Gone, die, Mem.idle, Disk.empty]
      obtain ⟨rd, cfg, ld, rb, chunks⟩ := d
      simp_all
  | up m =>
    obtain ⟨h1, h2⟩ := hi
    simp only at h1 h2
    subst h1 h2
    cases op <;> simp only [step, upStep, Mem.idle] at h <;> try (cases h; done)
    · exact absurd rfl hc
    · cases h; simp [crash, Gone, Disk.empty]

theorem going_step {s t : St} {op : Op} (hi : Going s) (ha : All s) (hc : op ≠ .create)
    (h : step s op = some t) : Going t ∧ (op = .crash → Gone t) := by
  rcases hi with hi | ⟨hrd, hi⟩
  · have := gone_step hi hc h
    exact ⟨Or.inl this, fun _ => this⟩
  · obtain ⟨d, p, a⟩ := s
    rcases hi with hi | ⟨m, hp, hcr, hpe⟩
    · simp only at hi
      subst hi
      simp only [step] at h
      steps h
      cases h
      have : Gone (crash ⟨d, .dead, a⟩) := by simpa [Gone, crash] using hrd
      exact ⟨Or.inl this, fun _ => this⟩
    · simp only at hp hrd
      subst hp
      obtain ⟨dv, cr, lv, gc, cp, calls⟩ := m
      simp only at hcr hpe
      subst hcr
      by_cases hop : op = .crash
      · subst hop
        simp only [step] at h
        cases h
        have : Gone (crash ⟨d, .up ⟨dv, none, lv, gc, cp, calls⟩, a⟩) := by
          simpa [Gone, crash] using hrd
        exact ⟨Or.inl this, fun _ => this⟩
      · refine ⟨Or.inr ?_, fun h => absurd h hop⟩
        cases op <;> simp only [step, upStep, write, leave] at h <;> steps h
        all_goals first
          | (exact absurd rfl hc)
          | (exact absurd rfl hop)
          | (cases h; simp_all [crash, die]; done)
          | skip
        · rename_i dv k
          rcases k with _|_|k <;> simp only [leaveStep] at h <;> steps h <;> cases h <;>
            simp_all [die]
        · rename_i dv k
          rcases k with _|_|_|_|_|_|_|_|k <;> simp only [gcStep] at h <;> steps h <;> cases h <;>
            simp_all [die, Mem.idle]

theorem all_init : All St.init := by simp [All, UpAll, St.init, Mem.idle, Disk.empty]

theorem all_run {s : St} {ops : List Op} (h : run St.init ops = some s) : All s :=
  run_inv (fun _ _ _ _ hi h => all_step hi h) h all_init

theorem going_of_recorded {s : St} (ha : All s) (hr : s.disk.rd = some true) : Going s := by
  obtain ⟨d, p, a⟩ := s
  simp only at hr
  cases p with
  | dead => left; simp [Gone, hr]
  | down => left; simp [Gone, hr]
  | boot b =>
    left
    simp only [All, BootAll] at ha
    simp only [Gone]
    by_cases hk : 2 ≤ b.k
    · exact absurd hr (ha.2 hk).1
    · obtain ⟨h1, h2⟩ := ha.1 (by omega)
      refine ⟨by simp [hr], h1, h2, ?_, ?_, ?_, ?_, ?_⟩ <;> intro h <;> omega
  | up m =>
    right
    refine ⟨by simp [hr], Or.inr ⟨m, rfl, ?_⟩⟩
    simp only [All, UpAll] at ha
    cases hc : m.cr with
    | some k => rw [hc] at ha; exact absurd hr ha.2.2.1
    | none =>
      rw [hc] at ha
      refine ⟨rfl, fun dv hd => ?_⟩
      rw [hd] at ha
      simpa [hr] using ha.1

theorem going_run {s s' : St} {ops : List Op} (ha : All s) (hg : Going s)
    (hc : .create ∉ ops) (h : run s ops = some s') :
    (.crash ∈ ops → Gone s') ∧ Going s' := by
  induction ops generalizing s with
  | nil => simp only [run, Option.some.injEq] at h; subst h; exact ⟨nofun, hg⟩
  | cons op ops ih =>
    simp only [run] at h
    cases h1 : step s op with
    | none => simp [h1] at h
    | some t =>
      rw [h1] at h
      simp only at h
      have hne : op ≠ .create := fun e => hc (e ▸ List.mem_cons_self)
      have hnot : .create ∉ ops := fun e => hc (List.mem_cons_of_mem _ e)
      obtain ⟨hg', hcr⟩ := going_step hg ha hne h1
      have hr := ih (all_step ha h1) hg' hnot h
      refine ⟨fun hm => ?_, hr.2⟩
      rcases List.mem_cons.mp hm with e | e
      · have hgone := hcr e.symm
        exact run_inv (I := Gone) (fun a b c hmem hi hs =>
          gone_step hi (fun e => hnot (e ▸ hmem)) hs) h hgone
      · exact hr.1 e

end HS.Life
