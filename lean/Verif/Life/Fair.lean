import Verif.Life.Lemmas

/-! # Invariants of fair histories -/
namespace HS.Life

/-- What a start finds on disk after a failure in a fair history. -/
def Good (d : Disk) : Prop := d.ld = d.rb ∧ (d.rd = some false → d.cfg = true ∧ d.ld = true)

/-- A start in a fair history. -/
def BootOk (d : Disk) (b : Boot) : Prop :=
  b.k ≤ 8 ∧
  (b.k ≤ 1 → b.dev = none ∧ b.opened = false ∧ Good d) ∧
  (2 ≤ b.k → d.rd ≠ some true ∧ (b.opened = true ↔ d.rd = some false) ∧
    (b.dev = none ↔ b.opened = false)) ∧
  (b.opened = true → d.cfg = true ∧ d.ld = true ∧ d.rb = true) ∧
  (b.k ≤ 6 → d.ld = d.rb) ∧
  (3 ≤ b.k → b.opened = false → d.cfg = false) ∧
  (∀ dv, b.dev = some dv → dv.pend = false ∧ dv.done = false ∧ dv.taken = false ∧
    (3 ≤ b.k → dv.listener = true) ∧ (5 ≤ b.k → dv.stage = .active)) ∧
  (6 ≤ b.k → b.opened = false → d.chunks = false) ∧
  (7 ≤ b.k → b.opened = false → d.rb = false) ∧
  (8 ≤ b.k → b.opened = false → d.ld = false)

/-- The disk in the course of a creation. -/
def MakingOk (d : Disk) (m : Mem) (k : Nat) : Prop :=
  m.dev = none ∧ m.lv = none ∧ m.gc = none ∧ m.calls = 0 ∧ m.cp = false ∧ k ≤ 4 ∧
  d.rd = (if 3 ≤ k then some false else none) ∧ d.cfg = decide (4 ≤ k) ∧
  d.ld = decide (1 ≤ k) ∧ d.rb = decide (2 ≤ k) ∧ d.chunks = false

/-- The disk in the course of a collection. -/
def GcOk (d : Disk) (m : Mem) (dv : Dev) : Option Nat → Prop
  | none => d.rd = some dv.pend ∧ d.cfg = true ∧ d.ld = true ∧ d.rb = true ∧ dv.stage ≠ .permanent
  | some k => k ≤ 7 ∧ m.lv = none ∧ dv.pend = true ∧
      dv.stage = (if k ≤ 5 then .destroyed else .permanent) ∧
      d.rd = (if k ≤ 6 then some true else none) ∧ d.cfg = decide (k ≤ 1) ∧
      (3 ≤ k → d.chunks = false) ∧ d.rb = decide (k ≤ 3) ∧ d.ld = decide (k ≤ 4) ∧
      (k = 7 → m.cp = false)

/-- The stage of a device and what goes on with it. -/
def StageOk (m : Mem) (dv : Dev) : Prop :=
  dv.stage ≠ .init ∧
  (dv.stage = .active → dv.pend = false ∧ dv.done = false ∧ dv.taken = false ∧ m.lv = none ∧
    m.calls = 0) ∧
  (dv.stage = .destroying → dv.pend = false ∧ dv.done = false ∧ m.lv = none) ∧
  (∀ k, m.lv = some k → dv.stage = .destroyed ∧ dv.done = false ∧ k ≤ 1 ∧
    (dv.pend = true ↔ k = 1)) ∧
  (dv.stage = .destroyed → m.lv = none → dv.pend = true ∧ dv.done = true) ∧
  m.calls ≤ 1 ∧ (m.calls = 1 → dv.taken = false)

/-- A running member in a fair history. -/
def UpOk (d : Disk) (m : Mem) : Prop :=
  match m.cr with
  | some k => MakingOk d m k
  | none =>
    match m.dev with
    | none => m = Mem.idle ∧ d = Disk.empty
    | some dv => dv.listener = true ∧ GcOk d m dv m.gc ∧ StageOk m dv

/-- What holds in every fair history. -/
def Ok (s : St) : Prop :=
  match s.proc with
  | .dead => False
  | .down => Good s.disk
  | .boot b => BootOk s.disk b
  | .up m => UpOk s.disk m

theorem ok_init : Ok St.init := by simp [Ok, UpOk, St.init, Mem.idle]

theorem good_of_not_torn {d : Disk} (h : ¬ Torn d) (h2 : d.rd = some false → d.ld = true) :
    Good d := by
  simp only [Torn, not_or] at h
  obtain ⟨h1, h3⟩ := h
  refine ⟨by simpa using h1, fun hr => ⟨?_, h2 hr⟩⟩
  cases hc : d.cfg with
  | true => rfl
  | false => exact absurd ⟨hr, hc⟩ h3

theorem ok_crash {s : St} (hi : Ok s) (hf : ¬ Torn s.disk) : Ok (crash s) := by
  obtain ⟨d, p, a⟩ := s
  simp only at hf
  simp only [Ok, crash]
  cases p with
  | dead => exact hi.elim
  | down => exact hi
  | boot b =>
    refine good_of_not_torn hf (fun hr => ?_)
    simp only [Ok, BootOk] at hi
    obtain ⟨_, h1, h2, h3, _⟩ := hi
    by_cases hk : b.k ≤ 1
    · exact ((h1 hk).2.2.2 hr).2
    · exact (h3 ((h2 (by omega)).2.1.mpr hr)).2.1
  | up m =>
    refine good_of_not_torn hf (fun hr => ?_)
    simp only [Ok, UpOk] at hi
    cases hc : m.cr with
    | some k =>
      rw [hc] at hi
      simp only [MakingOk] at hi
      obtain ⟨_, _, _, _, _, _, h1, _, h2, _⟩ := hi
      rw [h2]
      by_cases hk : 3 ≤ k
      · simp; omega
      · rw [if_neg hk] at h1; rw [h1] at hr; cases hr
    | none =>
      rw [hc] at hi
      cases hd : m.dev with
      | none => rw [hd] at hi; rw [hi.2] at hr; cases hr
      | some dv =>
        rw [hd] at hi
        obtain ⟨_, hg, _⟩ := hi
        cases hgc : m.gc with
        | none => rw [hgc] at hg; exact hg.2.2.1
        | some k =>
          rw [hgc] at hg
          obtain ⟨_, _, _, _, h1, _⟩ := hg
          rw [h1] at hr
          split at hr <;> cases hr

theorem ok_boot {d : Disk} {a : Bool} {b : Boot} {t : St} (hi : BootOk d b)
    (h : bootStep ⟨d, .boot b, a⟩ b b.k = some t) : Ok t := by
  obtain ⟨k, dv, o⟩ := b
  obtain ⟨rd, cfg, ld, rb, chunks⟩ := d
  rcases k with _|_|_|_|_|_|_|_|_|k <;> simp only [bootStep] at h <;> steps h <;>
    cases h <;> simp_all [Ok, BootOk, UpOk, Good, die, Mem.idle, Disk.empty, GcOk, StageOk]
  all_goals (try (revert hi; cases o <;> cases ld <;> cases rb <;> simp; done))
  all_goals (try (revert hi; cases o <;> cases ld <;> cases rb <;> (try cases dv) <;> simp_all; done))
  cases dv with
  | none => rcases rd with _ | _ | _ <;> simp_all
  | some dv =>
    obtain ⟨⟨h1, h2, h3⟩, h4, _, h5, _⟩ := hi
    have ho : o = true := by cases o <;> simp_all
    obtain ⟨e1, e2, e3, e4, e5⟩ := h5 dv rfl
    simp [h2.mp ho, h4 ho, e1, e2, e3, e4, e5]

theorem ok_step {s t : St} {op : Op} (hi : Ok s) (h : step s op = some t) (hf : Fair s op) :
    Ok t := by
  obtain ⟨d, p, a⟩ := s
  cases p with
  | dead => exact hi.elim
  | down =>
    simp only [step] at h
    steps h
    cases h
    simp only [Ok] at hi
    simp [Ok, BootOk, hi, hi.1]
  | boot b =>
    cases op <;> simp only [step] at h <;> try (cases h; done)
    · cases h; exact ok_crash hi hf
    · exact ok_boot hi h
  | up m =>
    by_cases hop : op = .crash
    · subst hop
      simp only [step] at h
      cases h
      exact ok_crash hi hf
    simp only [Ok, UpOk] at hi
    obtain ⟨dv, cr, lv, gc, cp, calls⟩ := m
    cases cr with
    | some k =>
      simp only at hi
      obtain ⟨h1, h2, h3, h4, h5, h6, h7, h8, h9, h10, h11⟩ := hi
      simp only at h1 h2 h3 h4 h5
      subst h1 h2 h3 h4 h5
      cases op <;> simp only [step, upStep] at h <;> try (cases h; done)
      · obtain ⟨rd, cfg, ld, rb, chunks⟩ := d
        rcases k with _|_|_|_|_|k <;> simp only [mkStep] at h <;> cases h <;>
          simp_all [Ok, UpOk, MakingOk, GcOk, StageOk]
      · exact absurd rfl hop
    | none =>
      cases dv with
      | none =>
        obtain ⟨h1, h2⟩ := hi
        simp only [Mem.idle, Mem.mk.injEq] at h1
        obtain ⟨-, -, h3, h4, h5, h6⟩ := h1
        subst h2 h3 h4 h5 h6
        cases op <;> simp only [step, upStep] at h <;> try (cases h; done)
        · cases h; simp [Ok, UpOk, MakingOk, Disk.empty]
        · exact absurd rfl hop
      | some dv =>
        obtain ⟨hl, hg, hs⟩ := hi
        simp only at hg
        cases op <;> simp only [step, upStep, write, leave] at h <;> steps h
        all_goals first
          | (exact absurd rfl hop)
          | (cases h; cases gc <;> simp_all [Ok, UpOk, GcOk, StageOk]; done)
          | skip
        · have hst : dv.stage = .active := hf _ dv rfl rfl
          cases h
          cases gc with
          | some k =>
            obtain ⟨_, _, _, h4, _⟩ := hg
            rw [hst] at h4
            split at h4 <;> cases h4
          | none => simp_all [Ok, UpOk, GcOk, StageOk]
        · have hst : dv.stage = .destroying := hf _ dv rfl rfl
          cases h
          cases gc with
          | some k =>
            obtain ⟨_, _, _, h4, _⟩ := hg
            rw [hst] at h4
            split at h4 <;> cases h4
          | none =>
            rename_i hc
            obtain ⟨h1, h2, h3, h4, h5, h6, h7⟩ := hs
            simp only at h6 h7
            have : calls = 1 := by omega
            subst this
            simp_all [Ok, UpOk, GcOk, StageOk]
        · rename_i hne
          have hgc : gc = none := hf _ rfl
          subst hgc
          cases h
          obtain ⟨h1, h2, h3, h4, h5, h6, h7⟩ := hs
          obtain ⟨g1, g2, g3, g4, g5⟩ := hg
          have hpd : dv.pend = false ∧ dv.done = false := by
            cases hst : dv.stage
            · exact absurd hst h1
            · exact ⟨(h2 hst).1, (h2 hst).2.1⟩
            · exact ⟨(h3 hst).1, (h3 hst).2.1⟩
            · exact absurd hst hne
            · exact absurd hst g5
          simp_all [Ok, UpOk, GcOk, StageOk]
        · rename_i k heq
          cases heq
          obtain ⟨h1, h2, h3, h4, h5, h6, h7⟩ := hs
          obtain ⟨e1, e2, e3, e4⟩ := h4 k rfl
          cases gc with
          | some j => exact absurd hg.2.1 (by simp)
          | none =>
            rcases k with _|_|k <;> simp only [leaveStep] at h <;> steps h <;> cases h <;>
              simp_all [Ok, UpOk, GcOk, StageOk]
        · rename_i heq hst
          cases heq
          cases h
          simp_all [Ok, UpOk, GcOk, StageOk]
        · rename_i k heq
          cases heq
          have hcp := hf _ rfl
          simp only at hcp
          obtain ⟨rd, cfg, ld, rb, chunks⟩ := d
          obtain ⟨h1, h2, h3, h4, h5, h6, h7⟩ := hs
          rcases k with _|_|_|_|_|_|_|_|k <;> simp only [gcStep] at h <;> steps h <;> cases h <;>
            simp_all [Ok, UpOk, GcOk, StageOk, Mem.idle, Disk.empty]
        · rename_i hst
          cases h
          cases gc with
          | none => simp_all [Ok, UpOk, GcOk, StageOk]
          | some k =>
            obtain ⟨g1, g2, g3, g4, g5, g6, g7, g8, g9, g10⟩ := hg
            have hk : k ≤ 5 := by
              by_cases hk : k ≤ 5
              · exact hk
              · rw [if_neg hk] at g4; exact absurd (Or.inl g4) hst
            refine ⟨hl, ⟨g1, g2, g3, g4, g5, g6, g7, g8, g9, fun h => ?_⟩, hs⟩
            omega
        · exfalso
          rename_i hcp _ hrd
          cases gc with
          | none => rw [hg.1] at hrd; cases hrd
          | some k =>
            obtain ⟨g1, g2, g3, g4, g5, g6, g7, g8, g9, g10⟩ := hg
            by_cases hk : k ≤ 6
            · rw [if_pos hk, hrd] at g5; cases g5
            · have := g10 (by omega)
              simp only at this
              rw [this] at hcp; cases hcp

theorem ok_run {s : St} {ops : List Op} (h : RunP Fair St.init ops s) : Ok s :=
  runP_inv (fun _ _ _ hi hs hf => ok_step hi hs hf) h ok_init

/-! ## Every start ends -/

theorem boot_ends {n : Nat} : ∀ {s : St} {b : Boot}, s.proc = .boot b → BootOk s.disk b →
    8 - b.k = n → ∃ s' dv, run s (List.replicate (n + 1) .bootStep) = some s' ∧
      s'.proc = .up { Mem.idle with dev := dv } ∧ s'.app = s.app ∧
      UpOk s'.disk { Mem.idle with dev := dv } ∧ (s'.disk.rd = some false ↔ s.disk.rd = some false) ∧
      (∀ d, dv = some d → d.stage = .active) := by
  induction n with
  | zero =>
    intro s b hp hb hk
    obtain ⟨d, p, a⟩ := s
    simp only at hp hb
    subst hp
    have hk8 : b.k = 8 := by have := hb.1; omega
    have hstep : step ⟨d, .boot b, a⟩ .bootStep = some ⟨d, .up { Mem.idle with dev := b.dev }, a⟩ := by
      simp [step, hk8, bootStep]
    have hok : Ok ⟨d, .up { Mem.idle with dev := b.dev }, a⟩ :=
      ok_boot (a := a) hb (by simpa [step] using hstep)
    refine ⟨⟨d, .up { Mem.idle with dev := b.dev }, a⟩, _, by simp [run, hstep], rfl, rfl, hok,
      Iff.rfl, fun dv hd => ?_⟩
    exact (hb.2.2.2.2.2.2.1 dv hd).2.2.2.2 (by omega)
  | succ n ih =>
    intro s b hp hb hk
    obtain ⟨d, p, a⟩ := s
    simp only at hp hb
    subst hp
    have hex : ∃ t b', step ⟨d, .boot b, a⟩ .bootStep = some t ∧ t.proc = .boot b' ∧
        b'.k = b.k + 1 ∧ t.app = a ∧ (t.disk.rd = some false ↔ d.rd = some false) := by
      have hok : ∀ t, bootStep ⟨d, .boot b, a⟩ b b.k = some t → Ok t := fun t h => ok_boot hb h
      obtain ⟨k, dv, o⟩ := b
      simp only [step]
      simp only at hk hok ⊢
      rcases k with _|_|_|_|_|_|_|_|k <;> simp only [bootStep] at hok ⊢
      · split at hok
        · exact (hok _ rfl).elim
        · rename_i h; rw [if_neg h]; exact ⟨_, _, rfl, rfl, rfl, rfl, by simp_all⟩
      · split <;> exact ⟨_, _, rfl, rfl, rfl, rfl, by simp_all⟩
      · split
        · split <;> exact ⟨_, _, rfl, rfl, rfl, rfl, by simp_all⟩
        · exact ⟨_, _, rfl, rfl, rfl, rfl, by simp_all⟩
      · split at hok
        · split at hok
          · rename_i h1 h2; rw [if_pos h1, if_pos h2]; exact ⟨_, _, rfl, rfl, rfl, rfl, by simp_all⟩
          · exact (hok _ rfl).elim
        · split at hok
          · exact (hok _ rfl).elim
          · rename_i h1 h2; rw [if_neg h1, if_neg h2]; exact ⟨_, _, rfl, rfl, rfl, rfl, by simp_all⟩
      · cases dv with
        | none => exact ⟨_, _, rfl, rfl, rfl, rfl, by simp_all⟩
        | some dv =>
          simp only at hok ⊢
          split at hok
          · rename_i h; rw [if_pos h]; exact ⟨_, _, rfl, rfl, rfl, rfl, by simp_all⟩
          · exact (hok _ rfl).elim
      · exact ⟨_, _, rfl, rfl, rfl, rfl, by cases o <;> simp⟩
      · exact ⟨_, _, rfl, rfl, rfl, rfl, by cases o <;> simp⟩
      · exact ⟨_, _, rfl, rfl, rfl, rfl, by cases o <;> simp⟩
      · omega
    obtain ⟨t, b', hs, hp', hk', ha, hrd⟩ := hex
    have hok : Ok t := ok_boot (a := a) hb (by simpa [step] using hs)
    simp only [Ok, hp'] at hok
    obtain ⟨s', m, hr, hm, hap, hu, hrd', hst⟩ := ih hp' hok (by omega)
    refine ⟨s', m, ?_, hm, by rw [hap, ha], hu, hrd'.trans hrd, hst⟩
    rw [List.replicate_succ]
    simp [run, hs, hr]

theorem start_ends {s : St} (hp : s.proc = .down) (hg : Good s.disk) :
    ∃ s' dv, run s start = some s' ∧ s'.proc = .up { Mem.idle with dev := dv } ∧
      s'.app = s.app ∧ UpOk s'.disk { Mem.idle with dev := dv } ∧
      (s'.disk.rd = some false ↔ s.disk.rd = some false) ∧
      (∀ d, dv = some d → d.stage = .active) := by
  obtain ⟨d, p, a⟩ := s
  simp only at hp hg
  subst hp
  have h0 : step ⟨d, .down, a⟩ .bootStep = some ⟨d, .boot ⟨0, none, false⟩, a⟩ := by simp [step]
  have hok : BootOk d ⟨0, none, false⟩ := by simp [BootOk, hg, hg.1]
  obtain ⟨s', m, hr, hm, ha, hu⟩ :=
    boot_ends (n := 8) (s := ⟨d, .boot ⟨0, none, false⟩, a⟩) rfl hok rfl
  refine ⟨s', m, ?_, hm, ha, hu⟩
  show run _ (.bootStep :: List.replicate 9 .bootStep) = _
  simp only [run, h0]
  exact hr

/-! ## What the application holds -/

/-- The application holds something for the group only while the group is there. -/
def AppOk (s : St) : Prop :=
  s.app = true →
    match s.proc with
    | .dead => False
    | .down => s.disk.rd = some false
    | .boot _ => s.disk.rd = some false
    | .up m => m.dev ≠ none ∧ (m.gc = none ∨ m.gc = some 0)

theorem app_step {s t : St} {op : Op} (hok : Ok s) (hi : AppOk s) (h : step s op = some t)
    (hf : FairApp s op) : AppOk t := by
  obtain ⟨hf, hf2⟩ := hf
  have hokt : Ok t := ok_step hok h hf
  obtain ⟨d, p, a⟩ := s
  cases p with
  | dead => exact hok.elim
  | down =>
    simp only [step] at h
    steps h
    cases h
    exact hi
  | boot b =>
    cases op <;> simp only [step] at h <;> try (cases h; done)
    · cases h; exact hi
    · have hok2 := ok_boot hok h
      simp only [AppOk, Ok] at hi hok ⊢
      obtain ⟨k, dv, o⟩ := b
      rcases k with _|_|_|_|_|_|_|_|_|k <;> simp only [bootStep] at h <;> steps h <;>
        cases h <;> first
          | exact hok2.elim
          | (simp_all; done)
          | skip
      intro ha
      have hrd : d.rd = some false := hi ha
      refine ⟨?_, Or.inl rfl⟩
      rintro rfl
      simp [BootOk, hrd] at hok
  | up m =>
    by_cases hop : op = .crash
    · subst hop
      simp only [step] at h
      cases h
      simp only [AppOk, crash] at hi ⊢
      intro ha
      obtain ⟨h1, h2⟩ := hi ha
      simp only [Ok, UpOk] at hok
      cases hc : m.cr with
      | some k => rw [hc] at hok; exact absurd hok.1 h1
      | none =>
        rw [hc] at hok
        cases hd : m.dev with
        | none => exact absurd hd h1
        | some dv =>
          rw [hd] at hok
          obtain ⟨_, hg, _⟩ := hok
          have hnr : d.rd ≠ some true := fun e => by
            have := hf2 rfl e
            simp only at this
            rw [this] at ha; cases ha
          rcases h2 with h2 | h2 <;> rw [h2] at hg
          · have := hg.1
            cases hp : dv.pend with
            | true => rw [hp] at this; exact absurd this hnr
            | false => rw [hp] at this; exact this
          · have := hg.2.2.2.2.1
            exact absurd this hnr
    · obtain ⟨dv, cr, lv, gc, cp, calls⟩ := m
      simp only [Ok, UpOk] at hok
      cases cr with
      | some k =>
        obtain ⟨h1, h2, h3, h4, h5, h6, h7, h8, h9, h10, h11⟩ := hok
        simp only at h1 h2 h3 h4 h5
        subst h1 h2 h3 h4 h5
        have ha : a = false := by cases a <;> simp_all [AppOk]
        subst ha
        cases op <;> simp only [step, upStep] at h <;> try (cases h; done)
        · rcases k with _|_|_|_|_|k <;> simp only [mkStep] at h <;> cases h <;> simp [AppOk]
        · exact absurd rfl hop
      | none =>
        cases dv with
        | none =>
          have ha : a = false := by cases a <;> simp_all [AppOk]
          subst ha
          cases op <;> simp only [step, upStep] at h <;> (try steps h) <;> (try cases h) <;>
            first | (simp [AppOk]; done) | (exact absurd rfl hop)
        | some dv =>
          obtain ⟨hl, hg, hs⟩ := hok
          cases op <;> simp only [step, upStep, write, leave] at h <;> steps h
          all_goals first
            | (exact absurd rfl hop)
            | (cases h; simp_all [AppOk]; done)
            | skip
          · rename_i hst
            cases h
            refine fun _ => ⟨by simp, Or.inl ?_⟩
            cases gc with
            | none => rfl
            | some k =>
              obtain ⟨_, _, _, h4, _⟩ := hg
              rw [hst] at h4
              split at h4 <;> cases h4
          · rename_i k heq
            cases heq
            rcases k with _|_|k <;> simp only [leaveStep] at h <;> steps h <;> cases h <;>
              first | exact hokt.elim | simp_all [AppOk]
          · rename_i k heq
            cases heq
            rcases k with _|_|_|_|_|_|_|_|k <;> simp only [gcStep] at h <;> steps h <;> cases h <;>
              first | exact hokt.elim | simp_all [AppOk]
          · cases h; exact hokt.elim

theorem app_run {s : St} {ops : List Op} (h : RunP FairApp St.init ops s) : Ok s ∧ AppOk s :=
  runP_inv (I := fun s => Ok s ∧ AppOk s)
    (fun _ _ _ hi hs hf => ⟨ok_step hi.1 hs hf.1, app_step hi.1 hi.2 hs hf⟩) h
    ⟨ok_init, by simp [AppOk, St.init]⟩

end HS.Life
