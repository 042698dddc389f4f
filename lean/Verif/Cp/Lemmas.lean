import Verif.Cp.Model
/-! Invariant of the checkpoint manager, used by C24-C26. -/
namespace HS.Cp

/-- No thread holds or is about to touch the checkpoint. -/
def Quietly (r : CP) : Prop := r.cnt = 0 ∧ r.readers = 0 ∧ r.refs = 0 ∧ r.zeros = 0 ∧ r.starters = 0

/-- Flush not started. -/
def NotYet (r : CP) : Prop := r.running = [] ∧ r.sealing = false ∧ r.started = 0 ∧ r.stage = .before

/-- All consumers that participate have completed their flush, reporting success if `ok`. -/
def Flushed (k : Conf) (c : Nat) (r : CP) : Prop :=
  (∀ x ∈ k.parts c, r.endBy x = true) ∧ (k.sealer c = true → r.sealEnd = true)

def Past (k : Conf) (c : Nat) (r : CP) : Prop := r.status = .gone ∧ Quietly r ∧ r.running = [] ∧ r.sealing = false ∧ r.started = 1 ∧
  r.stage ≠ .before ∧ r.stage ≠ .recorded ∧ Flushed k c r
def Fresh (r : CP) : Prop := r.status = .unknown ∧ Quietly r ∧ NotYet r
def Ready (r : CP) : Prop := r.status = .ready ∧ r.cnt = r.refs ∧ r.starters = 0 ∧ NotYet r
def Trig (r : CP) : Prop := r.status = .trigger ∧ r.cnt = r.refs + 1 ∧ r.starters = 0 ∧ NotYet r
def Prep1 (r : CP) : Prop := r.status = .prepare ∧ r.cnt = r.refs + 1 ∧ r.zeros = 0 ∧ r.starters = 0 ∧ NotYet r
def Prep2 (r : CP) : Prop := r.status = .prepare ∧ r.cnt = r.refs ∧ r.readers = 0 ∧ NotYet r ∧
  ((0 < r.cnt ∧ r.zeros = 0 ∧ r.starters = 0) ∨ (r.cnt = 0 ∧ r.zeros + r.starters = 1))
def Flushing (k : Conf) (c : Nat) (r : CP) : Prop := r.status = .flushing ∧ Quietly r ∧ r.started = 1 ∧ r.stage = .before ∧
  (r.sealing = true → r.running = [] ∧ k.sealer c = true) ∧ (∀ x ∈ k.parts c, x ∈ r.running ∨ r.endBy x = true) ∧
  (∀ x ∈ r.running, x ∈ k.parts c)
def Done (k : Conf) (c : Nat) (r : CP) : Prop := r.status = .done ∧ Quietly r ∧ r.started = 1 ∧ r.stage = .before ∧ r.running = [] ∧
  r.sealing = false ∧ Flushed k c r
def Recorded (k : Conf) (c : Nat) (r : CP) : Prop := r.status = .gone ∧ Quietly r ∧ r.started = 1 ∧ r.stage = .recorded ∧ r.running = [] ∧
  r.sealing = false ∧ Flushed k c r

inductive Ph | idle | sw | prepd | xch | fl
deriving DecidableEq

/-- What the row of checkpoint `c` looks like when the manager is in phase `p` and `n` is the checkpoint being
worked on. -/
def RowOk (k : Conf) (p : Ph) (n c : Nat) (r : CP) : Prop :=
  if c < n then Past k c r
  else if c = n then match p with
    | .idle => Ready r
    | .sw => Trig r
    | .prepd => Prep1 r
    | .xch => Prep1 r
    | .fl => Prep2 r ∨ Flushing k c r ∨ Done k c r ∨ Recorded k c r
  else if c = n + 1 then match p with
    | .idle | .sw => Fresh r
    | .prepd => Ready r ∧ Quietly r
    | .xch | .fl => Ready r
  else Fresh r

def GOk (p : Ph) (n : Nat) (s : St) : Prop := s.ub = false ∧ s.disk = s.nfl ∧
  match p with
  | .idle => s.inFlush = false ∧ s.tpc = none ∧ s.cur = n ∧ s.nfl = n
  | .sw => s.inFlush = true ∧ s.tpc = some (n, .switching) ∧ s.cur = n ∧ s.nfl = n
  | .prepd => s.inFlush = true ∧ s.tpc = some (n, .prepared) ∧ s.cur = n ∧ s.nfl = n
  | .xch => s.inFlush = true ∧ s.tpc = some (n, .xchged) ∧ s.cur = n + 1 ∧ s.nfl = n
  | .fl => s.inFlush = true ∧ s.tpc = none ∧ s.cur = n + 1 ∧ s.nfl = if (s.cp n).status = .gone then n + 1 else n

def At (k : Conf) (p : Ph) (n : Nat) (s : St) : Prop := GOk p n s ∧ ∀ c, RowOk k p n c (s.cp c)

def Inv (k : Conf) (s : St) : Prop := ∃ p n, At k p n s

/-- A step that only changes row `c`, to an admissible one. -/
theorem At.row {k p n s s' c r'} (h : At k p n s) (hcp : s'.cp = upd s.cp c r') (hg : GOk p n s') (hr : RowOk k p n c r') :
    At k p n s' := by
  refine ⟨hg, fun x => ?_⟩
  rw [hcp]
  by_cases hx : x = c
  · subst hx; simpa [upd] using hr
  · simpa [upd, hx] using h.2 x

theorem inv_boot {k n old} (h : ∀ c, c < n → Flushed k c (old c)) : At k .idle n (boot n old) := by
  refine ⟨by simp [GOk, boot], ?_⟩
  intro c
  have := h c
  simp only [RowOk, boot]
  by_cases h1 : c < n
  · simp_all [Past, Quietly, CP.new, Flushed]
  · by_cases h2 : c = n
    · simp_all [Ready, NotYet, CP.new]
    · have h3 : ¬ c < n := by omega
      simp [h2, h3, Fresh, Quietly, NotYet, CP.new]

theorem RowOk.lt {k p n c r} (h : c < n) : RowOk k p n c r ↔ Past k c r := by simp [RowOk, h]
theorem RowOk.gt {k p n c r} (h : n + 1 < c) : RowOk k p n c r ↔ Fresh r := by
  simp only [RowOk]; rw [if_neg (by omega), if_neg (by omega), if_neg (by omega)]
theorem RowOk.eq {k p n r} : RowOk k p n n r ↔ match p with
    | .idle => Ready r
    | .sw => Trig r
    | .prepd => Prep1 r
    | .xch => Prep1 r
    | .fl => Prep2 r ∨ Flushing k n r ∨ Done k n r ∨ Recorded k n r := by
  simp only [RowOk]; rw [if_neg (by omega)]; simp
theorem RowOk.succ {k p n r} : RowOk k p n (n + 1) r ↔ match p with
    | .idle | .sw => Fresh r
    | .prepd => Ready r ∧ Quietly r
    | .xch | .fl => Ready r := by
  simp only [RowOk]; rw [if_neg (by omega), if_neg (by omega)]; simp

/-- Case split on where a checkpoint stands. -/
theorem cases4 (n c : Nat) : c < n ∨ c = n ∨ c = n + 1 ∨ n + 1 < c := by omega

theorem inv_ioRead {k s s'} (h : Inv k s) (hs : step k s .ioRead = some s') : Inv k s' := by
  obtain ⟨p, n, h⟩ := h
  simp only [step, Option.some.injEq] at hs
  subst hs
  refine ⟨p, n, h.row rfl ?_ ?_⟩
  · have := h.1
    simp only [GOk, St.set, upd] at this ⊢
    grind
  · have := h.2 s.cur
    have hg := h.1
    cases p <;> simp only [GOk] at hg <;> rw [hg.2.2.2.2.1] at this ⊢ <;>
      simp only [RowOk.eq, RowOk.succ, Ready, Trig, Prep1, NotYet] at this ⊢ <;> grind

/-- Steps that touch one checkpoint `c` and keep the phase: it suffices to treat the rows that are not past and
not fresh. -/
theorem inv_set {k s c r'} (h : Inv k s) (hst : r'.status = (s.cp c).status ∨ r'.status ≠ .gone)
    (hp : ¬ Past k c (s.cp c)) (hrec : ¬ Recorded k c (s.cp c)) (hf : ¬ Fresh (s.cp c))
    (hr : ∀ p n, c = n ∨ c = n + 1 → RowOk k p n c (s.cp c) → RowOk k p n c r') : Inv k (s.set c r') ∧ s.touch c = s := by
  obtain ⟨p, n, h⟩ := h
  have hrow := h.2 c
  have hng : (s.cp c).status ≠ .gone := by
    intro e
    rcases cases4 n c with h1 | h1 | h1 | h1
    · exact hp ((RowOk.lt h1).1 hrow)
    · subst h1
      rw [RowOk.eq] at hrow
      cases p <;> simp only at hrow <;> simp_all [Ready, Trig, Prep1, Prep2, Flushing, Done]
    · subst h1
      rw [RowOk.succ] at hrow
      cases p <;> simp only at hrow <;> simp_all [Ready]
    · exact hf ((RowOk.gt h1).1 hrow)
  refine ⟨⟨p, n, h.row (c := c) (r' := r') rfl ?_ ?_⟩, ?_⟩
  · have := h.1
    cases p <;> simp only [GOk, St.set, upd] at this ⊢ <;> grind
  rotate_left
  · have : ((s.cp c).status == Status.gone) = false := by simpa using hng
    simp [St.touch, this]
  · apply hr p n ?_ hrow
    rcases cases4 n c with h1 | h1 | h1 | h1
    · exact absurd ((RowOk.lt h1).1 hrow) hp
    · exact .inl h1
    · exact .inr h1
    · exact absurd ((RowOk.gt h1).1 hrow) hf

theorem inv_set' {k s c r'} (h : Inv k s) (hp : ¬ Past k c (s.cp c)) (hrec : ¬ Recorded k c (s.cp c)) (hf : ¬ Fresh (s.cp c))
    (hst : r'.status = (s.cp c).status ∨ r'.status ≠ .gone)
    (h1 : Ready (s.cp c) → Ready r') (h0 : Ready (s.cp c) → Quietly (s.cp c) → Quietly r') (h2 : Trig (s.cp c) → Trig r') (h3 : Prep1 (s.cp c) → Prep1 r')
    (h4 : Prep2 (s.cp c) → Prep2 r' ∨ Flushing k c r') (h5 : Flushing k c (s.cp c) → Flushing k c r' ∨ Done k c r')
    (h6 : Done k c (s.cp c) → Done k c r') :
    Inv k (s.set c r') ∧ s.touch c = s := by
  apply inv_set h hst hp hrec hf
  intro p n hc hrow
  rcases hc with rfl | rfl
  · rw [RowOk.eq] at hrow ⊢
    cases p <;> simp only at hrow ⊢ <;> grind
  · rw [RowOk.succ] at hrow ⊢
    cases p <;> simp only at hrow ⊢ <;> grind

theorem inv_touch' {k s c r'} (h : Inv k s) (hp : ¬ Past k c (s.cp c)) (hrec : ¬ Recorded k c (s.cp c)) (hf : ¬ Fresh (s.cp c))
    (hst : r'.status = (s.cp c).status ∨ r'.status ≠ .gone)
    (h1 : Ready (s.cp c) → Ready r') (h0 : Ready (s.cp c) → Quietly (s.cp c) → Quietly r') (h2 : Trig (s.cp c) → Trig r') (h3 : Prep1 (s.cp c) → Prep1 r')
    (h4 : Prep2 (s.cp c) → Prep2 r' ∨ Flushing k c r') (h5 : Flushing k c (s.cp c) → Flushing k c r' ∨ Done k c r')
    (h6 : Done k c (s.cp c) → Done k c r') :
    Inv k ((s.touch c).set c r') := by
  obtain ⟨q1, q2⟩ := inv_set' h hp hrec hf hst h1 h0 h2 h3 h4 h5 h6
  rw [q2]; exact q1

theorem inv_ioRef {k s s'} (c : Nat) (h : Inv k s) (hs : step k s (.ioRef c) = some s') : Inv k s' := by
  simp only [step] at hs
  split at hs
  · simp at hs
  rename_i hne
  simp only [Option.some.injEq] at hs; subst hs
  apply inv_touch' h <;> simp only [Past, Recorded, Fresh, Ready, Trig, Prep1, Prep2, Flushing, Done, NotYet, Quietly] <;> grind

theorem inv_nest {k s s'} (c : Nat) (h : Inv k s) (hs : step k s (.nest c) = some s') : Inv k s' := by
  simp only [step] at hs
  split at hs
  · simp at hs
  rename_i hne
  simp only [Option.some.injEq] at hs; subst hs
  apply inv_touch' h <;> simp only [Past, Recorded, Fresh, Ready, Trig, Prep1, Prep2, Flushing, Done, NotYet, Quietly] <;> grind

theorem inv_exitDec {k s s'} (c : Nat) (h : Inv k s) (hs : step k s (.exitDec c) = some s') : Inv k s' := by
  simp only [step] at hs
  split at hs
  · simp at hs
  rename_i hne
  simp only [Option.some.injEq] at hs; subst hs
  apply inv_touch' h <;> simp only [Past, Recorded, Fresh, Ready, Trig, Prep1, Prep2, Flushing, Done, NotYet, Quietly] <;> grind

theorem inv_exitCheck {k s s'} (c : Nat) (h : Inv k s) (hs : step k s (.exitCheck c) = some s') : Inv k s' := by
  simp only [step] at hs
  split at hs
  · simp at hs
  rename_i hne
  simp only [Option.some.injEq] at hs; subst hs
  apply inv_touch' h <;> simp only [Past, Recorded, Fresh, Ready, Trig, Prep1, Prep2, Flushing, Done, NotYet, Quietly] <;> grind

theorem inv_startFlush {k s s'} (c : Nat) (h : Inv k s) (hs : step k s (.startFlush c) = some s') : Inv k s' := by
  simp only [step] at hs
  split at hs
  · simp at hs
  rename_i hne
  simp only [Option.some.injEq] at hs; subst hs
  apply inv_touch' h <;> simp only [Past, Recorded, Fresh, Ready, Trig, Prep1, Prep2, Flushing, Done, NotYet, Quietly] <;> grind

theorem inv_consDone {k s s'} (c x : Nat) (ok : Bool) (h : Inv k s) (hs : step k s (.consDone c x ok) = some s') : Inv k s' := by
  simp only [step] at hs
  split at hs
  rotate_left
  · simp at hs
  rename_i hne
  simp only [Option.some.injEq] at hs; subst hs
  refine (inv_set' h ?_ ?_ ?_ ?_ ?_ ?_ ?_ ?_ ?_ ?_ ?_).1 <;>
    simp only [Past, Recorded, Fresh, Ready, Trig, Prep1, Prep2, Flushing, Done, NotYet, Quietly, upd] <;> grind

theorem inv_sealStart {k s s'} (c : Nat) (h : Inv k s) (hs : step k s (.sealStart c) = some s') : Inv k s' := by
  simp only [step] at hs
  split at hs
  rotate_left
  · simp at hs
  rename_i hne
  simp only [Option.some.injEq] at hs; subst hs
  refine (inv_set' h ?_ ?_ ?_ ?_ ?_ ?_ ?_ ?_ ?_ ?_ ?_).1 <;>
    simp only [Past, Recorded, Fresh, Ready, Trig, Prep1, Prep2, Flushing, Done, NotYet, Quietly] <;> grind

theorem inv_sealDone {k s s'} (c : Nat) (ok : Bool) (h : Inv k s) (hs : step k s (.sealDone c ok) = some s') : Inv k s' := by
  simp only [step] at hs
  split at hs
  rotate_left
  · simp at hs
  rename_i hne
  simp only [Option.some.injEq] at hs; subst hs
  refine (inv_set' h ?_ ?_ ?_ ?_ ?_ ?_ ?_ ?_ ?_ ?_ ?_).1 <;>
    simp only [Past, Recorded, Fresh, Ready, Trig, Prep1, Prep2, Flushing, Done, NotYet, Quietly, Flushed] <;> grind

theorem inv_noSeal {k s s'} (c : Nat) (h : Inv k s) (hs : step k s (.noSeal c) = some s') : Inv k s' := by
  simp only [step] at hs
  split at hs
  rotate_left
  · simp at hs
  rename_i hne
  simp only [Option.some.injEq] at hs; subst hs
  refine (inv_set' h ?_ ?_ ?_ ?_ ?_ ?_ ?_ ?_ ?_ ?_ ?_).1 <;>
    simp only [Past, Recorded, Fresh, Ready, Trig, Prep1, Prep2, Flushing, Done, NotYet, Quietly, Flushed] <;> grind

theorem inv_trigger {k s s'} (f o : Bool) (t : Option Nat) (h : Inv k s) (hs : trigger s f o t = some s') : Inv k s' := by
  obtain ⟨p, n, hg, hr⟩ := h
  simp only [trigger] at hs
  split at hs
  · simp at hs
  rename_i ht
  split at hs
  · refine ⟨p, n, ?_, ?_⟩
    · split at hs
      · split at hs <;> (simp only [Option.some.injEq] at hs; subst hs; simpa only [GOk] using hg)
      · simp only [Option.some.injEq] at hs; subst hs; exact hg
    · have : s'.cp = s.cp := by
        split at hs
        · split at hs <;> (simp only [Option.some.injEq] at hs; subst hs; rfl)
        · simp only [Option.some.injEq] at hs; subst hs; rfl
      rw [this]; exact hr
  · rename_i hfl
    have hp : p = .idle := by
      cases p <;> simp only [GOk] at hg <;> simp_all
    subst hp
    simp only [GOk] at hg
    obtain ⟨g1, g2, g3, g4, g5, g6⟩ := hg
    subst g5
    have key : At k .sw s.cur (beginTrig s s.cur) := by
      refine ⟨by simp [GOk, beginTrig, St.set, g1, g2, g6], ?_⟩
      intro c
      have hc := hr c
      simp only [beginTrig, St.set, upd]
      rcases cases4 s.cur c with h1 | h1 | h1 | h1
      · rw [if_neg (by omega), RowOk.lt h1]; exact (RowOk.lt h1).1 hc
      · subst h1
        rw [RowOk.eq] at hc ⊢
        simp only [Ready, Trig, NotYet] at hc ⊢
        grind
      · subst h1
        rw [if_neg (by omega)]
        rw [RowOk.succ] at hc ⊢; exact hc
      · rw [if_neg (by omega), RowOk.gt h1]; exact (RowOk.gt h1).1 hc
    split at hs
    · simp only [Option.some.injEq] at hs; subst hs
      exact ⟨.sw, s.cur, key⟩
    · rename_i c
      split at hs
      · simp at hs
      rename_i hc0
      simp only [Option.some.injEq] at hs; subst hs
      have : c = s.cur := by
        have hc := hr c
        rcases cases4 s.cur c with h1 | h1 | h1 | h1
        · have := (RowOk.lt h1).1 hc
          simp only [Past, Quietly] at this; omega
        · exact h1
        · subst h1; rw [RowOk.succ] at hc
          simp only [Fresh, Quietly] at hc; omega
        · have := (RowOk.gt h1).1 hc
          simp only [Fresh, Quietly] at this; omega
      subst this
      exact ⟨.sw, _, key⟩

theorem inv_trigB2b {k s s'} (h : Inv k s) (hs : step k s .trigB2b = some s') : Inv k s' := by
  simp only [step] at hs
  split at hs
  · simp at hs
  apply inv_trigger _ _ _ _ hs
  obtain ⟨p, n, hg, hr⟩ := h
  exact ⟨p, n, by simpa only [GOk] using hg, hr⟩

theorem inv_tPrepare {k s s'} (h : Inv k s) (hq : Quiet s .tPrepare) (hs : step k s .tPrepare = some s') : Inv k s' := by
  obtain ⟨p, n, hg, hr⟩ := h
  simp only [step] at hs
  split at hs
  rotate_left
  · simp at hs
  rename_i c htp
  simp only [Option.some.injEq] at hs; subst hs
  cases p <;> simp only [GOk] at hg <;> obtain ⟨g1, g2, g3, g4, g5, g6⟩ := hg <;> rw [htp] at g4 <;> simp at g4
  subst g4
  have hz := hq _ _ htp
  refine ⟨.prepd, c, by simp [GOk, St.set, g1, g2, g3, g5, g6], ?_⟩
  intro x
  have hx := hr x
  simp only [St.set, upd]
  rcases cases4 c x with h1 | h1 | h1 | h1
  · rw [if_neg (by omega), if_neg (by omega), RowOk.lt h1]; exact (RowOk.lt h1).1 hx
  · subst h1
    rw [if_neg (by omega)]
    rw [RowOk.eq] at hx ⊢
    simp only [Prep1, Trig, NotYet] at hx ⊢
    grind
  · subst h1
    rw [RowOk.succ] at hx ⊢
    simp only [Fresh, Ready, Quietly, NotYet] at hx ⊢
    grind
  · rw [if_neg (by omega), if_neg (by omega), RowOk.gt h1]; exact (RowOk.gt h1).1 hx

theorem inv_tXchg {k s s'} (h : Inv k s) (hs : step k s .tXchg = some s') : Inv k s' := by
  obtain ⟨p, n, hg, hr⟩ := h
  simp only [step] at hs
  split at hs
  rotate_left
  · simp at hs
  rename_i c htp
  simp only [Option.some.injEq] at hs; subst hs
  cases p <;> simp only [GOk] at hg <;> obtain ⟨g1, g2, g3, g4, g5, g6⟩ := hg <;> rw [htp] at g4 <;> simp at g4
  subst g4
  refine ⟨.xch, c, by simp [GOk, g1, g2, g3, g6], ?_⟩
  intro x
  have hx := hr x
  rcases cases4 c x with h1 | h1 | h1 | h1
  · rw [RowOk.lt h1]; exact (RowOk.lt h1).1 hx
  · subst h1
    rw [RowOk.eq] at hx ⊢; exact hx
  · subst h1
    rw [RowOk.succ] at hx ⊢
    exact hx.1
  · rw [RowOk.gt h1]; exact (RowOk.gt h1).1 hx

theorem inv_tSync {k s s'} (h : Inv k s) (hs : step k s .tSync = some s') : Inv k s' := by
  obtain ⟨p, n, hg, hr⟩ := h
  simp only [step] at hs
  split at hs
  rotate_left
  · simp at hs
  rename_i c htp
  split at hs
  rotate_left
  · simp at hs
  rename_i hrd
  simp only [Option.some.injEq] at hs; subst hs
  cases p <;> simp only [GOk] at hg <;> obtain ⟨g1, g2, g3, g4, g5, g6⟩ := hg <;> rw [htp] at g4 <;> simp at g4
  subst g4
  have hc := hr c
  rw [RowOk.eq] at hc
  simp only [Prep1] at hc
  refine ⟨.fl, c, by simp [GOk, St.set, g1, g2, g3, g5, g6, upd, hc.1], ?_⟩
  intro x
  have hx := hr x
  simp only [St.set, upd]
  rcases cases4 c x with h1 | h1 | h1 | h1
  · rw [if_neg (by omega), RowOk.lt h1]; exact (RowOk.lt h1).1 hx
  · subst h1
    rw [RowOk.eq]
    simp only [Prep2, NotYet] at hc ⊢
    grind
  · subst h1
    rw [if_neg (by omega)]
    rw [RowOk.succ] at hx ⊢
    exact hx
  · rw [if_neg (by omega), RowOk.gt h1]; exact (RowOk.gt h1).1 hx

/-- A row in a flush related status belongs to the checkpoint being worked on, in phase `fl`. -/
theorem at_fl {k p n s c} (h : At k p n s) (hc : (s.cp c).status = .flushing ∨ (s.cp c).status = .done ∨ (s.cp c).stage = .recorded) :
    p = .fl ∧ c = n := by
  have hr := h.2 c
  rcases cases4 n c with h1 | h1 | h1 | h1
  · rw [RowOk.lt h1] at hr; simp only [Past] at hr; grind
  · subst h1
    rw [RowOk.eq] at hr
    cases p <;> simp only [Ready, Trig, Prep1, NotYet] at hr <;> grind
  · subst h1
    rw [RowOk.succ] at hr
    cases p <;> simp only [Ready, Fresh, NotYet] at hr <;> grind
  · rw [RowOk.gt h1] at hr; simp only [Fresh, NotYet] at hr; grind

theorem inv_record {k s s'} (c : Nat) (h : Inv k s) (hs : step k s (.record c) = some s') : Inv k s' := by
  obtain ⟨p, n, h⟩ := h
  simp only [step] at hs
  split at hs
  rotate_left
  · simp at hs
  rename_i hd
  simp only [Option.some.injEq] at hs; subst hs
  obtain ⟨rfl, rfl⟩ := at_fl h (.inr (.inl hd))
  obtain ⟨hg, hr⟩ := h
  simp only [GOk, hd] at hg
  obtain ⟨g1, g2, g3, g4, g5, g6⟩ := hg
  simp at g6
  refine ⟨.fl, c, by simp [GOk, St.set, g1, g3, g4, g5, g6, upd], ?_⟩
  intro x
  have hx := hr x
  simp only [St.set, upd]
  rcases cases4 c x with h1 | h1 | h1 | h1
  · rw [if_neg (by omega), RowOk.lt h1]; exact (RowOk.lt h1).1 hx
  · subst h1
    rw [RowOk.eq] at hx ⊢
    simp only [Prep2, Flushing, Done, Recorded, Quietly, Flushed] at hx ⊢
    grind
  · subst h1
    rw [if_neg (by omega)]
    rw [RowOk.succ] at hx ⊢
    exact hx
  · rw [if_neg (by omega), RowOk.gt h1]; exact (RowOk.gt h1).1 hx

theorem inv_finLock {k s s'} (c : Nat) (h : Inv k s) (hs : step k s (.finLock c) = some s') : Inv k s' := by
  obtain ⟨p, n, h⟩ := h
  simp only [step] at hs
  split at hs
  rotate_left
  · simp at hs
  rename_i hd
  simp only [Option.some.injEq] at hs; subst hs
  obtain ⟨rfl, rfl⟩ := at_fl h (.inr (.inr hd.1))
  obtain ⟨hg, hr⟩ := h
  have hc := hr c
  rw [RowOk.eq] at hc
  simp only [Prep2, Flushing, Done, NotYet, hd.1] at hc
  simp at hc
  simp only [GOk, hc.1] at hg
  obtain ⟨g1, g2, g3, g4, g5, g6⟩ := hg
  simp at g6
  refine ⟨.idle, c + 1, by simp [GOk, St.set, g1, g2, g4, g5, g6], ?_⟩
  intro x
  have hx := hr x
  simp only [St.set, upd]
  rcases cases4 c x with h1 | h1 | h1 | h1
  · rw [if_neg (by omega), RowOk.lt (by omega)]; exact (RowOk.lt h1).1 hx
  · subst h1
    rw [RowOk.lt (by omega)]
    simp only [Past, Recorded, Quietly, Flushed] at hc ⊢
    grind
  · subst h1
    rw [if_neg (by omega)]
    rw [RowOk.succ] at hx
    rw [RowOk.eq]; exact hx
  · rw [if_neg (by omega)]
    have hx := (RowOk.gt h1).1 hx
    rcases Nat.lt_or_ge (c + 1 + 1) x with h2 | h2
    · rw [RowOk.gt h2]; exact hx
    · have : x = c + 1 + 1 := by omega
      subst this
      rw [RowOk.succ]; exact hx

theorem inv_finProm {k s s'} (c : Nat) (h : Inv k s) (hs : step k s (.finProm c) = some s') : Inv k s' := by
  obtain ⟨p, n, h⟩ := h
  simp only [step] at hs
  split at hs
  rotate_left
  · simp at hs
  rename_i b hd
  simp only [Option.some.injEq] at hs; subst hs
  have hlt : c < n ∧ Past k c (s.cp c) := by
    have hx := h.2 c
    rcases cases4 n c with h1 | h1 | h1 | h1
    · exact ⟨h1, (RowOk.lt h1).1 hx⟩
    · subst h1
      rw [RowOk.eq] at hx
      cases p <;> simp only [Ready, Trig, Prep1, Prep2, Flushing, Done, Recorded, NotYet] at hx <;> grind
    · subst h1
      rw [RowOk.succ] at hx
      cases p <;> simp only [Ready, Fresh, NotYet] at hx <;> grind
    · rw [RowOk.gt h1] at hx
      simp only [Fresh, NotYet] at hx; grind
  refine ⟨p, n, h.row (c := c) rfl ?_ ?_⟩
  · have := h.1
    cases p <;> simp only [GOk, St.set, upd] at this ⊢ <;> grind
  · rw [RowOk.lt hlt.1]
    have := hlt.2
    simp only [Past, Quietly, Flushed] at this ⊢
    grind

theorem recorded_flushed {k s} (h : Inv k s) {c} (hc : c < s.disk) : Flushed k c (s.cp c) := by
  obtain ⟨p, n, hg, hr⟩ := h
  have hx := hr c
  have hgd := hg.2.1
  by_cases hlt : c < n
  · rw [RowOk.lt hlt] at hx
    exact hx.2.2.2.2.2.2.2
  · cases p <;> simp only [GOk] at hg
    case fl =>
      obtain ⟨g1, g2, g3, g4, g5, g6⟩ := hg
      split at g6
      · rename_i hgone
        have : c = n := by omega
        subst this
        rw [RowOk.eq] at hx
        simp only [Prep2, Flushing, Done, hgone] at hx
        simp at hx
        exact hx.2.2.2.2.2.2
      · omega
    all_goals omega

theorem inv_step {k s a s'} (h : Inv k s) (hq : Quiet s a) (hs : step k s a = some s') : Inv k s' := by
  cases a with
  | ioRead => exact inv_ioRead h hs
  | ioRef c => exact inv_ioRef c h hs
  | nest c => exact inv_nest c h hs
  | exitDec c => exact inv_exitDec c h hs
  | exitCheck c => exact inv_exitCheck c h hs
  | startFlush c => exact inv_startFlush c h hs
  | trig f o t => exact inv_trigger f o t h hs
  | trigB2b => exact inv_trigB2b h hs
  | tPrepare => exact inv_tPrepare h hq hs
  | tXchg => exact inv_tXchg h hs
  | tSync => exact inv_tSync h hs
  | consDone c x ok => exact inv_consDone c x ok h hs
  | sealStart c => exact inv_sealStart c h hs
  | sealDone c ok => exact inv_sealDone c ok h hs
  | noSeal c => exact inv_noSeal c h hs
  | record c => exact inv_record c h hs
  | finLock c => exact inv_finLock c h hs
  | finProm c => exact inv_finProm c h hs
  | shutInit =>
    simp only [step, Option.some.injEq] at hs; subst hs
    obtain ⟨p, n, hg, hr⟩ := h
    exact ⟨p, n, by simpa only [GOk] using hg, hr⟩
  | crash =>
    simp only [step, Option.some.injEq] at hs; subst hs
    exact ⟨.idle, _, inv_boot fun c hc => recorded_flushed h hc⟩

end HS.Cp
