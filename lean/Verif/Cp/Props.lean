import Verif.Cp.Lemmas
import Verif.Cp.Guard
/-!
# C24, C25, C26, C45: checkpoints

Executions start from `init` (first boot) or from `boot n` (restart when `n` checkpoints were recorded; a restart is
also an action of the execution) and interleave arbitrarily many threads.
-/
namespace HS.Cp

/-- States reachable by executions all of whose steps satisfy `ok`. -/
def Reachable (k : Conf) (ok : St → Act → Prop) (s : St) : Prop := ∃ as, Exec k ok init as s

theorem reach_ind {k ok} {P : St → Prop} (h0 : P init) (hs : ∀ s a s', P s → ok s a → step k s a = some s' → P s')
    {s} (h : Reachable k ok s) : P s := by
  obtain ⟨as, h⟩ := h
  have : ∀ {s0 as s}, Exec k ok s0 as s → P s0 → P s := by
    intro s0 as s h
    induction h with
    | nil => exact id
    | snoc _ h1 h2 ih => intro p0; exact hs _ _ _ (ih p0) h1 h2
  exact this h h0

theorem reach_inv {k ok s} (hok : ∀ s a, ok s a → Quiet s a) (h : Reachable k ok s) : Inv k s :=
  reach_ind (P := Inv k) ⟨.idle, 0, inv_boot (by omega)⟩ (fun _ _ _ hi ho hst => inv_step hi (hok _ _ ho) hst) h

/-! ## C24 -/

/-- An I/O is inside checkpoint `c`: it holds a guard, or is about to take its reference. -/
def Inside (s : St) (c : Nat) : Prop := 0 < (s.cp c).refs ∨ 0 < (s.cp c).readers

/-- **C24** (partial: schedules satisfying `Quiet`; see `C24_race_violated`).  In every reachable state: no
deleted checkpoint was ever touched; if the flush of a checkpoint has been started then no I/O is inside it (now or,
as this holds in all later states too, ever again) and it was started exactly once; and at most one checkpoint has
had its flush started without having been recorded. -/
theorem C24_partial {k s} (h : Reachable k Quiet s) :
    s.ub = false ∧
    (∀ c, 0 < (s.cp c).started → ¬ Inside s c ∧ (s.cp c).started = 1) ∧
    (∀ c c', (s.cp c).status = .flushing ∨ (s.cp c).status = .done → (s.cp c').status = .flushing ∨ (s.cp c').status = .done →
      c = c') := by
  obtain ⟨p, n, hat⟩ := reach_inv (fun _ _ h => h) h
  refine ⟨hat.1.1, ?_, ?_⟩
  · intro c hc
    have hr := hat.2 c
    rcases cases4 n c with h1 | h1 | h1 | h1
    · rw [RowOk.lt h1] at hr; simp only [Past, Quietly, Inside] at *; omega
    · subst h1
      rw [RowOk.eq] at hr
      cases p <;> simp only [Ready, Trig, Prep1, Prep2, Flushing, Done, Recorded, NotYet, Quietly, Inside] at * <;> omega
    · subst h1
      rw [RowOk.succ] at hr
      cases p <;> simp only [Ready, Fresh, NotYet, Inside] at * <;> omega
    · rw [RowOk.gt h1] at hr; simp only [Fresh, NotYet] at hr; omega
  · intro c c' h1 h2
    have e1 := (at_fl hat (by rcases h1 with h | h <;> simp [h] : (s.cp c).status = .flushing ∨ _ ∨ (s.cp c).stage = .recorded)).2
    have e2 := (at_fl hat (by rcases h2 with h | h <;> simp [h] : (s.cp c').status = .flushing ∨ _ ∨ (s.cp c').stage = .recorded)).2
    rw [e1, e2]

/-- **C24**, no flush is forgotten (partial, same schedules): once the triggering thread is done, a checkpoint
that was triggered, has not started to flush and has no I/O inside always has exactly one thread that is about to
look at its status or to start its flush. -/
theorem C24_progress_partial {k s c} (h : Reachable k Quiet s) (hp : (s.cp c).status = .prepare) (ht : s.tpc = none)
    (hi : ¬ Inside s c) : (s.cp c).zeros + (s.cp c).starters = 1 := by
  obtain ⟨p, n, hg, hr⟩ := reach_inv (fun _ _ h => h) h
  have hr := hr c
  rcases cases4 n c with h1 | h1 | h1 | h1
  · rw [RowOk.lt h1] at hr; simp only [Past, hp] at hr; simp at hr
  · subst h1
    rw [RowOk.eq] at hr
    cases p <;> simp only [GOk, Ready, Trig, Prep1, Prep2, Flushing, Done, Recorded, hp, ht] at hg hr <;> simp at hg hr
    simp only [Inside] at hi
    omega
  · subst h1
    rw [RowOk.succ] at hr
    cases p <;> simp only [Ready, Fresh, hp] at hr <;> simp at hr
  · rw [RowOk.gt h1] at hr; simp only [Fresh, hp] at hr; simp at hr

/-- One consumer (number 1), no sealer. -/
def k1 : Conf := ⟨[1], fun _ _ => true, fun _ => false⟩

def runs (k : Conf) (as : List Act) : Option St := runOpt (step k) init as

theorem exec_all {k} : ∀ {as s s'}, runOpt (step k) s as = some s' → Exec k (fun _ _ => True) s as s' := by
  intro as
  have key : ∀ {as : List Act} {s0 pre s s'}, Exec k (fun _ _ => True) s0 pre s → runOpt (step k) s as = some s' →
      Exec k (fun _ _ => True) s0 (pre ++ as) s' := by
    intro as
    induction as with
    | nil => intro s0 pre s s' h e; simp [runOpt] at e; subst e; simpa using h
    | cons a as ih =>
      intro s0 pre s s' h e
      simp only [runOpt] at e
      cases hs : step k s a with
      | none => simp [hs] at e
      | some s1 =>
        rw [hs] at e
        have := ih (h.snoc trivial hs) e
        simpa using this
  intro s s' e
  simpa using key (.nil s) e

/-- **C24** is violated without the restriction.  Thread 1 enters and leaves checkpoint 0; its decrement gives
zero and it is descheduled before reading the status.  Thread 2 enters checkpoint 0.  Thread 3 triggers: the status
becomes `cp_flush_prepare`.  Thread 1 now reads it and starts the flush, while thread 2 is still inside. -/
theorem C24_race_violated : ∃ s, Reachable k1 (fun _ _ => True) s ∧ (s.cp 0).status = .flushing ∧ Inside s 0 := by
  refine ⟨_, ⟨[.ioRead, .ioRef 0, .exitDec 0, .ioRead, .ioRef 0, .trig false false none, .tPrepare, .exitCheck 0, .startFlush 0],
    exec_all rfl⟩, rfl, .inl ?_⟩
  decide

/-- The same race also lets the flush start twice and lets a thread touch a deleted checkpoint. -/
theorem C24_race_double_violated : ∃ s, Reachable k1 (fun _ _ => True) s ∧ (s.cp 0).started = 2 := by
  exact ⟨_, ⟨[.ioRead, .ioRef 0, .exitDec 0, .trig false false none, .tPrepare, .tXchg, .tSync, .exitDec 0, .exitCheck 0,
    .exitCheck 0, .startFlush 0, .startFlush 0], exec_all rfl⟩, rfl⟩

theorem C24_race_uaf_violated : ∃ s, Reachable k1 (fun _ _ => True) s ∧ s.ub = true := by
  exact ⟨_, ⟨[.ioRead, .ioRef 0, .exitDec 0, .trig false false none, .tPrepare, .tXchg, .tSync, .exitDec 0, .exitCheck 0,
    .startFlush 0, .consDone 0 1 true, .noSeal 0, .record 0, .exitCheck 0], exec_all rfl⟩, rfl⟩

/-! ## C25, C26 -/

/-- No consumer reports failure. -/
def NoFail : Act → Prop
  | .consDone _ _ ok => ok = true
  | .sealDone _ ok => ok = true
  | _ => True

def Good (s : St) (a : Act) : Prop := Quiet s a ∧ NoFail a

/-- Bookkeeping of promises. -/
structure PInv (s : St) : Prop where
  pos : 1 ≤ s.proms
  pend : s.pending = true → 1 ≤ s.pendProm ∧ s.pendProm < s.proms ∧ ∀ c, (s.cp c).prom ≠ s.pendProm
  lt : ∀ c, (s.cp c).prom < s.proms
  inj : ∀ c c', (s.cp c).prom = (s.cp c').prom → (s.cp c).prom ≠ 0 → c = c'
  zero : ∀ c, (s.cp c).status = .ready ∨ (s.cp c).status = .unknown → (s.cp c).prom = 0
  nz : ∀ c, (s.cp c).status ≠ .ready → (s.cp c).status ≠ .unknown → (s.cp c).stage ≠ .finished → (s.cp c).prom ≠ 0
  done : ∀ p, s.doneP p = true → p ≠ 0 ∧ ∃ c, (s.cp c).prom = p ∧ (s.cp c).status = .gone
  calls : ∀ q ∈ s.calls, 1 ≤ q.1 ∧ q.1 < s.proms ∧ q.2 ≤ s.cur ∧
    ((s.pending = true ∧ q.1 = s.pendProm) ∨ ∃ c, q.2 ≤ c ∧ (s.cp c).prom = q.1)

/-- A step that leaves promises alone. -/
theorem PInv.frame {s s' : St} (h : PInv s) (e1 : s'.proms = s.proms) (e2 : s'.pending = s.pending) (e3 : s'.pendProm = s.pendProm)
    (e4 : s'.calls = s.calls) (e5 : s.cur ≤ s'.cur) (e6 : s'.doneP = s.doneP)
    (hr : ∀ c, (s'.cp c).prom = (s.cp c).prom ∧ ((s.cp c).status = .gone → (s'.cp c).status = .gone) ∧
      ((s'.cp c).status = .ready ∨ (s'.cp c).status = .unknown → (s.cp c).status = .ready ∨ (s.cp c).status = .unknown) ∧
      ((s.cp c).status = .ready ∨ (s.cp c).status = .unknown → (s'.cp c).status = .ready ∨ (s'.cp c).status = .unknown) ∧
      ((s.cp c).stage = .finished → (s'.cp c).stage = .finished)) : PInv s' := by
  obtain ⟨q1, q2, q3, q4, q5, q6, q7, q8⟩ := h
  refine ⟨by rw [e1]; exact q1, ?_, ?_, ?_, ?_, ?_, ?_, ?_⟩
  · rw [e2, e3, e1]
    intro h; refine ⟨(q2 h).1, (q2 h).2.1, fun c => ?_⟩
    rw [(hr c).1]; exact (q2 h).2.2 c
  · intro c; rw [(hr c).1, e1]; exact q3 c
  · intro c c'; rw [(hr c).1, (hr c').1]; exact q4 c c'
  · intro c hc; rw [(hr c).1]; exact q5 c ((hr c).2.2.1 hc)
  · intro c h1 h2 h3
    rw [(hr c).1]
    have hr4 := (hr c).2.2.2.1
    have hr5 := (hr c).2.2.2.2
    apply q6 c <;> grind
  · intro p hp
    rw [e6] at hp
    obtain ⟨h1, c, h2, h3⟩ := q7 p hp
    exact ⟨h1, c, by rw [(hr c).1]; exact h2, (hr c).2.1 h3⟩
  · intro q hq
    rw [e4] at hq
    obtain ⟨h1, h2, h3, h4⟩ := q8 q hq
    refine ⟨h1, by rw [e1]; exact h2, Nat.le_trans h3 e5, ?_⟩
    rw [e2, e3]
    rcases h4 with h4 | ⟨c, h4, h5⟩
    · exact .inl h4
    · exact .inr ⟨c, h4, by rw [(hr c).1]; exact h5⟩

/-- A step on one row that leaves promises alone. -/
theorem PInv.row {s s' : St} {c : Nat} {r' : CP} (h : PInv s) (ec : s'.cp = upd s.cp c r')
    (e1 : s'.proms = s.proms) (e2 : s'.pending = s.pending) (e3 : s'.pendProm = s.pendProm)
    (e4 : s'.calls = s.calls) (e5 : s'.cur = s.cur) (e6 : s'.doneP = s.doneP) (h1 : r'.prom = (s.cp c).prom)
    (h2 : (s.cp c).status = .gone → r'.status = .gone)
    (h3 : (r'.status = .ready ∨ r'.status = .unknown) ↔ ((s.cp c).status = .ready ∨ (s.cp c).status = .unknown))
    (h5 : (s.cp c).stage = .finished → r'.stage = .finished) : PInv s' := by
  apply h.frame e1 e2 e3 e4 (by omega) e6
  intro x
  rw [ec]
  by_cases hx : x = c
  · subst hx; simp only [upd, if_true]; exact ⟨h1, h2, h3.1, h3.2, h5⟩
  · simp [upd, hx]

theorem pinv_begin {k s} (hi : Inv k s) (h : PInv s) (hf : s.inFlush = false) : PInv (beginTrig s s.cur) := by
  obtain ⟨p, n, hg, hr⟩ := hi
  have hp : p = .idle := by cases p <;> simp only [GOk] at hg <;> simp_all
  subst hp
  simp only [GOk] at hg
  obtain ⟨g1, g2, g3, g4, g5, g6⟩ := hg
  subst g5
  have hc := hr s.cur
  rw [RowOk.eq] at hc
  simp only [Ready, NotYet] at hc
  obtain ⟨q1, q2, q3, q4, q5, q6, q7, q8⟩ := h
  have hz := q5 s.cur (.inl hc.1)
  by_cases hpend : s.pending = true
  · obtain ⟨a1, a2, a3⟩ := q2 hpend
    refine ⟨?_, ?_, ?_, ?_, ?_, ?_, ?_, ?_⟩ <;> simp only [beginTrig, St.set, upd, hpend, if_true]
    · exact q1
    · simp
    · intro c; have := q3 c; split <;> simp <;> omega
    · intro c c'; have := q4 c c'; have := a3 c; have := a3 c'; grind
    · intro c; have := q5 c; grind
    · intro c; have := q6 c; grind
    · intro p hp
      obtain ⟨b1, c, b2, b3⟩ := q7 p hp
      refine ⟨b1, c, ?_, ?_⟩ <;> grind
    · intro q hq
      rcases List.mem_cons.1 hq with rfl | hq
      · exact ⟨a1, a2, Nat.le_refl _, .inr ⟨s.cur, Nat.le_refl _, by simp⟩⟩
      · obtain ⟨b1, b2, b3, b4⟩ := q8 q hq
        refine ⟨b1, b2, b3, .inr ?_⟩
        rcases b4 with b4 | ⟨c, b4, b5⟩
        · exact ⟨s.cur, b3, by simp [b4.2]⟩
        · refine ⟨c, b4, ?_⟩
          rw [if_neg]
          · exact b5
          · intro e; subst e; omega
  · have hpend : s.pending = false := by simpa using hpend
    refine ⟨?_, ?_, ?_, ?_, ?_, ?_, ?_, ?_⟩ <;> simp only [beginTrig, St.set, upd, hpend, if_false] <;> simp only [Bool.false_eq_true, if_false]
    · omega
    · simp
    · intro c; have := q3 c; split <;> simp <;> omega
    · intro c c'; have := q4 c c'; have := q3 c; have := q3 c'; grind
    · intro c; have := q5 c; grind
    · intro c; have := q6 c; grind
    · intro p hp
      obtain ⟨b1, c, b2, b3⟩ := q7 p hp
      refine ⟨b1, c, ?_, ?_⟩ <;> grind
    · intro q hq
      rcases List.mem_cons.1 hq with rfl | hq
      · exact ⟨q1, by simp, Nat.le_refl _, .inr ⟨s.cur, Nat.le_refl _, by simp⟩⟩
      · obtain ⟨b1, b2, b3, b4⟩ := q8 q hq
        refine ⟨b1, by omega, b3, .inr ?_⟩
        rcases b4 with b4 | ⟨c, b4, b5⟩
        · simp [hpend] at b4
        · refine ⟨c, b4, ?_⟩
          rw [if_neg]
          · exact b5
          · intro e; subst e; omega

theorem pinv_trigger {k s s'} (f o : Bool) (t : Option Nat) (hi : Inv k s) (h : PInv s) (hs : trigger s f o t = some s') : PInv s' := by
  simp only [trigger] at hs
  split at hs
  · simp at hs
  split at hs
  · split at hs
    · obtain ⟨q1, q2, q3, q4, q5, q6, q7, q8⟩ := h
      split at hs
      · rename_i hp
        simp only [Option.some.injEq] at hs; subst hs
        refine ⟨q1, q2, q3, q4, q5, q6, q7, ?_⟩
        intro q hq
        rcases List.mem_cons.1 hq with rfl | hq
        · exact ⟨(q2 hp).1, (q2 hp).2.1, Nat.le_refl _, .inl ⟨hp, rfl⟩⟩
        · exact q8 q hq
      · rename_i hp
        simp only [Option.some.injEq] at hs; subst hs
        refine ⟨by simp, ?_, ?_, q4, q5, q6, q7, ?_⟩
        · intro _; simp only
          refine ⟨q1, by omega, fun c => ?_⟩
          have := q3 c; omega
        · intro c; have := q3 c; simp only; omega
        · intro q hq
          rcases List.mem_cons.1 hq with rfl | hq
          · exact ⟨q1, by simp, Nat.le_refl _, .inl ⟨rfl, rfl⟩⟩
          · obtain ⟨b1, b2, b3, b4⟩ := q8 q hq
            refine ⟨b1, by simp only; omega, b3, ?_⟩
            rcases b4 with b4 | b4
            · exact absurd b4.1 hp
            · exact .inr b4
    · simp only [Option.some.injEq] at hs; subst hs; exact h
  · rename_i hfl
    have hfl : s.inFlush = false := by simpa using hfl
    split at hs
    · simp only [Option.some.injEq] at hs; subst hs
      exact pinv_begin hi h hfl
    · rename_i c
      split at hs
      · simp at hs
      rename_i hc0
      simp only [Option.some.injEq] at hs; subst hs
      have : c = s.cur := by
        obtain ⟨p, n, hg, hr⟩ := hi
        have hp : p = .idle := by cases p <;> simp only [GOk] at hg <;> simp_all
        subst hp
        simp only [GOk] at hg
        obtain ⟨g1, g2, g3, g4, g5, g6⟩ := hg
        subst g5
        have hc := hr c
        rcases cases4 s.cur c with h1 | h1 | h1 | h1
        · have := (RowOk.lt h1).1 hc
          simp only [Past, Quietly] at this; omega
        · exact h1
        · subst h1; rw [RowOk.succ] at hc
          simp only [Fresh, Quietly] at hc; omega
        · have := (RowOk.gt h1).1 hc
          simp only [Fresh, Quietly] at this; omega
      subst this
      exact pinv_begin hi h hfl

theorem boot_row (n : Nat) (old : Nat → CP) (c : Nat) : ((boot n old).cp c).prom = 0 ∧
    (((boot n old).cp c).status = .ready ∨ ((boot n old).cp c).status = .unknown ∨ ((boot n old).cp c).stage = .finished) := by
  simp only [boot]
  split
  · simp [CP.new]
  · split <;> simp [CP.new]

theorem pinv_boot (n : Nat) (old : Nat → CP) : PInv (boot n old) := by
  refine ⟨by simp [boot], by simp [boot], ?_, ?_, ?_, ?_, by simp [boot], by simp [boot]⟩
  · intro c; rw [(boot_row n old c).1]; simp [boot]
  · intro c c' _ h; exact absurd (boot_row n old c).1 h
  · intro c _; exact (boot_row n old c).1
  · intro c h1 h2 h3
    rcases (boot_row n old c).2 with h | h | h <;> contradiction

theorem pinv_step {k s a s'} (hi : Inv k s) (h : PInv s) (hs : step k s a = some s') : PInv s' := by
  cases a with
  | ioRead =>
    simp only [step, Option.some.injEq] at hs; subst hs
    exact h.row (c := s.cur) rfl rfl rfl rfl rfl rfl rfl rfl (by simp) (by simp) (by simp)
  | ioRef c =>
    simp only [step] at hs; split at hs
    · simp at hs
    simp only [Option.some.injEq] at hs; subst hs
    exact h.row (c := c) rfl rfl rfl rfl rfl rfl rfl rfl (by simp) (by simp) (by simp)
  | nest c =>
    simp only [step] at hs; split at hs
    · simp at hs
    simp only [Option.some.injEq] at hs; subst hs
    exact h.row (c := c) rfl rfl rfl rfl rfl rfl rfl rfl (by simp) (by simp) (by simp)
  | exitDec c =>
    simp only [step] at hs; split at hs
    · simp at hs
    simp only [Option.some.injEq] at hs; subst hs
    exact h.row (c := c) rfl rfl rfl rfl rfl rfl rfl rfl (by simp) (by simp) (by simp)
  | exitCheck c =>
    simp only [step] at hs; split at hs
    · simp at hs
    simp only [Option.some.injEq] at hs; subst hs
    exact h.row (c := c) rfl rfl rfl rfl rfl rfl rfl rfl (by simp) (by simp) (by simp)
  | startFlush c =>
    simp only [step] at hs; split at hs
    · simp at hs
    rename_i h0
    simp only [Option.some.injEq] at hs; subst hs
    have hst : (s.cp c).status = .prepare := by
      obtain ⟨p, n, hat⟩ := hi
      have hr := hat.2 c
      rcases cases4 n c with h1 | h1 | h1 | h1
      · rw [RowOk.lt h1] at hr; simp only [Past, Quietly] at hr; omega
      · subst h1
        rw [RowOk.eq] at hr
        cases p <;> simp only [Ready, Trig, Prep1, Prep2, Flushing, Done, Recorded, Quietly] at hr <;> grind
      · subst h1
        rw [RowOk.succ] at hr
        cases p <;> simp only [Ready, Fresh, Quietly] at hr <;> omega
      · rw [RowOk.gt h1] at hr; simp only [Fresh, Quietly] at hr; omega
    exact h.row (c := c) rfl rfl rfl rfl rfl rfl rfl rfl (by simp [hst]) (by simp [hst]) (by simp)
  | trig f o t => exact pinv_trigger f o t hi h hs
  | trigB2b =>
    simp only [step] at hs
    split at hs
    · simp at hs
    refine pinv_trigger (k := k) _ _ _ ?_ ?_ hs
    · obtain ⟨p, n, hg, hr⟩ := hi
      exact ⟨p, n, by simpa only [GOk] using hg, hr⟩
    · exact h.frame rfl rfl rfl rfl (Nat.le_refl _) rfl (by simp)
  | tPrepare =>
    obtain ⟨p, n, hg, hr⟩ := hi
    simp only [step] at hs
    split at hs
    rotate_left
    · simp at hs
    rename_i c htp
    simp only [Option.some.injEq] at hs; subst hs
    cases p <;> simp only [GOk] at hg <;> obtain ⟨g1, g2, g3, g4, g5, g6⟩ := hg <;> rw [htp] at g4 <;> simp at g4
    subst g4
    have h1 := hr c
    have h2 := hr (c + 1)
    rw [RowOk.eq] at h1
    rw [RowOk.succ] at h2
    simp only [Trig, Fresh, NotYet] at h1 h2
    refine h.frame (s' := _) rfl rfl rfl rfl (Nat.le_refl _) rfl ?_
    intro x
    simp only [St.set, upd]
    by_cases e1 : x = c + 1
    · subst e1; simp [h2.1]
    · by_cases e2 : x = c
      · subst e2; simp [h1.1]
      · simp [e1, e2]
  | tXchg =>
    obtain ⟨p, n, hg, hr⟩ := hi
    simp only [step] at hs
    split at hs
    rotate_left
    · simp at hs
    rename_i c htp
    simp only [Option.some.injEq] at hs; subst hs
    cases p <;> simp only [GOk] at hg <;> obtain ⟨g1, g2, g3, g4, g5, g6⟩ := hg <;> rw [htp] at g4 <;> simp at g4
    exact h.frame rfl rfl rfl rfl (by simp only; omega) rfl (by simp)
  | tSync =>
    simp only [step] at hs
    split at hs
    rotate_left
    · simp at hs
    rename_i c htp
    split at hs
    rotate_left
    · simp at hs
    simp only [Option.some.injEq] at hs; subst hs
    exact h.row (c := c) rfl rfl rfl rfl rfl rfl rfl rfl (by simp) (by simp) (by simp)
  | consDone c x ok =>
    simp only [step] at hs; split at hs
    rotate_left
    · simp at hs
    simp only [Option.some.injEq] at hs; subst hs
    exact h.row (c := c) rfl rfl rfl rfl rfl rfl rfl rfl (by simp) (by simp) (by simp)
  | sealStart c =>
    simp only [step] at hs; split at hs
    rotate_left
    · simp at hs
    simp only [Option.some.injEq] at hs; subst hs
    exact h.row (c := c) rfl rfl rfl rfl rfl rfl rfl rfl (by simp) (by simp) (by simp)
  | sealDone c ok =>
    simp only [step] at hs; split at hs
    rotate_left
    · simp at hs
    rename_i h0
    simp only [Option.some.injEq] at hs; subst hs
    exact h.row (c := c) rfl rfl rfl rfl rfl rfl rfl rfl (by simp [h0.1]) (by simp [h0.1]) (by simp)
  | noSeal c =>
    simp only [step] at hs; split at hs
    rotate_left
    · simp at hs
    rename_i h0
    simp only [Option.some.injEq] at hs; subst hs
    exact h.row (c := c) rfl rfl rfl rfl rfl rfl rfl rfl (by simp [h0.1]) (by simp [h0.1]) (by simp)
  | record c =>
    obtain ⟨p, n, hat⟩ := hi
    simp only [step] at hs; split at hs
    rotate_left
    · simp at hs
    rename_i h0
    simp only [Option.some.injEq] at hs; subst hs
    obtain ⟨rfl, rfl⟩ := at_fl hat (.inr (.inl h0))
    have hc := hat.2 c
    rw [RowOk.eq] at hc
    simp only [Prep2, Flushing, Done, Recorded, h0] at hc
    simp at hc
    exact h.row (c := c) rfl rfl rfl rfl rfl rfl rfl rfl (by simp) (by simp [h0]) (by simp [hc.2.2.1])
  | finLock c =>
    obtain ⟨p, n, hat⟩ := hi
    simp only [step] at hs; split at hs
    rotate_left
    · simp at hs
    rename_i h0
    simp only [Option.some.injEq] at hs; subst hs
    exact h.row (c := c) rfl rfl rfl rfl rfl rfl rfl rfl (by simp) (by simp) (by simp [h0.1])
  | finProm c =>
    simp only [step] at hs; split at hs
    rotate_left
    · simp at hs
    rename_i b h0
    simp only [Option.some.injEq] at hs; subst hs
    have hgone : (s.cp c).status = .gone := by
      obtain ⟨p, n, hat⟩ := hi
      have hr := hat.2 c
      rcases cases4 n c with h1 | h1 | h1 | h1
      · rw [RowOk.lt h1] at hr; exact hr.1
      · subst h1
        rw [RowOk.eq] at hr
        cases p <;> simp only [Ready, Trig, Prep1, Prep2, Flushing, Done, Recorded, NotYet] at hr <;> grind
      · subst h1
        rw [RowOk.succ] at hr
        cases p <;> simp only [Ready, Fresh, NotYet] at hr <;> grind
      · rw [RowOk.gt h1] at hr; simp only [Fresh, NotYet] at hr; grind
    have hnz := h.nz c (by simp [hgone]) (by simp [hgone]) (by simp [h0])
    have h' : PInv (s.set c { s.cp c with stage := .finished }) :=
      h.row (c := c) rfl rfl rfl rfl rfl rfl rfl rfl (by simp) (by simp) (by simp)
    obtain ⟨q1, q2, q3, q4, q5, q6, q7, q8⟩ := h'
    refine ⟨q1, q2, q3, q4, q5, q6, ?_, q8⟩
    intro p hp
    simp only [upd] at hp
    split at hp
    · rename_i e
      subst e
      exact ⟨hnz, c, by simp [St.set, upd], by simp [St.set, upd, hgone]⟩
    · exact q7 p hp
  | shutInit =>
    simp only [step, Option.some.injEq] at hs; subst hs
    exact h.frame rfl rfl rfl rfl (Nat.le_refl _) rfl (by simp)
  | crash =>
    simp only [step, Option.some.injEq] at hs; subst hs
    exact pinv_boot _ _

theorem pinv_init : PInv init := pinv_boot _ _

/-- Success reports, when no consumer fails. -/
def KInv (s : St) : Prop := ∀ c, (∀ x, (s.cp c).endBy x = true → (s.cp c).okBy x = true) ∧ ((s.cp c).sealEnd = true → (s.cp c).sealOk = true)

theorem kinv_step {k s a s'} (h : KInv s) (hn : NoFail a) (hs : step k s a = some s') : KInv s' := by
  have row : ∀ {s1 : St} {c r'}, s1.cp = upd s.cp c r' → (∀ x, r'.endBy x = true → r'.okBy x = true) → (r'.sealEnd = true → r'.sealOk = true) → KInv s1 := by
    intro s1 c r' e h1 h2 x
    rw [e]
    by_cases hx : x = c
    · subst hx; simpa [upd] using ⟨h1, h2⟩
    · simpa [upd, hx] using h x
  have same : ∀ {s1 : St}, s1.cp = s.cp → KInv s1 := by
    intro s1 e x; rw [e]; exact h x
  cases a with
  | ioRead => simp only [step, Option.some.injEq] at hs; subst hs; exact row rfl (h _).1 (h _).2
  | ioRef c | nest c | exitDec c | exitCheck c | startFlush c =>
    simp only [step] at hs; split at hs
    · simp at hs
    simp only [Option.some.injEq] at hs; subst hs; exact row (c := c) rfl (h _).1 (h _).2
  | trig f o t =>
    simp only [step, trigger] at hs
    split at hs
    · simp at hs
    split at hs
    · split at hs
      · split at hs <;> (simp only [Option.some.injEq] at hs; subst hs; exact same rfl)
      · simp only [Option.some.injEq] at hs; subst hs; exact h
    · split at hs
      · simp only [Option.some.injEq] at hs; subst hs; exact row (c := s.cur) rfl (h _).1 (h _).2
      · rename_i c
        split at hs
        · simp at hs
        simp only [Option.some.injEq] at hs; subst hs; exact row (c := c) rfl (h _).1 (h _).2
  | trigB2b =>
    simp only [step, trigger] at hs
    split at hs
    · simp at hs
    split at hs
    · simp at hs
    split at hs
    · split at hs
      · split at hs <;> (simp only [Option.some.injEq] at hs; subst hs; exact same rfl)
      · simp only [Option.some.injEq] at hs; subst hs; exact h
    · simp only [Option.some.injEq] at hs; subst hs; exact row (c := s.cur) rfl (h _).1 (h _).2
  | tPrepare =>
    simp only [step] at hs; split at hs
    rotate_left
    · simp at hs
    simp only [Option.some.injEq] at hs; subst hs
    intro x
    simp only [St.set, upd]
    rename_i c _
    have := h x
    by_cases e1 : x = c + 1
    · subst e1; simpa using this
    · by_cases e2 : x = c
      · subst e2; simpa using this
      · simpa [e1, e2] using this
  | tXchg =>
    simp only [step] at hs; split at hs
    rotate_left
    · simp at hs
    simp only [Option.some.injEq] at hs; subst hs; exact same rfl
  | tSync =>
    simp only [step] at hs; split at hs
    rotate_left
    · simp at hs
    rename_i c _
    split at hs
    rotate_left
    · simp at hs
    simp only [Option.some.injEq] at hs; subst hs; exact row (c := c) rfl (h _).1 (h _).2
  | consDone c x ok =>
    simp only [step] at hs; split at hs
    rotate_left
    · simp at hs
    simp only [Option.some.injEq] at hs; subst hs
    simp only [NoFail] at hn
    refine row (c := c) rfl ?_ (h _).2
    intro y
    have := (h c).1 y
    simp only [upd]
    grind
  | sealStart c =>
    simp only [step] at hs; split at hs
    rotate_left
    · simp at hs
    simp only [Option.some.injEq] at hs; subst hs; exact row (c := c) rfl (h _).1 (h _).2
  | sealDone c ok =>
    simp only [step] at hs; split at hs
    rotate_left
    · simp at hs
    simp only [Option.some.injEq] at hs; subst hs
    exact row (c := c) rfl (h _).1 (fun _ => hn)
  | noSeal c | record c | finLock c =>
    simp only [step] at hs; split at hs
    rotate_left
    · simp at hs
    simp only [Option.some.injEq] at hs; subst hs; exact row (c := c) rfl (h _).1 (h _).2
  | finProm c =>
    simp only [step] at hs; split at hs
    rotate_left
    · simp at hs
    simp only [Option.some.injEq] at hs; subst hs; exact row (c := c) rfl (h _).1 (h _).2
  | shutInit => simp only [step, Option.some.injEq] at hs; subst hs; exact h
  | crash =>
    simp only [step, Option.some.injEq] at hs; subst hs
    intro c
    have := h c
    simp only [boot]
    split
    · exact this
    · split <;> simp [CP.new]

theorem kinv_init : KInv init := by
  intro c
  simp only [init, boot]
  split
  · simp [CP.new]
  · split <;> simp [CP.new]

/-- Every consumer with a context in checkpoint `c`, sealer included, has flushed it and reported success. -/
def AllFlushed (k : Conf) (s : St) (c : Nat) : Prop :=
  (∀ x ∈ k.cons, k.part c x = true → (s.cp c).okBy x = true) ∧ (k.sealer c = true → (s.cp c).sealOk = true)

theorem all_of {k s} (hi : Inv k s) (hk : KInv s) {c} (hc : c < s.disk) : AllFlushed k s c := by
  obtain ⟨h1, h2⟩ := recorded_flushed hi hc
  exact ⟨fun x hx hp => (hk c).1 x (h1 x (List.mem_filter.2 ⟨hx, hp⟩)), fun hse => (hk c).2 (h2 hse)⟩

theorem good_inv {k s} (h : Reachable k Good s) : Inv k s ∧ PInv s ∧ KInv s :=
  reach_ind (P := fun s => Inv k s ∧ PInv s ∧ KInv s)
    ⟨⟨.idle, 0, inv_boot (by omega)⟩, pinv_init, kinv_init⟩
    (fun _ _ _ ⟨h1, h2, h3⟩ ho hst => ⟨inv_step h1 ho.1 hst, pinv_step h1 h2 hst, kinv_step h3 ho.2 hst⟩) h

/-- **C25** (partial: `Quiet` schedules, and no consumer's flush reports failure; see `C25_failure_violated`).
`s.calls` lists the calls of `trigger_cp_flush` since the last start with the promise behind the future each of them
returned and the current checkpoint at the time of the call.  If that promise has been fulfilled with `true`, then
every checkpoint up to the one current at the call has been flushed by all its consumers and recorded on disk. -/
theorem C25_partial {k s p c0} (h : Reachable k Good s) (hc : (p, c0) ∈ s.calls) (hd : s.doneP p = true) :
    ∀ c, c ≤ c0 → c < s.disk ∧ AllFlushed k s c := by
  obtain ⟨hi, hp, hk⟩ := good_inv h
  intro c hcc
  have hlt : c < s.disk := by
    obtain ⟨h1, h2, h3, h4⟩ := hp.calls _ hc
    obtain ⟨h5, d, h6, h7⟩ := hp.done p hd
    simp only at h4 h3
    obtain ⟨ph, n, hat⟩ := hi
    have hr := hat.2 d
    have hdd : d < s.disk := by
      have hg := hat.1
      rcases cases4 n d with x | x | x | x
      · cases ph <;> simp only [GOk] at hg <;> obtain ⟨g1, g2, g3, g4, g5, g6⟩ := hg <;> (try split at g6) <;> omega
      · subst x
        rw [RowOk.eq] at hr
        cases ph <;> simp only [Ready, Trig, Prep1, Prep2, Flushing, Done, h7] at hr <;> simp at hr
        simp only [GOk, h7] at hg
        simp at hg; omega
      · subst x
        rw [RowOk.succ] at hr
        cases ph <;> simp only [Ready, Fresh, h7] at hr <;> simp at hr
      · rw [RowOk.gt x] at hr; simp only [Fresh, h7] at hr; simp at hr
    rcases h4 with h4 | ⟨e, h4, h8⟩
    · exact absurd (h6.trans h4.2) ((hp.pend h4.1).2.2 d)
    · have := hp.inj d e (h6.trans h8.symm) (by rw [h6]; exact h5)
      omega
  exact ⟨hlt, all_of hi hk hlt⟩

/-- **C25**/**C26** are violated when a consumer's flush reports failure: the result is ignored, the checkpoint is
recorded and the trigger's future completes with `true`. -/
theorem C25_failure_violated : ∃ s, Reachable k1 Quiet s ∧ (1, 0) ∈ s.calls ∧ s.doneP 1 = true ∧ s.disk = 1 ∧
    ¬ AllFlushed k1 s 0 := by
  refine ⟨_, ⟨_, ((((((((((((Exec.nil init).snoc (a := .trig false false none) trivial rfl).snoc (a := .tPrepare) ?_ rfl).snoc
    (a := .tXchg) trivial rfl).snoc (a := .tSync) trivial rfl).snoc (a := .exitDec 0) trivial rfl).snoc
    (a := .exitCheck 0) trivial rfl).snoc (a := .startFlush 0) trivial rfl).snoc (a := .consDone 0 1 false) trivial rfl).snoc
    (a := .noSeal 0) trivial rfl).snoc (a := .record 0) trivial rfl).snoc (a := .finLock 0) trivial rfl).snoc
    (a := .finProm 0) trivial rfl⟩, by decide, rfl, rfl, ?_⟩
  · intro c m h
    simp [beginTrig, init, boot] at h
    obtain ⟨rfl, _⟩ := h
    rfl
  · intro h
    have := h.1 1 (by decide) rfl
    revert this
    decide

/-- **C26** (partial: same restrictions).  In every reachable state — so also if the machine crashes there — the
number of checkpoints recorded on disk is the id from which a restart continues; every checkpoint below it has been
flushed by all its consumers; the running system's current checkpoint is never below it; the sealer's flush is
under way only when all others have finished. -/
theorem C26_partial {k s} (h : Reachable k Good s) :
    (∃ s', step k s .crash = some s' ∧ s'.cur = s.disk) ∧
    (∀ c, c < s.disk → AllFlushed k s c) ∧ s.disk ≤ s.cur ∧ s.cur ≤ s.disk + 1 ∧
    (∀ c, (s.cp c).sealing = true → ∀ x ∈ k.cons, k.part c x = true → (s.cp c).okBy x = true) := by
  obtain ⟨hi, hp, hk⟩ := good_inv h
  refine ⟨⟨_, rfl, rfl⟩, fun c hc => all_of hi hk hc, ?_⟩
  obtain ⟨ph, n, hat⟩ := hi
  have hg := hat.1
  have hb : s.disk ≤ s.cur ∧ s.cur ≤ s.disk + 1 := by
    cases ph <;> simp only [GOk] at hg <;> obtain ⟨g1, g2, g3, g4, g5, g6⟩ := hg <;> (try split at g6) <;> omega
  refine ⟨hb.1, hb.2, ?_⟩
  intro c hs x hx hpx
  have hr := hat.2 c
  have hfl : Flushing k c (s.cp c) := by
    rcases cases4 n c with x | x | x | x
    · rw [RowOk.lt x] at hr; simp only [Past, hs] at hr; simp at hr
    · subst x
      rw [RowOk.eq] at hr
      cases ph <;> simp only [Ready, Trig, Prep1, Prep2, Done, Recorded, NotYet, hs] at hr <;> simp at hr
      exact hr
    · subst x
      rw [RowOk.succ] at hr
      cases ph <;> simp only [Ready, Fresh, NotYet, hs] at hr <;> simp at hr
    · rw [RowOk.gt x] at hr; simp only [Fresh, NotYet, hs] at hr; simp at hr
  obtain ⟨f1, f2, f3, f4, f5, f6, f7⟩ := hfl
  have hrun := (f5 hs).1
  rcases f6 x (List.mem_filter.2 ⟨hx, hpx⟩) with h | h
  · rw [hrun] at h; simp at h
  · exact (hk c).1 x h

/-! ## C45 -/

/-- **C45** (partial: `Quiet` schedules): a forced trigger that arrived during a flush is not lost: as long as it is pending, either a flush is
in progress (at whose end it will be seen), or a fiber is about to trigger the back-to-back checkpoint. -/
theorem C45_partial {k s} (h : Reachable k Quiet s) (hp : s.pending = true) :
    s.inFlush = true ∨ (∃ c, (s.cp c).stage = .unlocked true) ∨ 0 < s.b2b := by
  revert hp
  refine (reach_ind (P := fun s => Inv k s ∧ (s.pending = true → s.inFlush = true ∨ (∃ c, (s.cp c).stage = .unlocked true) ∨ 0 < s.b2b))
    ⟨⟨.idle, 0, inv_boot (by omega)⟩, by simp [init, boot]⟩ ?_ h).2
  intro s a s' ⟨hi, ih⟩ hq hs
  refine ⟨inv_step hi hq hs, ?_⟩
  have row : ∀ {s1 : St} {c r'}, s1.cp = upd s.cp c r' → s1.pending = s.pending → s1.inFlush = s.inFlush → s1.b2b = s.b2b →
      r'.stage = (s.cp c).stage → s1.pending = true → s1.inFlush = true ∨ (∃ c, (s1.cp c).stage = .unlocked true) ∨ 0 < s1.b2b := by
    intro s1 c r' e1 e2 e3 e4 e5 hp
    rw [e2] at hp
    rw [e3, e4]
    rcases ih hp with h | ⟨d, h⟩ | h
    · exact .inl h
    · right; left
      refine ⟨d, ?_⟩
      rw [e1]; simp only [upd]
      split
      · rename_i e; subst e; rw [e5]; exact h
      · exact h
    · exact .inr (.inr h)
  cases a with
  | ioRead => simp only [step, Option.some.injEq] at hs; subst hs; exact row (c := s.cur) rfl rfl rfl rfl rfl
  | ioRef c | nest c | exitDec c | exitCheck c | startFlush c =>
    simp only [step] at hs; split at hs
    · simp at hs
    simp only [Option.some.injEq] at hs; subst hs; exact row (c := c) rfl rfl rfl rfl rfl
  | trig f o t =>
    simp only [step, trigger, beginTrig] at hs
    grind
  | trigB2b =>
    simp only [step, trigger, beginTrig] at hs
    grind
  | tPrepare =>
    simp only [step] at hs; split at hs
    rotate_left
    · simp at hs
    rename_i c _
    simp only [Option.some.injEq] at hs; subst hs
    intro hp
    rcases ih hp with h | ⟨d, h⟩ | h
    · exact .inl h
    · right; left
      refine ⟨d, ?_⟩
      simp only [St.set, upd]
      by_cases e1 : d = c + 1
      · subst e1; simpa using h
      · by_cases e2 : d = c
        · subst e2; simpa using h
        · simpa [e1, e2] using h
    · exact .inr (.inr h)
  | tXchg =>
    simp only [step] at hs; split at hs
    rotate_left
    · simp at hs
    simp only [Option.some.injEq] at hs; subst hs; exact ih
  | tSync =>
    simp only [step] at hs; split at hs
    rotate_left
    · simp at hs
    rename_i c _
    split at hs
    rotate_left
    · simp at hs
    simp only [Option.some.injEq] at hs; subst hs; exact row (c := c) rfl rfl rfl rfl rfl
  | consDone c x ok =>
    simp only [step] at hs; split at hs
    rotate_left
    · simp at hs
    simp only [Option.some.injEq] at hs; subst hs; exact row (c := c) rfl rfl rfl rfl rfl
  | sealStart c | noSeal c =>
    simp only [step] at hs; split at hs
    rotate_left
    · simp at hs
    simp only [Option.some.injEq] at hs; subst hs; exact row (c := c) rfl rfl rfl rfl rfl
  | sealDone c ok =>
    simp only [step] at hs; split at hs
    rotate_left
    · simp at hs
    simp only [Option.some.injEq] at hs; subst hs; exact row (c := c) rfl rfl rfl rfl rfl
  | record c =>
    simp only [step] at hs; split at hs
    rotate_left
    · simp at hs
    rename_i h0
    simp only [Option.some.injEq] at hs; subst hs
    obtain ⟨p, n, hat⟩ := hi
    obtain ⟨rfl, rfl⟩ := at_fl hat (.inr (.inl h0))
    have hg := hat.1
    simp only [GOk] at hg
    intro _
    exact .inl hg.2.2.1
  | finLock c =>
    simp only [step] at hs; split at hs
    rotate_left
    · simp at hs
    simp only [Option.some.injEq] at hs; subst hs
    intro hp
    right; left
    refine ⟨c, ?_⟩
    simp only at hp
    simp [St.set, upd, ← hp]
  | finProm c =>
    simp only [step] at hs; split at hs
    rotate_left
    · simp at hs
    rename_i b hb
    simp only [Option.some.injEq] at hs; subst hs
    intro hp
    rcases ih hp with h | ⟨d, h⟩ | h
    · exact .inl h
    · by_cases hd : d = c
      · subst hd
        rw [hb] at h
        injection h with h
        subst h
        right; right; simp
      · right; left
        exact ⟨d, by simp [St.set, upd, hd, h]⟩
    · right; right; simp only; split <;> omega
  | shutInit => simp only [step, Option.some.injEq] at hs; subst hs; exact ih
  | crash => simp only [step, Option.some.injEq] at hs; subst hs; simp [boot]

/-! ## The hypotheses are met -/

/-- Executable form of `Good`. -/
def goodB (s : St) : Act → Bool
  | .tPrepare => match s.tpc with | some (c, _) => (s.cp c).zeros == 0 | none => true
  | .consDone _ _ ok => ok
  | .sealDone _ ok => ok
  | _ => true

theorem goodB_ok {s a} (h : goodB s a = true) : Good s a := by
  cases a <;> simp [Good, Quiet, NoFail, goodB] at h ⊢ <;> try exact h
  intro c m e
  simpa [e] using h

def runGood (k : Conf) : St → List Act → Option St
  | s, [] => some s
  | s, a :: as => if goodB s a then (step k s a).bind fun s' => runGood k s' as else none

theorem runGood_reach {k} : ∀ {as s s'}, Reachable k Good s → runGood k s as = some s' → Reachable k Good s' := by
  intro as
  induction as with
  | nil => intro s s' h e; simp [runGood] at e; subst e; exact h
  | cons a as ih =>
    intro s s' ⟨pre, h⟩ e
    simp only [runGood] at e
    split at e
    · rename_i hg
      cases hs : step k s a with
      | none => simp [hs] at e
      | some s1 => rw [hs] at e; exact ih ⟨_, h.snoc (goodB_ok hg) hs⟩ e
    · simp at e

/-- Two consumers and a sealer. -/
def k2 : Conf := ⟨[0, 1], fun _ _ => true, fun _ => true⟩

/-- I/O in checkpoint 0; a trigger while the I/O is inside; I/O in checkpoint 1; a forced trigger during the flush;
flush, record, back-to-back checkpoint; crash and restart; one more I/O. -/
def history : List Act :=
  [.ioRead, .ioRef 0, .trig false false none, .tPrepare, .ioRead, .ioRef 0, .exitDec 0, .tXchg, .tSync, .exitDec 0,
   .ioRead, .ioRef 1, .trig true false none, .exitDec 0, .exitCheck 0, .startFlush 0, .consDone 0 1 true, .consDone 0 0 true,
   .sealStart 0, .sealDone 0 true, .record 0, .finLock 0, .finProm 0, .trigB2b, .tPrepare, .tXchg, .tSync, .exitDec 1, .exitDec 1,
   .exitCheck 1, .startFlush 1, .consDone 1 0 true, .consDone 1 1 true, .sealStart 1, .sealDone 1 true, .record 1, .finLock 1, .finProm 1]

example : ∃ s, Reachable k2 Good s ∧ s.disk = 2 ∧ s.cur = 2 ∧ s.calls = [(2, 1), (2, 1), (1, 0)] ∧
    s.doneP 1 = true ∧ s.doneP 2 = true := by
  refine ⟨_, runGood_reach (as := history) ⟨[], .nil _⟩ rfl, ?_⟩
  decide +kernel

example : ∃ s, Reachable k2 Good s ∧ s.disk = 2 ∧ 0 < (s.cp 2).refs := by
  refine ⟨_, runGood_reach (as := history ++ [.crash, .ioRead, .ioRef 2]) ⟨[], .nil _⟩ rfl, ?_⟩
  decide +kernel

/-- A pending forced trigger while a flush runs. -/
example : ∃ s, Reachable k2 Quiet s ∧ s.pending = true := by
  obtain ⟨as, h⟩ : Reachable k2 Good _ := runGood_reach (as := history.take 13) ⟨[], .nil _⟩ rfl
  have weaken : ∀ {s0 as s}, Exec k2 Good s0 as s → Exec k2 Quiet s0 as s := by
    intro s0 as s h
    induction h with
    | nil => exact .nil _
    | snoc _ h1 h2 ih => exact ih.snoc h1.1 h2
  exact ⟨_, ⟨as, weaken h⟩, by decide +kernel⟩

end HS.Cp
