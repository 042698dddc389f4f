import Verif.Cp.Props
import Mathlib.Algebra.BigOperators.Intervals
import Mathlib.Algebra.Order.BigOperators.Group.Finset
import Mathlib.Data.Prod.Lex
/-!
# C58: every checkpoint trigger completes

Liveness of the checkpoint manager.  `Internal` actions are those the system owes: a thread that entered goes on and
leaves, a triggering thread goes on, consumers finish their flush, fibers run.  The others (new I/O, new triggers,
shutdown, crash) are the environment's.  Without new requests the internal actions come to an end, and then every
future returned by `trigger_cp_flush` has been fulfilled.
-/
namespace HS.Cp

/-- Steps of work already in the system. -/
def Internal : Act → Prop
  | .ioRead | .nest _ | .trig _ _ _ | .shutInit | .crash => False
  | _ => True

/-- The promise of a finished checkpoint has been fulfilled. -/
def DInv (s : St) : Prop := ∀ c, (s.cp c).stage = .finished → (s.cp c).prom = 0 ∨ s.doneP (s.cp c).prom = true

theorem dinv_step {k s a s'} (hi : Inv k s) (h : DInv s) (hs : step k s a = some s') : DInv s' := by
  have row : ∀ {s1 : St} {c r'}, s1.cp = upd s.cp c r' → s1.doneP = s.doneP →
      (r'.stage = .finished → (s.cp c).stage = .finished ∧ r'.prom = (s.cp c).prom) → DInv s1 := by
    intro s1 c r' e e2 h1 x
    rw [e, e2]
    by_cases hx : x = c
    · subst hx
      simp only [upd, if_true]
      intro hf
      rw [(h1 hf).2]; exact h x (h1 hf).1
    · simpa [upd, hx] using h x
  have begin_ok : ∀ c, ((s.cp c).status = .ready → (s.cp c).stage = .before) := by
    intro c hst
    obtain ⟨p, n, hat⟩ := hi
    have hr := hat.2 c
    rcases cases4 n c with h1 | h1 | h1 | h1
    · rw [RowOk.lt h1] at hr; simp only [Past, hst] at hr; simp at hr
    · subst h1
      rw [RowOk.eq] at hr
      cases p <;> simp only [Ready, Trig, Prep1, Prep2, Flushing, Done, Recorded, NotYet, hst] at hr <;> simp at hr
      exact hr.2.2.2.2.2
    · subst h1
      rw [RowOk.succ] at hr
      cases p <;> simp only [Ready, Fresh, NotYet, hst] at hr <;> simp at hr
      · exact hr.1.2.2.2.2.2
      · exact hr.2.2.2.2.2
      · exact hr.2.2.2.2.2
    · rw [RowOk.gt h1] at hr; simp only [Fresh, hst] at hr; simp at hr
  have curReady : s.inFlush = false → (s.cp s.cur).status = .ready ∧ ∀ c, (s.cp c).refs ≠ 0 → c = s.cur := by
    intro hf
    obtain ⟨p, n, hg, hr⟩ := hi
    have hp : p = .idle := by cases p <;> simp only [GOk] at hg <;> simp_all
    subst hp
    simp only [GOk] at hg
    obtain ⟨g1, g2, g3, g4, g5, g6⟩ := hg
    subst g5
    have hc := hr s.cur
    rw [RowOk.eq] at hc
    refine ⟨hc.1, ?_⟩
    intro c hc0
    have hc := hr c
    rcases cases4 s.cur c with h1 | h1 | h1 | h1
    · have := (RowOk.lt h1).1 hc
      simp only [Past, Quietly] at this; omega
    · exact h1
    · subst h1; rw [RowOk.succ] at hc
      simp only [Fresh, Quietly] at hc; omega
    · have := (RowOk.gt h1).1 hc
      simp only [Fresh, Quietly] at this; omega
  cases a with
  | ioRead => simp only [step, Option.some.injEq] at hs; subst hs; exact row (c := s.cur) rfl rfl (fun h => ⟨h, rfl⟩)
  | ioRef c | nest c | exitDec c | exitCheck c | startFlush c =>
    simp only [step] at hs; split at hs
    · simp at hs
    simp only [Option.some.injEq] at hs; subst hs; exact row (c := c) rfl rfl (fun h => ⟨h, rfl⟩)
  | trig f o t =>
    simp only [step, trigger] at hs
    split at hs
    · simp at hs
    split at hs
    · split at hs
      · split at hs <;> (simp only [Option.some.injEq] at hs; subst hs; exact h)
      · simp only [Option.some.injEq] at hs; subst hs; exact h
    · rename_i hfl
      obtain ⟨h1, h2⟩ := curReady (by simpa using hfl)
      have h3 := begin_ok _ h1
      split at hs
      · simp only [Option.some.injEq] at hs; subst hs
        exact row (c := s.cur) rfl rfl (fun h => by simp [h3] at h)
      · rename_i c
        split at hs
        · simp at hs
        rename_i hc0
        simp only [Option.some.injEq] at hs; subst hs
        have := h2 c hc0
        subst this
        exact row (c := s.cur) rfl rfl (fun h => by simp [h3] at h)
  | trigB2b =>
    simp only [step, trigger] at hs
    split at hs
    · simp at hs
    split at hs
    · simp at hs
    split at hs
    · split at hs
      · split at hs <;> (simp only [Option.some.injEq] at hs; subst hs; exact h)
      · simp only [Option.some.injEq] at hs; subst hs; exact h
    · rename_i hfl
      obtain ⟨h1, h2⟩ := curReady (by simpa using hfl)
      have h3 := begin_ok _ h1
      simp only [Option.some.injEq] at hs; subst hs
      exact row (c := s.cur) rfl rfl (fun h => by simp [h3] at h)
  | tPrepare =>
    simp only [step] at hs; split at hs
    rotate_left
    · simp at hs
    simp only [Option.some.injEq] at hs; subst hs
    intro x
    simp only [St.set, upd]
    rename_i c _
    have := h x
    by_cases e1 : x = c + 1
    · subst e1; simpa using this
    · by_cases e2 : x = c
      · subst e2; simpa using this
      · simpa [e1, e2] using this
  | tXchg =>
    simp only [step] at hs; split at hs
    rotate_left
    · simp at hs
    simp only [Option.some.injEq] at hs; subst hs; exact h
  | tSync =>
    simp only [step] at hs; split at hs
    rotate_left
    · simp at hs
    rename_i c _
    split at hs
    rotate_left
    · simp at hs
    simp only [Option.some.injEq] at hs; subst hs; exact row (c := c) rfl rfl (fun h => ⟨h, rfl⟩)
  | consDone c x ok | sealDone c ok =>
    simp only [step] at hs; split at hs
    rotate_left
    · simp at hs
    simp only [Option.some.injEq] at hs; subst hs; exact row (c := c) rfl rfl (fun h => ⟨h, rfl⟩)
  | sealStart c | noSeal c =>
    simp only [step] at hs; split at hs
    rotate_left
    · simp at hs
    simp only [Option.some.injEq] at hs; subst hs; exact row (c := c) rfl rfl (fun h => ⟨h, rfl⟩)
  | record c | finLock c =>
    simp only [step] at hs; split at hs
    rotate_left
    · simp at hs
    simp only [Option.some.injEq] at hs; subst hs; exact row (c := c) rfl rfl (fun h => by simp at h)
  | finProm c =>
    simp only [step] at hs; split at hs
    rotate_left
    · simp at hs
    simp only [Option.some.injEq] at hs; subst hs
    intro x
    have := h x
    simp only [St.set, upd]
    by_cases hx : x = c
    · subst hx; simp
    · simp only [hx, if_false]
      intro hf
      rcases this hf with h | h
      · exact .inl h
      · right; split
        · rfl
        · exact h
  | shutInit => simp only [step, Option.some.injEq] at hs; subst hs; exact h
  | crash =>
    simp only [step, Option.some.injEq] at hs; subst hs
    intro c _
    exact .inl (boot_row _ _ c).1

theorem quiet_inv {k s} (h : Reachable k Quiet s) : Inv k s ∧ PInv s ∧ DInv s :=
  reach_ind (P := fun s => Inv k s ∧ PInv s ∧ DInv s)
    ⟨⟨.idle, 0, inv_boot (by omega)⟩, pinv_init, fun c _ => .inl (boot_row _ _ c).1⟩
    (fun _ _ _ ⟨h1, h2, h3⟩ ho hst => ⟨inv_step h1 ho hst, pinv_step h1 h2 hst, dinv_step h1 h3 hst⟩) h

/-- **C58**, nothing gets stuck (partial: `Quiet` schedules, see `C24_race_violated`).  In every reachable state in
which no step of work already in the system is possible, no flush is in progress, no forced trigger is pending, no
I/O is inside any checkpoint, and every future handed out by a trigger since the last start has been fulfilled with
`true`. -/
theorem C58_quiescent_partial {k s} (h : Reachable k Quiet s) (hq : ∀ a, Internal a → step k s a = none) :
    s.inFlush = false ∧ s.pending = false ∧ (∀ c, ¬ Inside s c) ∧ ∀ q ∈ s.calls, s.doneP q.1 = true := by
  obtain ⟨⟨p, n, hg, hr⟩, hp, hd⟩ := quiet_inv h
  have hidle : p = .idle := by
    cases p with
    | idle => rfl
    | sw =>
      simp only [GOk] at hg
      have := hq .tPrepare trivial
      simp [step, hg.2.2.2.1] at this
    | prepd =>
      simp only [GOk] at hg
      have := hq .tXchg trivial
      simp [step, hg.2.2.2.1] at this
    | xch =>
      simp only [GOk] at hg
      have h1 := hq .tSync trivial
      have h2 := hq (.ioRef n) trivial
      simp [step, hg.2.2.2.1] at h1 h2
      omega
    | fl =>
      exfalso
      simp only [GOk] at hg
      have hc := hr n
      rw [RowOk.eq] at hc
      simp only at hc
      rcases hc with hc | hc | hc | hc
      · obtain ⟨c1, c2, c3, c4, c5⟩ := hc
        have h1 := hq (.exitDec n) trivial
        have h2 := hq (.exitCheck n) trivial
        have h3 := hq (.startFlush n) trivial
        simp only [step] at h1 h2 h3
        split at h1
        · split at h2
          · split at h3
            · omega
            · simp at h3
          · simp at h2
        · simp at h1
      · obtain ⟨c1, c2, c3, c4, c5, c6, c7⟩ := hc
        cases hrun : (s.cp n).running with
        | cons x xs =>
          have := hq (.consDone n x true) trivial
          simp [step, hrun] at this
        | nil =>
          have h1 := hq (.sealStart n) trivial
          have h2 := hq (.sealDone n true) trivial
          have h3 := hq (.noSeal n) trivial
          simp only [step, c1, hrun, true_and] at h1 h2 h3
          cases e1 : (s.cp n).sealing <;> cases e2 : k.sealer n <;> simp [e1, e2] at h1 h2 h3
      · have := hq (.record n) trivial
        simp [step, hc.1] at this
      · have := hq (.finLock n) trivial
        simp [step, hc.2.2.2.1, hg.2.2.2.1] at this
  subst hidle
  simp only [GOk] at hg
  obtain ⟨g1, g2, g3, g4, g5, g6⟩ := hg
  have hb : s.b2b = 0 := by
    have := hq .trigB2b trivial
    simp only [step] at this
    split at this
    · assumption
    · simp [trigger, g3, g4] at this
  have hst : ∀ c b, (s.cp c).stage ≠ .unlocked b := by
    intro c b e
    have := hq (.finProm c) trivial
    simp [step, e] at this
  have hpend : s.pending = false := by
    cases e : s.pending with
    | false => rfl
    | true =>
      rcases C45_partial h e with h1 | ⟨c, h1⟩ | h1
      · rw [g3] at h1; cases h1
      · exact absurd h1 (hst c true)
      · omega
  refine ⟨g3, hpend, ?_, ?_⟩
  · intro c hin
    have h1 := hq (.ioRef c) trivial
    have h2 := hq (.exitDec c) trivial
    simp only [step] at h1 h2
    simp only [Inside] at hin
    split at h1
    · split at h2
      · omega
      · simp at h2
    · simp at h1
  · intro q hqm
    obtain ⟨q1, q2, q3, q4⟩ := hp.calls q hqm
    rcases q4 with q4 | ⟨c, q4, q5⟩
    · rw [hpend] at q4; cases q4.1
    · have hc := hr c
      rcases cases4 n c with h1 | h1 | h1 | h1
      · rw [RowOk.lt h1] at hc
        obtain ⟨a1, a2, a3, a4, a5, a6, a7, a8⟩ := hc
        have hfin : (s.cp c).stage = .finished := by
          cases e : (s.cp c).stage with
          | before => exact absurd e a6
          | recorded => exact absurd e a7
          | unlocked b => exact absurd e (hst c b)
          | finished => rfl
        rcases hd c hfin with h2 | h2
        · omega
        · rw [← q5]; exact h2
      · subst h1
        rw [RowOk.eq] at hc
        have := hp.zero c (.inl hc.1)
        omega
      · subst h1
        rw [RowOk.succ] at hc
        have := hp.zero (n + 1) (.inr hc.1)
        omega
      · rw [RowOk.gt h1] at hc
        have := hp.zero c (.inr hc.1)
        omega

/-! ## Termination -/

/-- Work left in one checkpoint. -/
def rowW (k : Conf) (c : Nat) (r : CP) : Nat :=
  4 * r.readers + 3 * r.refs + 2 * r.zeros + r.starters + r.running.length +
    match r.status with
    | .unknown | .ready => 0
    | .trigger => 9 + (k.parts c).length
    | .prepare => 8 + (k.parts c).length
    | .flushing => if r.sealing then 4 else 5
    | .done => 3
    | .gone => match r.stage with
      | .recorded => 2
      | .unlocked _ => 1
      | _ => 0

def rowB (r : CP) : Nat := if r.stage = .unlocked true then 1 else 0

def tpcW : Option (Nat × TPC) → Nat
  | some (_, .switching) => 6
  | some (_, .prepared) => 5
  | some (_, .xchged) => 4
  | none => 0

/-- Work left in the current flush. -/
def workW (k : Conf) (s : St) : Nat := (∑ c ∈ Finset.range (s.cur + 2), rowW k c (s.cp c)) + tpcW s.tpc

/-- Bound on the number of flushes that will still be started without a new request. -/
def workB (s : St) : Nat :=
  (∑ c ∈ Finset.range (s.cur + 2), rowB (s.cp c)) + s.b2b + if s.inFlush && s.pending then 1 else 0

theorem cur_ge {k p n s} (h : At k p n s) : n ≤ s.cur := by
  have hg := h.1
  cases p <;> simp only [GOk] at hg <;> omega

theorem row_zero {k s} (hi : Inv k s) {c} (hc : s.cur + 2 ≤ c) : rowW k c (s.cp c) = 0 ∧ rowB (s.cp c) = 0 := by
  obtain ⟨p, n, hat⟩ := hi
  have := cur_ge hat
  have hr := hat.2 c
  rw [RowOk.gt (by omega)] at hr
  simp only [Fresh, Quietly, NotYet] at hr
  simp [rowW, rowB, hr]

/-- Effect on a sum of changing one row. -/
theorem sum_upd (f : Nat → CP → Nat) (cp : Nat → CP) (m c : Nat) (r' : CP) (hc : c < m) :
    (∑ x ∈ Finset.range m, f x (upd cp c r' x)) + f c (cp c) = (∑ x ∈ Finset.range m, f x (cp x)) + f c r' := by
  have hm : c ∈ Finset.range m := Finset.mem_range.2 hc
  rw [← Finset.add_sum_erase _ _ hm, ← Finset.add_sum_erase _ (fun x => f x (cp x)) hm]
  have : ∑ x ∈ (Finset.range m).erase c, f x (upd cp c r' x) = ∑ x ∈ (Finset.range m).erase c, f x (cp x) := by
    apply Finset.sum_congr rfl
    intro x hx
    have := Finset.ne_of_mem_erase hx
    simp [upd, this]
  rw [this]
  simp [upd]
  omega

/-- The measure decreases. -/
def Less (k : Conf) (s' s : St) : Prop := Prod.Lex (· < ·) (· < ·) (workB s', workW k s') (workB s, workW k s)

theorem less_wf (k : Conf) : WellFounded (Less k) :=
  InvImage.wf (fun s => (workB s, workW k s)) (Prod.lex ⟨_, Nat.lt_wfRel.wf⟩ ⟨_, Nat.lt_wfRel.wf⟩).wf

theorem less_of {k s s'} (h1 : workB s' = workB s) (h2 : workW k s' < workW k s) : Less k s' s := by
  unfold Less; rw [h1]; exact Prod.Lex.right _ h2

/-- A step that changes one row, keeps the number of future flushes and reduces the row's work. -/
theorem less_row {k s s' c r'} (hi : Inv k s) (ec : s'.cp = upd s.cp c r') (e1 : s'.cur = s.cur) (e2 : s'.tpc = s.tpc)
    (hw : rowW k c r' < rowW k c (s.cp c))
    (hb : rowB r' + s'.b2b + (if s'.inFlush && s'.pending then 1 else 0) =
      rowB (s.cp c) + s.b2b + if s.inFlush && s.pending then 1 else 0) : Less k s' s := by
  have hc : c < s.cur + 2 := by
    apply Classical.byContradiction
    intro h
    have := row_zero hi (c := c) (by omega)
    omega
  have a1 := sum_upd (rowW k) s.cp (s.cur + 2) c r' hc
  have a2 := sum_upd (fun _ => rowB) s.cp (s.cur + 2) c r' hc
  apply less_of
  · simp only [workB, ec, e1]; omega
  · simp only [workW, ec, e1, e2]; omega

/-- A step of the triggering thread that changes up to two rows. -/
theorem less_tpc {k s s' c r1 r2} (ec : s'.cp = upd (upd s.cp c r1) (c + 1) r2) (e1 : s'.cur = s.cur) (hc : c + 1 < s.cur + 2)
    (e2 : s'.b2b = s.b2b) (e3 : s'.inFlush = s.inFlush) (e4 : s'.pending = s.pending)
    (hw : rowW k c r1 + rowW k (c + 1) r2 + tpcW s'.tpc < rowW k c (s.cp c) + rowW k (c + 1) (s.cp (c + 1)) + tpcW s.tpc)
    (hb : rowB r1 + rowB r2 = rowB (s.cp c) + rowB (s.cp (c + 1))) : Less k s' s := by
  have a1 := sum_upd (rowW k) s.cp (s.cur + 2) c r1 (by omega)
  have a2 := sum_upd (rowW k) (upd s.cp c r1) (s.cur + 2) (c + 1) r2 (by omega)
  have b1 := sum_upd (fun _ => rowB) s.cp (s.cur + 2) c r1 (by omega)
  have b2 := sum_upd (fun _ => rowB) (upd s.cp c r1) (s.cur + 2) (c + 1) r2 (by omega)
  have e : upd s.cp c r1 (c + 1) = s.cp (c + 1) := by simp [upd]
  rw [e] at a2 b2
  apply less_of
  · simp only [workB, ec, e1, e2, e3, e4]; omega
  · simp only [workW, ec, e1]; omega

theorem less_step {k s a s'} (hi : Inv k s) (hn : Internal a) (hs : step k s a = some s') : Less k s' s := by
  cases a with
  | ioRead | nest c | trig f o t | shutInit | crash => exact absurd hn id
  | ioRef c =>
    simp only [step] at hs; split at hs
    · simp at hs
    simp only [Option.some.injEq] at hs; subst hs
    exact less_row hi (c := c) rfl rfl rfl (by simp only [rowW]; omega) rfl
  | exitDec c =>
    simp only [step] at hs; split at hs
    · simp at hs
    simp only [Option.some.injEq] at hs; subst hs
    exact less_row hi (c := c) rfl rfl rfl (by simp only [rowW]; split <;> omega) rfl
  | exitCheck c =>
    simp only [step] at hs; split at hs
    · simp at hs
    simp only [Option.some.injEq] at hs; subst hs
    exact less_row hi (c := c) rfl rfl rfl (by simp only [rowW]; split <;> omega) rfl
  | startFlush c =>
    simp only [step] at hs; split at hs
    · simp at hs
    rename_i h0
    simp only [Option.some.injEq] at hs; subst hs
    have hst : (s.cp c).status = .prepare ∧ (s.cp c).sealing = false ∧ (s.cp c).running = [] := by
      obtain ⟨p, n, hat⟩ := hi
      have hr := hat.2 c
      rcases cases4 n c with h1 | h1 | h1 | h1
      · rw [RowOk.lt h1] at hr; simp only [Past, Quietly] at hr; omega
      · subst h1
        rw [RowOk.eq] at hr
        cases p <;> simp only [Ready, Trig, Prep1, Prep2, Flushing, Done, Recorded, Quietly, NotYet] at hr <;> grind
      · subst h1
        rw [RowOk.succ] at hr
        cases p <;> simp only [Ready, Fresh, Quietly] at hr <;> omega
      · rw [RowOk.gt h1] at hr; simp only [Fresh, Quietly] at hr; omega
    refine less_row hi (c := c) rfl rfl rfl ?_ rfl
    simp [rowW, hst]; omega
  | trigB2b =>
    simp only [step] at hs
    split at hs
    · simp at hs
    rename_i hb
    simp only [trigger] at hs
    split at hs
    · simp at hs
    split at hs
    · simp only [Bool.false_and, Bool.false_eq_true, if_false, Option.some.injEq] at hs; subst hs
      apply Prod.Lex.left
      simp only [workB]; omega
    · rename_i hfl
      simp only [Option.some.injEq] at hs; subst hs
      apply Prod.Lex.left
      have hcur : s.cur < s.cur + 2 := by omega
      have hrb : ∀ x, rowB ((beginTrig { s with b2b := s.b2b - 1 } s.cur).cp x) = rowB (s.cp x) := by
        intro x
        simp only [beginTrig, St.set, upd]
        split
        · rename_i e; subst e; rfl
        · rfl
      have : (if (s.inFlush && s.pending) = true then 1 else 0) = 0 := by simp at hfl; simp [hfl]
      simp only [workB]
      rw [this, Finset.sum_congr rfl (fun x _ => hrb x)]
      simp [beginTrig, St.set]; omega
  | tPrepare =>
    have hi0 := hi
    obtain ⟨p, n, hg, hr⟩ := hi
    simp only [step] at hs
    split at hs
    rotate_left
    · simp at hs
    rename_i c htp
    simp only [Option.some.injEq] at hs; subst hs
    cases p <;> simp only [GOk] at hg <;> obtain ⟨g1, g2, g3, g4, g5, g6⟩ := hg <;> rw [htp] at g4 <;> simp at g4
    subst g4
    have h1 := hr c
    have h2 := hr (c + 1)
    rw [RowOk.eq] at h1
    rw [RowOk.succ] at h2
    simp only [Trig, Fresh, NotYet] at h1 h2
    refine less_tpc (c := c) rfl rfl (by omega) rfl rfl rfl ?_ rfl
    simp [rowW, h1.1, h2.1, tpcW, htp]
  | tXchg =>
    have hi0 := hi
    obtain ⟨p, n, hg, hr⟩ := hi
    simp only [step] at hs
    split at hs
    rotate_left
    · simp at hs
    rename_i c htp
    simp only [Option.some.injEq] at hs; subst hs
    cases p <;> simp only [GOk] at hg <;> obtain ⟨g1, g2, g3, g4, g5, g6⟩ := hg <;> rw [htp] at g4 <;> simp at g4
    have hz := row_zero hi0 (c := s.cur + 2) (Nat.le_refl _)
    have hcur : c + 1 + 2 = (s.cur + 2) + 1 := by omega
    apply less_of
    · simp only [workB]; rw [hcur, Finset.sum_range_succ, hz.2]; omega
    · simp only [workW, tpcW, htp]; rw [hcur, Finset.sum_range_succ, hz.1]; omega
  | tSync =>
    have hi0 := hi
    obtain ⟨p, n, hg, hr⟩ := hi
    simp only [step] at hs
    split at hs
    rotate_left
    · simp at hs
    rename_i c htp
    split at hs
    rotate_left
    · simp at hs
    simp only [Option.some.injEq] at hs; subst hs
    cases p <;> simp only [GOk] at hg <;> obtain ⟨g1, g2, g3, g4, g5, g6⟩ := hg <;> rw [htp] at g4 <;> simp at g4
    subst g4
    refine less_tpc (c := c) (r1 := { s.cp c with refs := (s.cp c).refs + 1 }) (r2 := s.cp (c + 1)) ?_ rfl (by omega) rfl rfl rfl ?_ rfl
    · funext x
      simp only [St.set, upd]
      by_cases e : x = c + 1
      · subst e; simp
      · simp [e]
    · simp [rowW, tpcW, htp]; omega
  | consDone c x ok =>
    simp only [step] at hs; split at hs
    rotate_left
    · simp at hs
    rename_i hx
    simp only [Option.some.injEq] at hs; subst hs
    refine less_row hi (c := c) rfl rfl rfl ?_ rfl
    have := List.length_erase_of_mem hx
    have := List.length_pos_of_mem hx
    simp only [rowW]; omega
  | sealStart c =>
    simp only [step] at hs; split at hs
    rotate_left
    · simp at hs
    rename_i h0
    simp only [Option.some.injEq] at hs; subst hs
    refine less_row hi (c := c) rfl rfl rfl ?_ rfl
    simp [rowW, h0.1, h0.2.2.2]
  | sealDone c ok =>
    simp only [step] at hs; split at hs
    rotate_left
    · simp at hs
    rename_i h0
    simp only [Option.some.injEq] at hs; subst hs
    refine less_row hi (c := c) rfl rfl rfl ?_ rfl
    simp [rowW, h0.1, h0.2]
  | noSeal c =>
    simp only [step] at hs; split at hs
    rotate_left
    · simp at hs
    rename_i h0
    simp only [Option.some.injEq] at hs; subst hs
    refine less_row hi (c := c) rfl rfl rfl ?_ rfl
    simp only [rowW, h0.1]
    split <;> omega
  | record c =>
    have hi0 := hi
    obtain ⟨p, n, hat⟩ := hi
    simp only [step] at hs; split at hs
    rotate_left
    · simp at hs
    rename_i h0
    simp only [Option.some.injEq] at hs; subst hs
    obtain ⟨rfl, rfl⟩ := at_fl hat (.inr (.inl h0))
    have hc := hat.2 c
    rw [RowOk.eq] at hc
    simp only [Prep2, Flushing, Done, Recorded, h0] at hc
    simp at hc
    refine less_row hi0 (c := c) rfl rfl rfl ?_ ?_
    · simp [rowW, h0]
    · simp [rowB, hc.2.2.1, St.set]
  | finLock c =>
    have hi0 := hi
    obtain ⟨p, n, hat⟩ := hi
    simp only [step] at hs; split at hs
    rotate_left
    · simp at hs
    rename_i h0
    simp only [Option.some.injEq] at hs; subst hs
    obtain ⟨rfl, rfl⟩ := at_fl hat (.inr (.inr h0.1))
    have hg := hat.1
    simp only [GOk] at hg
    have hc := hat.2 c
    rw [RowOk.eq] at hc
    simp only [Prep2, Flushing, Done, Recorded, NotYet, h0.1] at hc
    simp at hc
    refine less_row hi0 (c := c) rfl rfl rfl ?_ ?_
    · simp [rowW, h0.1, hc.1]
    · cases e : s.pending <;> simp [rowB, h0.1, St.set, hg.2.2.1, e] ; omega
  | finProm c =>
    have hi0 := hi
    simp only [step] at hs; split at hs
    rotate_left
    · simp at hs
    rename_i b h0
    simp only [Option.some.injEq] at hs; subst hs
    have hgone : (s.cp c).status = .gone := by
      obtain ⟨p, n, hat⟩ := hi
      have hr := hat.2 c
      rcases cases4 n c with h1 | h1 | h1 | h1
      · rw [RowOk.lt h1] at hr; exact hr.1
      · subst h1
        rw [RowOk.eq] at hr
        cases p <;> simp only [Ready, Trig, Prep1, Prep2, Flushing, Done, Recorded, NotYet] at hr <;> grind
      · subst h1
        rw [RowOk.succ] at hr
        cases p <;> simp only [Ready, Fresh, NotYet] at hr <;> grind
      · rw [RowOk.gt h1] at hr; simp only [Fresh, NotYet] at hr; grind
    refine less_row hi0 (c := c) rfl rfl rfl ?_ ?_
    · simp [rowW, h0, hgone]
    · cases b <;> simp [rowB, h0, St.set]; omega

/-- **C58**, work comes to an end (partial: `Quiet` schedules).  From a reachable state there is no infinite
sequence of steps of work already in the system: without new requests every schedule ends in a state as described by
`C58_quiescent_partial`. -/
theorem C58_terminates_partial {k s} (h : Reachable k Quiet s) :
    ¬ ∃ f : Nat → St, f 0 = s ∧ ∀ i, ∃ a, Internal a ∧ Quiet (f i) a ∧ step k (f i) a = some (f (i + 1)) := by
  rintro ⟨f, h0, hf⟩
  have hr : ∀ i, Reachable k Quiet (f i) := by
    intro i
    induction i with
    | zero => rw [h0]; exact h
    | succ i ih =>
      obtain ⟨a, _, h2, h3⟩ := hf i
      obtain ⟨as, he⟩ := ih
      exact ⟨_, he.snoc h2 h3⟩
  have key : ∀ s, ∀ i, f i ≠ s := by
    intro s
    induction s using (less_wf k).induction with
    | _ s ih =>
      intro i e
      obtain ⟨a, h1, h2, h3⟩ := hf i
      exact ih (f (i + 1)) (by rw [← e]; exact less_step (quiet_inv (hr i)).1 h1 h3) (i + 1) rfl
  exact key _ 0 rfl

/-- **C58**, every trigger can complete (partial: `Quiet` schedules): from every reachable state, finishing work
already in the system alone leads to a state in which all futures handed out so far are fulfilled. -/
theorem C58_completes_partial {k s} (h : Reachable k Quiet s) :
    ∃ as s', Exec k (fun s a => Quiet s a ∧ Internal a) s as s' ∧ ∀ q ∈ s.calls, s'.doneP q.1 = true := by
  suffices H : ∀ s, Reachable k Quiet s → ∃ as s', Exec k (fun s a => Quiet s a ∧ Internal a) s as s' ∧
      (∀ q ∈ s.calls, q ∈ s'.calls) ∧ Reachable k Quiet s' ∧ ∀ a, Internal a → step k s' a = none by
    obtain ⟨as, s', h1, h2, h3, h4⟩ := H s h
    exact ⟨as, s', h1, fun q hq => (C58_quiescent_partial h3 h4).2.2.2 q (h2 q hq)⟩
  have consExec : ∀ {ok : St → Act → Prop} {s a s1 as s2}, ok s a → step k s a = some s1 → Exec k ok s1 as s2 →
      Exec k ok s (a :: as) s2 := by
    intro ok s a s1 as s2 h1 h2 h3
    induction h3 with
    | nil => exact (Exec.nil s).snoc h1 h2
    | snoc _ b1 b2 ih => exact (ih).snoc b1 b2
  intro s
  induction s using (less_wf k).induction with
  | _ s ih =>
    intro h
    by_cases hq : ∀ a, Internal a → step k s a = none
    · exact ⟨[], s, .nil s, fun _ h => h, h, hq⟩
    · have : ∃ a s1, Internal a ∧ Quiet s a ∧ step k s a = some s1 := by
        simp only [not_forall] at hq
        obtain ⟨a, ha, hs⟩ := hq
        obtain ⟨s1, hs⟩ := Option.ne_none_iff_exists'.1 hs
        by_cases hqa : Quiet s a
        · exact ⟨a, s1, ha, hqa, hs⟩
        · cases a <;> simp only [Quiet, not_true_eq_false] at hqa
          simp only [not_forall] at hqa
          obtain ⟨c, m, htp, hz⟩ := hqa
          exact ⟨.exitCheck c, _, trivial, trivial, by simp only [step]; rw [if_neg hz]⟩
      obtain ⟨a, s1, h1, h2, h3⟩ := this
      obtain ⟨as0, he⟩ := h
      have hr1 : Reachable k Quiet s1 := ⟨_, he.snoc h2 h3⟩
      obtain ⟨as, s', e1, e2, e3, e4⟩ := ih s1 (less_step (quiet_inv ⟨as0, he⟩).1 h1 h3) hr1
      refine ⟨a :: as, s', consExec ⟨h2, h1⟩ h3 e1, ?_, e3, e4⟩
      intro q hq
      apply e2
      cases a <;> simp only [step] at h3
      case trigB2b =>
        simp only [trigger, beginTrig] at h3
        grind
      all_goals first
        | exact absurd h1 id
        | (split at h3 <;> first
            | (simp at h3; done)
            | (simp only [Option.some.injEq] at h3; subst h3; exact hq)
            | (split at h3 <;> first | (simp at h3; done) | (simp only [Option.some.injEq] at h3; subst h3; exact hq)))

/-- **C45**, what a trigger during a flush does (partial: `Quiet` schedules; see also `C58_quiescent_partial`, by which
the future is fulfilled).  A forced trigger, unless shutdown has been initiated and it is not shutdown's own, is
recorded as pending, and its future is that of the next checkpoint: a checkpoint covering everything up to the one
current at the call.  A trigger without `force` changes nothing. -/
theorem C45_trigger_partial {k s} (h : Reachable k Quiet s) (hf : s.inFlush = true) (ht : s.tpc = none) (onShut : Bool)
    (top : Option Nat) :
    (s.shut = false ∨ onShut = true → ∃ s' p, step k s (.trig true onShut top) = some s' ∧ s'.pending = true ∧
      (p, s.cur) ∈ s'.calls ∧ s'.pendProm = p ∧ s'.doneP p = false) ∧
    (s.shut = true ∧ onShut = false → step k s (.trig true onShut top) = some s) ∧
    step k s (.trig false onShut top) = some s := by
  obtain ⟨hi, hp, hd⟩ := quiet_inv h
  have notDone : ∀ p, (∀ c, (s.cp c).prom ≠ p) → s.doneP p = false := by
    intro p hne
    cases e : s.doneP p with
    | false => rfl
    | true => obtain ⟨_, c, h1, _⟩ := hp.done p e; exact absurd h1 (hne c)
  refine ⟨?_, ?_, ?_⟩
  · intro hsh
    have hcond : (!s.shut || onShut) = true := by rcases hsh with h | h <;> simp [h]
    cases hpd : s.pending with
    | true =>
      refine ⟨{ s with calls := (s.pendProm, s.cur) :: s.calls }, s.pendProm, by simp [step, trigger, ht, hf, hcond, hpd], hpd, by simp, rfl, ?_⟩
      exact notDone _ (hp.pend hpd).2.2
    | false =>
      refine ⟨{ s with pending := true, pendProm := s.proms, proms := s.proms + 1, calls := (s.proms, s.cur) :: s.calls }, s.proms,
        by simp [step, trigger, ht, hf, hcond, hpd], rfl, by simp, rfl, ?_⟩
      exact notDone _ (fun c e => by have := hp.lt c; omega)
  · rintro ⟨h1, h2⟩
    simp [step, trigger, ht, hf, h1, h2]
  · simp [step, trigger, ht, hf]

/-! ### The hypotheses are met -/

/-- A forced trigger arrives while checkpoint 0 is being flushed and an I/O is inside checkpoint 1. -/
def midway : List Act :=
  [.ioRead, .ioRef 0, .trig false false none, .tPrepare, .ioRead, .ioRef 0, .exitDec 0, .tXchg, .tSync, .exitDec 0,
   .ioRead, .ioRef 1, .trig true false none]

theorem good_quiet {k s} (h : Reachable k Good s) : Reachable k Quiet s := by
  obtain ⟨as, h⟩ := h
  refine ⟨as, ?_⟩
  generalize hs0 : init = s0 at h
  clear hs0
  induction h with
  | nil => exact .nil _
  | snoc _ h1 h2 ih => exact ih.snoc h1.1 h2

example : ∃ s, Reachable k2 Quiet s ∧ s.inFlush = true ∧ s.tpc = none ∧ s.pending = true ∧ s.calls = [(2, 1), (1, 0)] ∧
    s.doneP 1 = false ∧ s.doneP 2 = false := by
  refine ⟨_, good_quiet (runGood_reach (as := midway) ⟨[], .nil _⟩ rfl), ?_⟩
  decide +kernel

/-- The state at the end of `history` is one in which all futures are fulfilled. -/
example : ∃ s, Reachable k2 Quiet s ∧ s.calls = [(2, 1), (2, 1), (1, 0)] ∧ s.doneP 1 = true ∧ s.doneP 2 = true := by
  refine ⟨_, good_quiet (runGood_reach (as := history) ⟨[], .nil _⟩ rfl), ?_⟩
  decide +kernel

end HS.Cp
