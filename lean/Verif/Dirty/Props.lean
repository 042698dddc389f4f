import Verif.Dirty.Lemmas
/-!
# C113: a checkpoint is asked for when the indexes have too much dirty memory

The counter of dirty bytes is exact, a checkpoint is in progress whenever a change of an index has taken it over the
limit, and outside of flushes it is bounded by the limit or by what was dirtied during the last flush; that last part
is not bounded (`C113_unbounded_violated`), and what a flush leaves over the limit asks for no checkpoint
(`C113_left_over_violated`).
-/
namespace HS.Dirty
open HS.Cp

/-- The invariant. -/
structure DInv (g : Cfg) (d : DSt) : Prop where
  cnt : d.cnt = g.node * d.bufs.length
  opn : ∀ c ∈ d.bufs, Open g.idx (d.s.cp c)
  held : ∀ c, d.asking.count c ≤ (d.s.cp c).refs
  asked : d.since = true → d.s.inFlush = true ∨ d.asking ≠ [] ∨ d.cnt ≤ g.limit
  over : d.s.inFlush = true → d.bufs.countP (fun c => (d.s.cp c).status == .ready) ≤ d.during
  left : d.s.inFlush = false → d.since = false → d.bufs.length ≤ d.during

theorem dinv_init (g : Cfg) : DInv g dInit := by
  constructor <;> simp [dInit, Cp.init, boot]

theorem dinv_move {g k d s'} (h : DInv g d)
    (h1 : ∀ c ∈ d.bufs, Open g.idx (s'.cp c) ∧ ((s'.cp c).status = .ready → (d.s.cp c).status = .ready) ∧
      (d.s.inFlush = false → s'.inFlush = true → (s'.cp c).status ≠ .ready))
    (h2 : d.s.inFlush = true → s'.inFlush = false → ∃ c, (d.s.cp c).stage = .recorded)
    (hi : Inv k d.s) (ask' : List Nat) (h3 : ∀ c, ask'.count c ≤ (s'.cp c).refs)
    (h4 : s'.inFlush = true ∨ ask' = d.asking ∨ ask' ≠ []) : DInv g { d.move s' with asking := ask' } := by
  have mono : d.bufs.countP (fun c => (s'.cp c).status == .ready) ≤ d.bufs.countP (fun c => (d.s.cp c).status == .ready) :=
    List.countP_mono_left fun c hc he => by
      simp only [beq_iff_eq] at he ⊢; exact (h1 c hc).2.1 he
  refine ⟨h.cnt, fun c hc => (h1 c hc).1, h3, ?_, ?_, ?_⟩
  · intro hs
    simp only [DSt.move] at hs ⊢
    split at hs
    · simp at hs
    rename_i hn
    cases hf : s'.inFlush with
    | true => exact Or.inl rfl
    | false =>
      have hf0 : d.s.inFlush = false := by cases e : d.s.inFlush <;> simp_all
      rcases h4 with h4 | h4 | h4
      · simp_all
      · rw [h4]; rcases h.asked hs with q | q | q
        · simp_all
        · exact Or.inr (Or.inl q)
        · exact Or.inr (Or.inr q)
      · exact Or.inr (Or.inl h4)
  · intro hf
    simp only [DSt.move] at hf ⊢
    split
    · rename_i hn
      simp only [Bool.and_eq_true, Bool.not_eq_eq_eq_not, Bool.not_true] at hn
      rw [Nat.le_zero, List.countP_eq_zero]
      intro c hc
      simpa using (h1 c hc).2.2 hn.1 hf
    · rename_i hn
      have hf0 : d.s.inFlush = true := by cases e : d.s.inFlush <;> simp_all
      exact Nat.le_trans mono (h.over hf0)
  · intro hf hs
    simp only [DSt.move] at hf hs ⊢
    rw [if_neg (by simp [hf])]
    cases hf0 : d.s.inFlush with
    | false => exact h.left hf0 (by simpa [hf0] using hs)
    | true =>
      obtain ⟨x, hx⟩ := h2 hf0 hf
      have := h.over hf0
      rwa [List.countP_eq_length.2] at this
      intro c hc
      have ho := h.opn c hc
      simp only [beq_iff_eq]
      refine ((row_facts hi c).2.2.2.2.2 x hx).2 ?_ ?_ <;>
        (simp only [Open] at ho; rcases ho with q | q | q | q <;> simp [q])

theorem dinv_step {g k d a d'} (hidx : ∀ c, g.idx ∈ k.parts c) (hi : Inv k d.s) (h : DInv g d)
    (hs : dstep g k d a = some d') : DInv g d' := by
  cases a with
  | cp a =>
    have gen : ∀ s', step k d.s a = some s' → a ≠ .crash → (∀ c ok, c ∈ d.bufs → a ≠ .consDone c g.idx ok) →
        (∀ c, a = .exitDec c → d.asking.count c < (d.s.cp c).refs) → DInv g (d.move s') := by
      intro s' e1 e2 e3 e4
      have := dinv_move (k := k) (s' := s') h (fun c hc => step_open hi e1 e2 (fun ok => e3 c ok hc) (hidx c) (h.opn c hc))
        (fun q1 q2 => step_end hi e1 e2 q1 q2) hi d.asking ?_ (Or.inr (Or.inl rfl))
      · exact this
      · intro c
        by_cases hx : a = .exitDec c
        · have h4 := e4 c hx
          subst hx
          simp only [step] at e1
          split at e1
          · simp at e1
          simp only [Option.some.injEq] at e1; subst e1
          simp only [St.set, St.touch, upd, if_true]; omega
        · exact Nat.le_trans (h.held c) (step_refs e1 e2 c hx)
    simp only [dstep] at hs
    cases a with
    | exitDec c =>
      simp only [cpStep] at hs
      split at hs
      · rename_i hc
        obtain ⟨s', e1, e2⟩ := Option.map_eq_some_iff.1 hs
        subst e2
        exact gen _ e1 (by simp) (by simp) (fun c' e => by injection e with e; subst e; exact hc)
      · simp at hs
    | consDone c x ok =>
      simp only [cpStep] at hs
      split at hs
      · simp at hs
      · rename_i hc
        obtain ⟨s', e1, e2⟩ := Option.map_eq_some_iff.1 hs
        subst e2
        refine gen _ e1 (by simp) ?_ (by simp)
        intro c' ok' hb e
        injection e with e1 e2 e3
        subst e1
        exact hc ⟨e2, hb⟩
    | crash =>
      simp only [cpStep, step, Option.map_some, Option.some.injEq] at hs
      subst hs
      constructor <;> simp [dInit, boot]
    | _ =>
      simp only [cpStep] at hs
      obtain ⟨s', e1, e2⟩ := Option.map_eq_some_iff.1 hs
      subst e2
      exact gen _ e1 (by simp) (by simp) (by simp)
  | dirty c =>
    simp only [dstep, dirty] at hs
    split at hs
    · rename_i hc
      simp only [Option.some.injEq] at hs; subst hs
      have hst := (row_facts hi c).2.1 (by omega)
      refine ⟨?_, ?_, ?_, ?_, ?_, ?_⟩
      · simp only [h.cnt, List.length_cons, Nat.mul_add, Nat.mul_one]
      · intro x hx
        rcases List.mem_cons.1 hx with e | e
        · subst e; rcases hst with q | q | q <;> simp [Open, q]
        · exact h.opn x e
      · intro x
        show List.count x (if _ then _ else _) ≤ _
        split
        · rw [List.count_cons]
          split
          · rename_i e; simp only [beq_iff_eq] at e; subst e; show _ ≤ (d.s.cp c).refs; omega
          · exact h.held x
        · exact h.held x
      · intro _
        by_cases hl : d.cnt + g.node > g.limit
        · exact Or.inr (Or.inl (by simp [hl]))
        · exact Or.inr (Or.inr (by show d.cnt + g.node ≤ g.limit; omega))
      · intro hf
        have hf' : d.s.inFlush = true := hf
        have := h.over hf'
        simp only [List.countP_cons, hf', if_true]
        split <;> omega
      · intro hf hs'
        have hf' : d.s.inFlush = false := hf
        simp [hf'] at hs'
    · simp at hs
  | ask c =>
    simp only [dstep, ask] at hs
    split at hs
    · rename_i hc
      obtain ⟨s', e1, e2⟩ := Option.map_eq_some_iff.1 hs
      subst e2
      obtain ⟨f1, f2⟩ := trigger_inFlush e1
      refine dinv_move (k := k) h (fun x hx => ?_) (fun _ q => by simp [f1] at q) hi _ (fun x => ?_) (Or.inl f1)
      · obtain ⟨q1, q2, q3⟩ := trigger_open hi e1 (h.opn x hx)
        exact ⟨q1, q2, fun q _ => q3 q⟩
      · rw [f2 x]
        exact Nat.le_trans (List.Sublist.count_le x List.erase_sublist) (h.held x)
    · simp at hs
  | wrote c =>
    simp only [dstep, wrote] at hs
    split at hs
    · rename_i hc
      simp only [Option.some.injEq] at hs; subst hs
      have hl := List.length_erase_of_mem hc.1
      have hpos : 0 < d.bufs.length := List.length_pos_of_mem hc.1
      refine ⟨?_, fun x hx => h.opn x (List.mem_of_mem_erase hx), h.held, ?_, ?_, ?_⟩
      · show d.cnt - g.node = g.node * (d.bufs.erase c).length
        rw [hl, h.cnt, Nat.mul_sub, Nat.mul_one]
      · intro hs'
        rcases h.asked hs' with q | q | q
        · exact Or.inl q
        · exact Or.inr (Or.inl q)
        · exact Or.inr (Or.inr (by show d.cnt - g.node ≤ _; omega))
      · intro hf
        exact Nat.le_trans (List.Sublist.countP_le List.erase_sublist) (h.over hf)
      · intro hf hs'
        have := h.left hf hs'
        show (d.bufs.erase c).length ≤ d.during
        omega
    · simp at hs

/-- What happens to the checkpoint manager is what `Cp/` describes. -/
theorem dreach_cp {g k d} (h : DReach g k DQuiet d) : Reachable k Quiet d.s := by
  induction h with
  | init => exact ⟨[], .nil _⟩
  | @step d a d' _ hq hs ih =>
    obtain ⟨as, ih⟩ := ih
    have one : ∀ a s', Quiet d.s a → step k d.s a = some s' → Reachable k Quiet s' := fun a s' q e => ⟨_, ih.snoc q e⟩
    cases a with
    | cp a =>
      have : ∃ s', step k d.s a = some s' ∧ d'.s = s' := by
        simp only [dstep] at hs
        cases a with
        | exitDec c => simp only [cpStep] at hs; split at hs <;> simp at hs; obtain ⟨s', e1, e2⟩ := hs; exact ⟨s', e1, by rw [← e2]; rfl⟩
        | consDone c x ok => simp only [cpStep] at hs; split at hs <;> simp at hs; obtain ⟨s', e1, e2⟩ := hs; exact ⟨s', e1, by rw [← e2]; rfl⟩
        | _ =>
          simp only [cpStep] at hs
          obtain ⟨s', e1, e2⟩ := Option.map_eq_some_iff.1 hs
          exact ⟨s', e1, by rw [← e2]; first | done | rfl⟩
      obtain ⟨s', e1, e2⟩ := this
      rw [e2]; exact one a s' hq e1
    | dirty c => simp only [dstep, dirty] at hs; split at hs <;> simp at hs; rw [← hs]; exact ⟨_, ih⟩
    | wrote c => simp only [dstep, wrote] at hs; split at hs <;> simp at hs; rw [← hs]; exact ⟨_, ih⟩
    | ask c =>
      simp only [dstep, ask] at hs
      split at hs
      · obtain ⟨s', e1, e2⟩ := Option.map_eq_some_iff.1 hs
        rw [← e2]; exact one (.trig false false (some c)) s' trivial e1
      · simp at hs

theorem dreach_inv {g k d} (hidx : ∀ c, g.idx ∈ k.parts c) (h : DReach g k DQuiet d) : DInv g d := by
  induction h with
  | init => exact dinv_init g
  | step hd _ hs ih => exact dinv_step hidx (reach_inv (fun _ _ h => h) (dreach_cp hd)) ih hs

/-- **C113**, the counter (partial: the schedules of `Quiet`, see `C24_race_violated`; the index service takes part in every
checkpoint).  At every moment the counter is the size of a node times the number of buffers that were dirtied and are not written; none of these
belongs to a checkpoint whose flush has been recorded; and a write that completes finds the counter large enough to be lowered. -/
theorem C113_counter_partial {g k d} (hidx : ∀ c, g.idx ∈ k.parts c) (h : DReach g k DQuiet d) :
    d.cnt = g.node * d.bufs.length ∧ (∀ c ∈ d.bufs, d.s.disk ≤ c) ∧
    (∀ c ∈ d.bufs, g.idx ∈ (d.s.cp c).running → ∃ d', dstep g k d (.wrote c) = some d') := by
  have hi := dreach_inv hidx h
  refine ⟨hi.cnt, ?_, ?_⟩
  · intro c hc
    have ho := hi.opn c hc
    obtain ⟨p, n, hg, hr⟩ := reach_inv (fun _ _ h => h) (dreach_cp h)
    have hx := hr c
    apply Nat.le_of_not_lt
    intro hlt
    have key : (d.s.cp c).status = .gone := by
      rcases cases4 n c with h1 | h1 | h1 | h1
      · rw [RowOk.lt h1] at hx; exact hx.1
      · subst h1
        cases p <;> simp only [GOk] at hg <;> try omega
        obtain ⟨_, g2, _, _, _, g6⟩ := hg
        split at g6
        · assumption
        · omega
      all_goals
        cases p <;> simp only [GOk] at hg <;> try omega
        obtain ⟨_, g2, _, _, _, g6⟩ := hg
        split at g6 <;> omega
    simp [Open, key] at ho
  · intro c hc hrun
    refine ⟨{ d with bufs := d.bufs.erase c, cnt := d.cnt - g.node }, ?_⟩
    simp only [dstep, wrote]
    rw [if_pos]
    refine ⟨hc, hrun, ?_⟩
    rw [hi.cnt]
    exact Nat.le_mul_of_pos_right _ (List.length_pos_of_mem hc)

/-- **C113**, the request (partial, same schedules): when a change of an index takes the dirty memory over the limit, its thread goes
on to ask for a checkpoint; it can do so as soon as nobody else is in the middle of asking; and when it has done so a
checkpoint is in progress. -/
theorem C113_asked_partial {g k d c d'} (hidx : ∀ c, g.idx ∈ k.parts c)
    (hd : dstep g k d (.dirty c) = some d') (hl : g.limit < d'.cnt) :
    c ∈ d'.asking ∧ ∀ d1, DReach g k DQuiet d1 → c ∈ d1.asking →
      (d1.s.tpc = none → ∃ d2, dstep g k d1 (.ask c) = some d2) ∧
      ∀ d2, dstep g k d1 (.ask c) = some d2 → d2.s.inFlush = true := by
  refine ⟨?_, ?_⟩
  · simp only [dstep, dirty] at hd
    split at hd
    · simp only [Option.some.injEq] at hd; subst hd
      have : d.cnt + g.node > g.limit := hl
      simp [this]
    · simp at hd
  · intro d1 h1 hc
    have hi := dreach_inv hidx h1
    refine ⟨fun ht => ?_, fun d2 e => ?_⟩
    · simp only [dstep, ask]
      rw [if_pos hc]
      have hr : (d1.s.cp c).refs ≠ 0 := by
        have := hi.held c
        have := List.count_pos_iff.2 hc
        omega
      cases hf : d1.s.inFlush <;> simp [trigger, ht, hf, hr]
    · simp only [dstep, ask] at e
      rw [if_pos hc] at e
      obtain ⟨s', e1, e2⟩ := Option.map_eq_some_iff.1 e
      rw [← e2]
      exact (trigger_inFlush e1).1

/-- **C113**, the bound (partial, same schedules): when no flush is in progress and no thread is about to ask for one, the dirty memory is
within the limit, or it is at most what was dirtied while the last flush was in progress, and nothing has been dirtied since. -/
theorem C113_bound_partial {g k d} (hidx : ∀ c, g.idx ∈ k.parts c) (h : DReach g k DQuiet d)
    (hf : d.s.inFlush = false) (ha : d.asking = []) :
    d.cnt ≤ g.limit ∨ (d.since = false ∧ d.cnt ≤ g.node * d.during) := by
  have hi := dreach_inv hidx h
  cases hs : d.since with
  | true =>
    rcases hi.asked hs with q | q | q
    · simp [hf] at q
    · exact absurd ha q
    · exact Or.inl q
  | false =>
    right
    refine ⟨rfl, ?_⟩
    rw [hi.cnt]
    exact Nat.mul_le_mul_left _ (hi.left hf hs)

/-! ## Witnesses -/

/-- Consumer 1 is the index service; nodes of 4 KB; limit of 8 KB (10 percent of 80 KB). -/
def g1 : Cfg := ⟨4096, dirtyLimit 10 81920, 1⟩

theorem g1_idx : ∀ c, g1.idx ∈ k1.parts c := by intro c; simp [g1, k1, Conf.parts]

theorem dreach_run {g k} : ∀ {as : List DAct} {d d'}, DReach g k DQuiet d → (∀ a ∈ as, a ≠ .cp .tPrepare) →
    runOpt (dstep g k) d as = some d' → DReach g k DQuiet d' := by
  intro as
  induction as with
  | nil => intro d d' h _ e; simp [runOpt] at e; subst e; exact h
  | cons a as ih =>
    intro d d' h hn e
    simp only [runOpt] at e
    cases hs : dstep g k d a with
    | none => simp [hs] at e
    | some d1 =>
      rw [hs] at e
      refine ih (h.step ?_ hs) (fun x hx => hn x (List.mem_cons_of_mem _ hx)) e
      cases a with
      | cp a =>
        cases a with
        | tPrepare => exact absurd rfl (hn _ (List.mem_cons_self))
        | _ => trivial
      | _ => trivial

/-- Three nodes are dirtied in checkpoint 0; the third takes the memory over the limit and its thread triggers the flush. -/
def enter : List DAct := [.cp .ioRead, .cp (.ioRef 0), .dirty 0, .dirty 0, .dirty 0, .ask 0]
def goOn : List DAct := [.cp .tXchg, .cp .tSync, .cp (.exitDec 0), .cp (.exitDec 0), .cp (.exitCheck 0), .cp (.startFlush 0),
  .cp .ioRead, .cp (.ioRef 1)]
def finish : List DAct := [.cp (.exitDec 1), .cp (.exitCheck 1), .wrote 0, .wrote 0, .wrote 0, .cp (.consDone 0 1 true), .cp (.noSeal 0), .cp (.record 0),
  .cp (.finLock 0), .cp (.finProm 0)]

/-- The states after `enter`, after `goOn` (the flush of 0 is in progress, a thread is inside 1). -/
def after (as : List DAct) : DSt := (runOpt (dstep g1 k1) dInit as).getD dInit

theorem reach_enter : DReach g1 k1 DQuiet (after enter) :=
  dreach_run (as := enter) .init (by decide) (by simp only [after]; rfl)

theorem reach_goOn : DReach g1 k1 DQuiet (after (enter ++ .cp .tPrepare :: goOn)) := by
  have h1 := reach_enter
  have h2 : DReach g1 k1 DQuiet (after (enter ++ [.cp .tPrepare])) := by
    refine h1.step (a := .cp .tPrepare) ?_ rfl
    intro c m e
    have : (after enter).s.tpc = some (0, .switching) := rfl
    rw [this] at e
    injection e with e; injection e with e1 e2; subst e1; rfl
  exact dreach_run (as := goOn) h2 (by decide) rfl

/-- The hypotheses of `C113_counter_partial`, `C113_asked_partial` and `C113_bound_partial` are met by executions with a flush. -/
example : DReach g1 k1 DQuiet (after (enter ++ .cp .tPrepare :: goOn)) ∧ (after (enter ++ .cp .tPrepare :: goOn)).bufs = [0, 0, 0] ∧
    (after (enter ++ .cp .tPrepare :: goOn)).cnt = 12288 ∧ (after (enter ++ .cp .tPrepare :: goOn)).s.inFlush = true :=
  ⟨reach_goOn, rfl, rfl, rfl⟩

example : ∃ d d', DReach g1 k1 DQuiet d ∧ dstep g1 k1 d (.dirty 0) = some d' ∧ g1.limit < d'.cnt :=
  ⟨after (enter.take 4), after (enter.take 5), dreach_run (as := enter.take 4) .init (by decide) rfl, rfl, by decide⟩

example : ∃ d, DReach g1 k1 DQuiet d ∧ d.s.inFlush = false ∧ d.asking = [] ∧ d.cnt = 8192 ∧ d.since = true :=
  ⟨after (enter.take 4), dreach_run (as := enter.take 4) .init (by decide) rfl, rfl, rfl, rfl, rfl⟩

/-- **C113**, violated: dirty memory is not bounded by the limit plus anything: while a flush is in progress a change that finds the memory over the limit
asks for a checkpoint, is told that one is in progress, and goes on; for every amount there is an execution that reaches it during one flush. -/
theorem C113_unbounded_violated (n : Nat) : ∃ d, DReach g1 k1 DQuiet d ∧ n ≤ d.cnt ∧ d.s.disk = 0 ∧ (d.s.cp 0).status = .flushing := by
  have key : ∀ n, ∃ d, DReach g1 k1 DQuiet d ∧ n ≤ d.cnt ∧ g1.limit < d.cnt ∧ d.asking = [] ∧ (d.s.cp 1).refs = 1 ∧ d.s.inFlush = true ∧ d.s.tpc = none ∧
      d.s.disk = 0 ∧ (d.s.cp 0).status = .flushing := by
    intro n
    induction n with
    | zero => exact ⟨_, reach_goOn, Nat.zero_le _, by decide, rfl, rfl, rfl, rfl, rfl, rfl⟩
    | succ n ih =>
      obtain ⟨d, h1, h2, h3, h4, h5, h6, h7, h8, h9⟩ := ih
      have e1 : dstep g1 k1 d (.dirty 1) = some { d with bufs := 1 :: d.bufs, cnt := d.cnt + 4096, asking := [1], since := d.since, during := d.during + 1 } := by
        have : d.cnt + g1.node > g1.limit := by omega
        simp [dstep, dirty, h4, h5, h6, g1, this]
        simpa [g1] using this
      have r1 := h1.step (a := .dirty 1) trivial e1
      have e2 : dstep g1 k1 { d with bufs := 1 :: d.bufs, cnt := d.cnt + 4096, asking := [1], since := d.since, during := d.during + 1 } (.ask 1) =
          some { d with bufs := 1 :: d.bufs, cnt := d.cnt + 4096, asking := [], since := d.since, during := d.during + 1 } := by
        simp [dstep, ask, trigger, h6, h7, DSt.move]
      refine ⟨_, r1.step (a := .ask 1) trivial e2, ?_, ?_, rfl, h5, h6, h7, h8, h9⟩
      · show n + 1 ≤ d.cnt + 4096; omega
      · show g1.limit < d.cnt + 4096; omega
  obtain ⟨d, h1, h2, _, _, _, _, _, h8, h9⟩ := key n
  exact ⟨d, h1, h2, h8, h9⟩

/-- Three nodes are dirtied in checkpoint 1 while 0 is flushed; then the flush ends. -/
def more : List DAct := [.dirty 1, .ask 1, .dirty 1, .ask 1, .dirty 1, .ask 1] ++ finish

/-- **C113**, violated: three nodes dirtied during a flush are over the limit; when the flush ends no checkpoint is in progress, pending or about to be asked for, and none is asked for
until a node is dirtied again or the timer fires. -/
theorem C113_left_over_violated : ∃ d, DReach g1 k1 DQuiet d ∧ g1.limit < d.cnt ∧ d.s.inFlush = false ∧ d.s.pending = false ∧ d.s.b2b = 0 ∧
    d.asking = [] ∧ d.s.disk = 1 := by
  have e : (runOpt (dstep g1 k1) (after (enter ++ .cp .tPrepare :: goOn)) more).map
      (fun d => decide (g1.limit < d.cnt ∧ d.s.inFlush = false ∧ d.s.pending = false ∧ d.s.b2b = 0 ∧ d.asking = [] ∧ d.s.disk = 1)) = some true := by
    decide +kernel
  obtain ⟨d, e1, e2⟩ := Option.map_eq_some_iff.1 e
  exact ⟨d, dreach_run reach_goOn (by decide) e1, of_decide_eq_true e2⟩

end HS.Dirty
