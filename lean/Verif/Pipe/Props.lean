import Verif.Pipe.Wait
/-! # C94-C97: appends and flushes of a log device by several threads -/
namespace HS.Pipe
variable {D : Type}

/-- The steps of an append that does not flush. -/
def app (c sz : Nat) : List (Ev Nat) := [.call c .append sz (c + 100), .reserve c, .count c, .file c, .fin c]

/-- The steps of a flush that writes one group and ends. -/
def fl (c : Nat) : List (Ev Nat) :=
  [.call c .flush 0 0, .lock c, .bound c, .prep c, .pay c, .write c .ok, .complete c, .prep c]

/-- The steps of a flush whose write fails. -/
def flBad (c : Nat) : List (Ev Nat) :=
  [.call c .flush 0 0, .lock c, .bound c, .prep c, .pay c, .write c .failed]

/-- A run from a new log device ends in a state with `P`. -/
def Reaches (lim : Nat) (fc : Bool) (es : List (Ev Nat)) (P : St Nat → Prop) : Prop :=
  match (St.init lim fc : St Nat).run es with
  | some s => P s
  | none => False

instance {lim fc es} {P : St Nat → Prop} [DecidablePred P] : Decidable (Reaches lim fc es P) := by
  unfold Reaches; split <;> infer_instance

theorem Reaches.out {lim fc es} {P : St Nat → Prop} (h : Reaches lim fc es P) : ∃ s, (St.init lim fc).run es = some s ∧ P s := by
  unfold Reaches at h; split at h
  · exact ⟨_, by assumption, h⟩
  · exact h.elim

instance (s : St Nat) (c : Nat) : Decidable (Durable s c) := by unfold Durable; infer_instance

instance (s : St Nat) (c : Nat) : Decidable (Returned s c) :=
  match h : s.calls c with
  | none => isFalse (by rintro ⟨x, b, h1, -⟩; rw [h] at h1; cases h1)
  | some x =>
    match h2 : x.ph with
    | .ret b => isTrue ⟨x, b, h, h2⟩
    | .called | .reserved | .counted | .filed | .locked | .bound .. | .got .. | .paid .. | .wrote .. | .lost =>
      isFalse (by rintro ⟨y, b, h3, h4⟩; rw [h] at h3; cases h3; rw [h2] at h4; cases h4)

instance (e : Ev Nat) : Decidable e.noError := by cases e <;> simp only [Ev.noError] <;> infer_instance
instance (e : Ev Nat) : Decidable e.noCrash := by cases e <;> simp only [Ev.noCrash] <;> infer_instance

theorem kind_init (lim : Nat) (fc : Bool) : KindOk (St.init lim fc : St D) := by intro c x h; cases h

/-! ## C94: callbacks -/

/-- C94: in every history, with crashes and failed writes, the callback of no append runs twice. -/
theorem C94_callback_once (lim : Nat) (fc : Bool) (es : List (Ev D)) {s : St D}
    (hs : (St.init lim fc).run es = some s) : s.acked.Nodup :=
  (List.nodup_append.mp (inv_run (inv_init lim fc) es hs).nodup).1

/-- C94: in every history, every record that a start finds is that of an append, with the size and the
data that the append was given. -/
theorem C94_found_as_given (lim : Nat) (fc : Bool) (es : List (Ev D)) {s : St D}
    (hs : (St.init lim fc).run es = some s) : ∀ r ∈ recover s.disk, ∃ x, s.calls r.call = some x ∧
      x.kind ≠ .flush ∧ x.sz = r.sz ∧ x.data = r.data := by
  intro r hr
  have hi := inv_run (inv_init lim fc) es hs
  obtain ⟨j, h2⟩ := List.getElem?_of_mem hr
  obtain ⟨x, e1, e2, e3, e4, -⟩ := view_call hi ((recovered hi).2 j r h2)
  exact ⟨x, e1, (kind_run (kind_init lim fc) es hs r.call x e1).1 (by rw [e2]; simp), e3, e4⟩

/-- C94: in every history, a start finds no append twice. -/
theorem C94_found_once (lim : Nat) (fc : Bool) (es : List (Ev D)) {s : St D}
    (hs : (St.init lim fc).run es = some s) : ((recover s.disk).map Rec.call).Nodup := by
  have hi := inv_run (inv_init lim fc) es hs
  rw [List.Nodup, List.pairwise_iff_getElem]
  intro i j hi' hj hij heq
  rw [List.length_map] at hi' hj
  have h1 : (recover s.disk)[i]? = some ((recover s.disk)[i]'(by omega)) := List.getElem?_eq_getElem (by omega)
  have h2 : (recover s.disk)[j]? = some ((recover s.disk)[j]'(by omega)) := List.getElem?_eq_getElem (by omega)
  obtain ⟨x, a1, a2, -⟩ := view_call hi ((recovered hi).2 i _ h1)
  obtain ⟨y, b1, b2, -⟩ := view_call hi ((recovered hi).2 j _ h2)
  simp only [List.getElem_map] at heq
  rw [heq, b1] at a1; cases a1
  rw [b2] at a2; cases a2; omega

/-- C94, as far as it holds: while no write to the disk fails, every append whose callback has run is
found by every start from then on, however the threads interleave and wherever the process ends.
Missing: histories with failed writes, of which it is false (`C94_failed_write_violated`). -/
theorem C94_acknowledged_survives_partial (lim : Nat) (fc : Bool) (es es' : List (Ev D)) (he : ∀ e ∈ es, e.noError)
    {s s' : St D} (hs : (St.init lim fc).run es = some s) (hs' : s.run es' = some s') :
    ∀ c ∈ s.acked, Durable s' c := by
  intro c hc
  have hS := sound_run (inv_init lim fc) (sound_init lim fc) es he hs
  obtain ⟨r, h1, h2⟩ := hS.cb c (by simp [hc])
  exact durable_run es' hs' ⟨r, hS.found.subset h1, h2⟩

/-- Two appends, a flush, the callbacks, another append, a crash: the callbacks have run in another order,
and the start finds the two. -/
example : Reaches 202 false (app 1 5 ++ app 2 7 ++ fl 3 ++ [.callback 1, .callback 0] ++ app 4 1 ++ [.crash 0])
    (fun s => s.acked = [2, 1] ∧ (recover s.disk).map Rec.call = [1, 2] ∧ s.next = 2) := by decide +kernel

/-- C94 is false of histories with failed writes. The write of the flush of append 1 fails; a second flush
has read the end of the log when five more appends come; it takes the record again, with four of the
others, into the place after the hole that the failed write has left. The callbacks run, and no start
finds any of the records. -/
theorem C94_failed_write_violated : ∃ s : St Nat,
    (St.init 202 false).run (app 1 1 ++ flBad 10 ++ [.call 11 .flush 0 0, .lock 11, .bound 11] ++ app 2 1 ++ app 3 1 ++
      app 4 1 ++ app 5 1 ++ app 6 1 ++ [.prep 11, .pay 11, .write 11 .ok, .complete 11, .callback 0]) = some s ∧
    1 ∈ s.acked ∧ ¬ Durable s 1 :=
  Reaches.out (by decide +kernel)

/-! ## C95: an append is not found without those that had returned before it was called -/

/-- C95: append `a` is called (not yet in `s0`) and returns, in `s1`; then `b` is called. Whatever happens
then - other calls, failed writes, crashes - the record of `b` is not found by a start that does
not find that of `a`. -/
theorem C95_earlier_appends_survive (lim : Nat) (fc : Bool) (es0 es1 es2 : List (Ev D)) {s0 s1 s2 : St D}
    (h0 : (St.init lim fc).run es0 = some s0) (a : Nat) (ha0 : s0.calls a = none)
    (h1 : s0.run es1 = some s1) (hc : ∀ e ∈ es1, e.noCrash) (ha : IsAppend s1 a) (har : Returned s1 a)
    (b sz : Nat) (k : Kind) (d : D) (h2 : s1.run (.call b k sz d :: es2) = some s2) :
    Durable s2 b → Durable s2 a := by
  have i0 := inv_run (inv_init lim fc) es0 h0
  have i1 := inv_run i0 es1 h1
  have k1 := kind_run (kind_run (kind_init lim fc) es0 h0) es1 h1
  have m1 := mine_run i0 (a := a) (by intro x i h; rw [ha0] at h; cases h) es1 hc h1
  obtain ⟨x, hx, hk⟩ := ha
  obtain ⟨y, bo, hy, hp⟩ := har
  rw [hx] at hy; cases hy
  obtain ⟨i, hidx⟩ := Option.ne_none_iff_exists'.mp ((k1 a x hx).2 (by rw [hp]; rfl) (by rw [hp]; simp) hk)
  have hlt := (m1 x i hx (by rw [hp]; rfl) hidx).1
  simp only [St.run] at h2
  split at h2
  case h_2 => cases h2
  rename_i s1' hst
  have hb : s1.calls b = none := by
    simp only [St.step] at hst
    split at hst
    · cases hst
    · split at hst
      · assumption
      · cases hst
  have hg := grew_step i1 _ (by simp [Ev.noCrash]) hst
  have hb' : s1'.calls b ≠ none := by
    simp only [St.step, hb] at hst
    split at hst
    · cases hst
    · cases hst; simp [upd]
  have ha' : s1'.calls a = some x := by
    simp only [St.step, hb] at hst
    split at hst
    · cases hst
    · cases hst
      show upd _ _ _ _ = _
      rw [upd_other _ _ (by intro h; rw [h, hb] at hx; cases hx)]; exact hx
  have m1' := mine_step i1 m1 _ (by simp [Ev.noCrash]) hst
  have af : After s1' b s1.next := after_step i1 ⟨Nat.le_refl _, by intro x j h; rw [hb] at h; cases h⟩ _ (by simp [Ev.noCrash]) hst
  exact before_run (inv_step i1 _ hst) m1' ha' hp hidx hlt af hb' es2 h2

/-- C95: a record that a start would find is found by every start from then on. -/
theorem C95_found_stays (es : List (Ev D)) {s s' : St D} (hs : s.run es = some s') {c : Nat} (h : Durable s c) :
    Durable s' c := durable_run es hs h

/-- The flush of append 1 fails and the process ends. Then append 3 returns before append 4 is called, a flush
writes both, and both are found. -/
example : Reaches 202 false (app 1 1 ++ flBad 2 ++ [.crash 0] ++ app 3 1 ++ app 4 1 ++ fl 5)
    (fun s => Returned s 3 ∧ Durable s 4 ∧ Durable s 3 ∧ ¬ Durable s 1) := by decide +kernel

/-! ## C96: what is flushed is found -/

/-- C96, as far as it holds: while no write fails and, whenever `c` collects the records to flush, no
append with a lower index is between its index and its record, the record of a `write_and_flush` that
has returned is found by every start. Missing: histories with an append in that place
(`C96_unfiled_neighbour_violated`) and with failed writes (`C96_failed_write_violated`). -/
theorem C96_write_and_flush_partial (lim : Nat) (hlim : 0 < lim) (fc : Bool) (es0 es : List (Ev D)) {s0 s : St D}
    (h0 : (St.init lim fc).run es0 = some s0) (hn0 : ∀ e ∈ es0, e.noError) (c sz : Nat) (d : D)
    (hs : s0.run (.call c .writeFlush sz d :: es) = some s) (hn : ∀ e ∈ es, e.noError)
    (hcl : Clear c c s0 (.call c .writeFlush sz d :: es)) (hr : Returned s c) : Durable s c := by
  have i0 := inv_run (inv_init lim fc) es0 h0
  have S0 := sound_run (inv_init lim fc) (sound_init lim fc) es0 hn0 h0
  have l0 : 0 < s0.lim := by rw [lim_run es0 h0]; exact hlim
  simp only [St.run] at hs
  split at hs
  case h_2 => cases hs
  rename_i s1 hst
  have htr : Tr s1 c c := by
    simp only [St.step] at hst
    split at hst
    · cases hst
    · split at hst
      · cases hst; exact .inr (.inr (.inl ⟨rfl, _, upd_same _ _ _, rfl, rfl⟩))
      · cases hst
  exact tr_returned (tr_run (inv_step i0 _ hst) (sound_step i0 S0 _ (by simp [Ev.noError]) hst)
    (by rw [lim_step _ hst]; exact l0) htr es hn (hcl.2 s1 hst) hs) hr

/-- C96, as far as it holds: append `a` is called (not yet in `s0`) and has returned in `s1`; then `f`
flushes. While no write fails and, whenever `f` collects the records to flush, no append with a lower
index than `a` is between its index and its record, `a` is found by every start when `f` has
returned. Missing: as above. -/
theorem C96_flush_partial (lim : Nat) (hlim : 0 < lim) (fc : Bool) (es0 es1 es : List (Ev D)) {s0 s1 s : St D}
    (h0 : (St.init lim fc).run es0 = some s0) (hn0 : ∀ e ∈ es0, e.noError) (a : Nat) (ha0 : s0.calls a = none)
    (h1 : s0.run es1 = some s1) (hn1 : ∀ e ∈ es1, e.noError) (hc1 : ∀ e ∈ es1, e.noCrash)
    (ha : IsAppend s1 a) (har : Returned s1 a) (f sz : Nat) (d : D)
    (hs : s1.run (.call f .flush sz d :: es) = some s) (hn : ∀ e ∈ es, e.noError)
    (hcl : Clear f a s1 (.call f .flush sz d :: es)) (hr : Returned s f) : Durable s a := by
  have i0 := inv_run (inv_init lim fc) es0 h0
  have S0 := sound_run (inv_init lim fc) (sound_init lim fc) es0 hn0 h0
  have i1 := inv_run i0 es1 h1
  have S1 := sound_run i0 S0 es1 hn1 h1
  have l1 : 0 < s1.lim := by rw [lim_run es1 h1, lim_run es0 h0]; exact hlim
  have k1 := kind_run (kind_run (kind_init lim fc) es0 h0) es1 h1
  have m1 := mine_run i0 (a := a) (by intro x i h; rw [ha0] at h; cases h) es1 hc1 h1
  obtain ⟨x, hx, hk⟩ := ha
  obtain ⟨y, bo, hy, hp⟩ := har
  rw [hx] at hy; cases hy
  obtain ⟨i, hidx⟩ := Option.ne_none_iff_exists'.mp ((k1 a x hx).2 (by rw [hp]; rfl) (by rw [hp]; simp) hk)
  have hlt := (m1 x i hx (by rw [hp]; rfl) hidx).1
  simp only [St.run] at hs
  split at hs
  case h_2 => cases hs
  rename_i s2 hst
  have m2 := mine_step i1 m1 _ (by simp [Ev.noCrash]) hst
  have htr : Tr s2 f a := by
    simp only [St.step] at hst
    split at hst
    · cases hst
    · split at hst
      · rename_i hf
        cases hst
        have hne : a ≠ f := by intro h; rw [h, hf] at hx; cases hx
        exact .inr (.inr (.inr ⟨x, _, i, (upd_other _ _ hne).trans hx, hidx, hlt, m2, by rw [hp]; simp, fun _ => ⟨bo, hp⟩,
          upd_same _ _ _, rfl, by simp, by intro n h; cases h⟩))
      · cases hst
  exact tr_returned (tr_run (inv_step i1 _ hst) (sound_step i1 S1 _ (by simp [Ev.noError]) hst)
    (by rw [lim_step _ hst]; exact l1) htr es hn (hcl.2 s2 hst) hs) hr

/-- Append 1 has its index but no record when `write_and_flush` 2 is called and gets its index; 1 gets its
record before 2 collects. -/
example : Clear 2 2 (St.init 202 false) [.call 2 .writeFlush 1 0, .call 1 .append 1 0, .reserve 1, .reserve 2, .count 2,
    .file 2, .lock 2, .bound 2, .count 1, .file 1, .prep 2, .pay 2, .write 2 .ok, .complete 2, .prep 2] := by
  repeat' first
    | exact trivial
    | (refine ⟨by intro h; cases h, fun s' h => ?_⟩; cases h)
    | (refine ⟨?_, fun s' h => ?_⟩; rotate_left; cases h)
  all_goals
    intro he x i _ _ c x' j hc hh _
    exfalso
    first
    | (cases he; done)
    | rcases c with _ | _ | _ | c <;> cases hc <;> cases hh

example : Reaches 202 false [.call 2 .writeFlush 1 0, .call 1 .append 1 0, .reserve 1, .reserve 2, .count 2,
    .file 2, .lock 2, .bound 2, .count 1, .file 1, .prep 2, .pay 2, .write 2 .ok, .complete 2, .prep 2]
    (fun s => Returned s 2 ∧ Durable s 2 ∧ Durable s 1 ∧ ¬ Returned s 1) := by decide +kernel

/-- C96 is false of a `write_and_flush` beside an append that has an index but not yet a record: it
flushes nothing, ignores that, and returns. No write fails and nothing crashes. -/
theorem C96_unfiled_neighbour_violated : ∃ s : St Nat,
    (St.init 202 false).run ([.call 1 .append 1 0, .reserve 1] ++
      [.call 2 .writeFlush 1 0, .reserve 2, .count 2, .file 2, .lock 2, .bound 2, .prep 2]) = some s ∧
    Returned s 2 ∧ ¬ Durable s 2 :=
  Reaches.out (by decide +kernel)

/-- The same of `flush`: append 2 has returned before it is called. -/
theorem C96_unfiled_neighbour_flush_violated : ∃ s : St Nat,
    (St.init 202 false).run ([.call 1 .append 1 0, .reserve 1] ++ app 2 1 ++
      [.call 3 .flush 0 0, .lock 3, .bound 3, .prep 3]) = some s ∧
    Returned s 2 ∧ Returned s 3 ∧ ¬ Durable s 2 :=
  Reaches.out (by decide +kernel)

/-- C96 is false when the write fails: `write_and_flush` returns as if it had succeeded. -/
theorem C96_failed_write_violated : ∃ s : St Nat,
    (St.init 202 false).run [.call 2 .writeFlush 1 0, .reserve 2, .count 2, .file 2, .lock 2, .bound 2, .prep 2, .pay 2,
      .write 2 .failed] = some s ∧
    Returned s 2 ∧ ¬ Durable s 2 :=
  Reaches.out (by decide +kernel)

/-! ## C97: the log device does not stop the process, and can be flushed -/

/-- C97, as far as it holds: in every history, with crashes and failed writes, a start finds the records
that were on disk; and it does not stop itself, if the groups up to the first one that does not
follow the one before reach to the last chunk. Missing: logs with such a group in a chunk before the last
one (`C97_start_stops_violated`). -/
theorem C97_start_reads_partial (lim : Nat) (fc : Bool) (es : List (Ev D)) (k : Nat) {s s' : St D}
    (hs : (St.init lim fc).run es = some s) (hk : k ≤ (accepted 0 s.disk).length) (hs' : s.step (.crash k) = some s') :
    s'.dead = false ∧ s'.flushed = recover s.disk ∧ recover s'.disk = recover s.disk := by
  have hi := inv_run (inv_init lim fc) es hs
  simp only [St.step, Option.some.injEq] at hs'
  subst hs'
  refine ⟨?_, rfl, ?_⟩
  · simp only [St.restart, (recovered hi).1, Bool.not_true, Bool.false_or, Bool.and_eq_false_iff, decide_eq_false_iff_not]
    right; omega
  · simp only [recover, restart_disk]

/-- A log with a failed write, started and written again. -/
example : Reaches 202 false (app 1 1 ++ fl 2 ++ app 3 1 ++ flBad 4 ++ [.crash 1] ++ app 5 1 ++ fl 6)
    (fun s => 1 ≤ (accepted 0 s.disk).length ∧ s.dead = false ∧ Durable s 1 ∧ ¬ Durable s 3 ∧ Durable s 5) := by decide +kernel

/-- C97 is false of a write that is reported as failed but is on disk: the records are written again in the
next place, as what follows the group before. When the log has grown to another chunk - here with the fourth group - no start succeeds:
each takes the log for corrupted and stops itself, although append 9 and others were written well and
acknowledged. -/
theorem C97_start_stops_violated : ∃ s : St Nat,
    (St.init 202 false).run (app 1 1 ++ fl 2 ++ app 3 1 ++
      [.call 4 .flush 0 0, .lock 4, .bound 4, .prep 4, .pay 4, .write 4 .failedWritten] ++
      [.call 5 .flush 0 0, .lock 5, .bound 5] ++ app 6 1 ++ app 7 1 ++ app 8 1 ++ app 9 1 ++ app 10 1 ++
      [.prep 5, .pay 5, .write 5 .ok, .complete 5, .prep 5, .callback 5] ++
      [.call 20 .flush 0 0, .lock 20, .bound 20] ++ app 11 1 ++ app 12 1 ++ app 13 1 ++ app 14 1 ++ app 15 1 ++
      [.prep 20, .pay 20, .write 20 .ok, .complete 20, .prep 20, .crash 3]) = some s ∧
    9 ∈ s.acked ∧ s.dead = true ∧ ∀ s', s.step (.crash 3) = some s' → s'.dead = true :=
  ⟨_, rfl, by decide +kernel, by decide +kernel, by intro s' h; cases h; decide +kernel⟩

/-- C97, as far as it holds: while no write to the disk fails, the process does not stop itself. Missing:
failed writes (`C97_failed_write_stops_violated`). -/
theorem C97_never_stops_partial (lim : Nat) (fc : Bool) (es : List (Ev D)) (he : ∀ e ∈ es, e.noError) {s : St D}
    (hs : (St.init lim fc).run es = some s) : s.dead = false :=
  (sound_run (inv_init lim fc) (sound_init lim fc) es he hs).alive

/-- C97, as far as it holds: if no write has failed and no call is going on, a `flush` that is then made,
alone and with its writes successful, returns, and every append that has returned since the start is found
from then on. `a` is called after `s0`. Missing: failed writes (`C97_failed_write_stays_violated`). -/
theorem C97_quiet_flush_partial (lim : Nat) (hlim : 0 < lim) (fc : Bool) (es0 es1 : List (Ev D)) {s0 s : St D}
    (h0 : (St.init lim fc).run es0 = some s0) (hn0 : ∀ e ∈ es0, e.noError)
    (h1 : s0.run es1 = some s) (hn1 : ∀ e ∈ es1, e.noError) (hc1 : ∀ e ∈ es1, e.noCrash)
    (hidle : Idle s) (f sz : Nat) (d : D) (hf : s.calls f = none) :
    ∃ es s', (∀ e ∈ es, e.flushOf f) ∧ s.run (.call f .flush sz d :: es) = some s' ∧ Returned s' f ∧
      ∀ a, s0.calls a = none → IsAppend s a → Returned s a → Durable s' a := by
  have i0 := inv_run (inv_init lim fc) es0 h0
  have S0 := sound_run (inv_init lim fc) (sound_init lim fc) es0 hn0 h0
  have i1 := inv_run i0 es1 h1
  have S1 := sound_run i0 S0 es1 hn1 h1
  have l1 : 0 < s.lim := by rw [lim_run es1 h1, lim_run es0 h0]; exact hlim
  have k1 := kind_run (kind_run (kind_init lim fc) es0 h0) es1 h1
  have hlock : s.lock = none := by
    cases h : s.lock with
    | none => rfl
    | some c =>
      obtain ⟨x, e1, e2⟩ := i1.held c h
      rcases hidle c x e1 with h | ⟨b, h⟩ <;> rw [h] at e2 <;> cases e2
  -- the call
  obtain ⟨s2, st2, f2, a2, b2, c2, d2⟩ : ∃ s2, s.step (.call f .flush sz d) = some s2 ∧
      s2.calls = upd s.calls f (some ⟨.flush, sz, d, none, .called⟩) ∧ s2.next = s.next ∧ s2.last = s.last ∧
      s2.lim = s.lim ∧ s2.lock = none := by
    simp only [St.step, S1.alive, hf, Bool.false_eq_true, if_false]
    exact ⟨_, rfl, rfl, rfl, rfl, rfl, hlock⟩
  have i2 := inv_step i1 _ st2
  have S2 := sound_step i1 S1 _ (by simp [Ev.noError]) st2
  have g2 : s2.calls f = some ⟨.flush, sz, d, none, .called⟩ := by rw [f2]; exact upd_same _ _ _
  obtain ⟨s3, st3, f3, a3, b3, c3⟩ : ∃ s3, s2.step (.lock f) = some s3 ∧
      s3.calls = upd s2.calls f (some ⟨.flush, sz, d, none, .locked⟩) ∧ s3.next = s2.next ∧ s3.last = s2.last ∧ s3.lim = s2.lim := by
    simp only [St.step, S2.alive, Bool.false_eq_true, if_false, St.on, g2, St.getLock, d2]
    exact ⟨_, rfl, rfl, rfl, rfl, rfl⟩
  have i3 := inv_step i2 _ st3
  have S3 := sound_step i2 S2 _ (by simp [Ev.noError]) st3
  have g3 : s3.calls f = some ⟨.flush, sz, d, none, .locked⟩ := by rw [f3]; exact upd_same _ _ _
  have main : ∃ es s', (∀ e ∈ es, e.flushOf f) ∧ s3.run es = some s' ∧ Returned s' f ∧ s'.last = s'.next := by
    by_cases hle : s3.next ≤ s3.last
    · have hle' := i3.le
      refine ⟨[.bound f], s3.finish f ⟨.flush, sz, d, none, .locked⟩ false, by simp [Ev.flushOf], ?_, ⟨_, false, upd_same _ _ _, rfl⟩, ?_⟩
      · refine run_cons ?_ rfl
        simp only [St.step, S3.alive, Bool.false_eq_true, if_false, St.on, g3, St.readBound, hle, if_true]
      · show s3.last = s3.next; omega
    · obtain ⟨s4, st4, f4, a4, b4, c4⟩ : ∃ s4, s3.step (.bound f) = some s4 ∧
          s4.calls = upd s3.calls f (some ⟨.flush, sz, d, none, .bound s3.next⟩) ∧ s4.next = s3.next ∧ s4.last = s3.last ∧ s4.lim = s3.lim := by
        simp only [St.step, S3.alive, Bool.false_eq_true, if_false, St.on, g3, St.readBound, hle]
        exact ⟨_, rfl, rfl, rfl, rfl, rfl⟩
      have nh : NoHalf s4 := by
        intro c x hx
        rw [f4] at hx
        rcases upd_some hx with ⟨-, rfl⟩ | ⟨hne, hx⟩
        · rfl
        · rw [f3, upd_other _ _ hne, f2, upd_other _ _ hne] at hx
          rcases hidle c x hx with h | ⟨b, h⟩ <;> rw [h] <;> rfl
      obtain ⟨es, s', e1, e2, e3, e4⟩ := quiet_loop (f := f) (n := s3.next) (s4.next - s4.last) s4 _ (Nat.le_refl _)
        (inv_step i3 _ st4) (sound_step i3 S3 _ (by simp [Ev.noError]) st4) (by omega) nh
        (by rw [f4]; exact upd_same _ _ _) rfl a4.symm
      refine ⟨.bound f :: es, s', ?_, run_cons st4 e2, e3, e4⟩
      intro e he
      rcases List.mem_cons.mp he with rfl | he
      · rfl
      · exact e1 e he
  obtain ⟨es, s', e1, e2, e3, e4⟩ := main
  refine ⟨.lock f :: es, s', ?_, run_cons st2 (run_cons st3 e2), e3, ?_⟩
  · intro e he
    rcases List.mem_cons.mp he with rfl | he
    · rfl
    · exact e1 e he
  · intro a ha0 ⟨x, hx, hk⟩ ⟨y, bo, hy, hp⟩
    rw [hx] at hy; cases hy
    have hne : a ≠ f := by intro h; rw [h, hf] at hx; cases hx
    have m1 := mine_run i0 (a := a) (by intro x i h; rw [ha0] at h; cases h) es1 hc1 h1
    obtain ⟨i, hidx⟩ := Option.ne_none_iff_exists'.mp ((k1 a x hx).2 (by rw [hp]; rfl) (by rw [hp]; simp) hk)
    have hcr : ∀ e ∈ es, e.noCrash := by
      intro e he
      have := e1 e he
      cases e <;> simp_all [Ev.flushOf, Ev.noCrash]
    have hne' : ∀ e ∈ es, e.noError := by
      intro e he
      have := e1 e he
      cases e <;> simp_all [Ev.flushOf, Ev.noError]
    have m3 := mine_step i2 (mine_step i1 m1 _ (by simp [Ev.noCrash]) st2) _ (by simp [Ev.noCrash]) st3
    have m' := mine_run i3 m3 es hcr e2
    have hx3 : s3.calls a = some x := by rw [f3, upd_other _ _ hne, f2, upd_other _ _ hne]; exact hx
    have hx' := ret_run i3 hx3 hp es hcr e2
    have hlt := (m' x i hx' (by rw [hp]; rfl) hidx).1
    exact durable_of_lt (sound_run i3 S3 es hne' e2) hx' (by rw [hp]; rfl) hidx m' (by omega)

/-- Two appends and no flush, the second being made beside a flush that has ended. -/
example : Reaches 202 false (app 1 5 ++ fl 2 ++ app 3 7) (fun s => Returned s 1 ∧ Returned s 2 ∧ Returned s 3 ∧
    Durable s 1 ∧ ¬ Durable s 3 ∧ s.calls 4 = none) := by
  unfold Reaches; exact ⟨by decide +kernel, by decide +kernel, by decide +kernel, by decide +kernel, by decide +kernel, rfl⟩

/-- C97 is false after a failed write: the sizes of its records were subtracted, but they stay to be
flushed; the next flush subtracts them again and the process stops itself. -/
theorem C97_failed_write_stops_violated : ∃ s : St Nat,
    (St.init 202 false).run (app 1 1 ++ flBad 2 ++ [.call 3 .flush 0 0, .lock 3, .bound 3, .prep 3, .pay 3]) = some s ∧
    s.dead = true :=
  Reaches.out (by decide +kernel)

/-- With a fault containment service it does not stop, but the flushes write nothing: an append and a
`write_and_flush`, after two flushes since the one that failed, have returned and are not found. -/
theorem C97_failed_write_stays_violated : ∃ s : St Nat,
    (St.init 202 true).run (app 1 1 ++ flBad 2 ++ [.call 3 .flush 0 0, .lock 3, .bound 3, .prep 3, .pay 3] ++ app 4 1 ++
      [.call 5 .flush 0 0, .lock 5, .bound 5, .prep 5, .pay 5] ++
      [.call 6 .writeFlush 1 0, .reserve 6, .count 6, .file 6, .lock 6, .bound 6, .prep 6, .pay 6]) = some s ∧
    s.dead = false ∧ Returned s 5 ∧ Returned s 6 ∧ ¬ Durable s 1 ∧ ¬ Durable s 4 ∧ ¬ Durable s 6 :=
  Reaches.out (by decide +kernel)

end HS.Pipe
