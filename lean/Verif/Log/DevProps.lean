import Verif.Log.DevSteps

/-!
# Log stores: theorems

`exec` runs a history of operations on the modelled device, `SDev.exec` on the specification of `DevSpec`; both give the
list of what the operations return (numbers of appends, data of reads, results, replayed records).  The histories are
those of `Allowed`: see `Legal` and `Safe` for what they leave out and `…_violated` for why.
-/

namespace HS.Log

variable {D : Type}

/-! ## Checking that a history is allowed -/

def legalB (s : SDev D) : Op D → Bool
  | .append id _ => (s.stores id).isSome
  | .read id _ => (s.stores id).isSome
  | .truncate id upto inMem =>
    match s.stores id with
    | none => false
    | some t => !inMem || decide (upto ≤ t.last)
  | .rollback id to =>
    match s.stores id with
    | none => false
    | some t => !decide (id ∈ s.pend) || decide (to < t.lastFlushed)
  | .remove id => !decide (id ∈ s.pend)
  | .restart opened _ _ => opened.all (fun id => (s.stores id).isSome)
  | _ => true

def noClashB (c : Dev D) : Bool :=
  decide (c.safeKey.idx ≤ 0) || decide (c.safeKey.idx ≤ c.lastTrunc) ||
  c.rolls.all (fun r => !decide (r.hi = c.safeKey.idx)) && c.garbage.all (fun g => !decide (g.1 = c.safeKey.idx))

def safeB (c : Dev D) : Op D → Bool
  | .create id => (c.first id).isNone
  | .truncateDev => noClashB c
  | .truncate id upto false =>
    match c.truncate id upto true with
    | .ok (c', true) => noClashB c'
    | _ => true
  | .restart _ unopened _ => decide unopened.Nodup
  | _ => true

def allowedB (c : Dev D) (s : SDev D) : List (Op D) → Bool
  | [] => true
  | o :: os => legalB s o && safeB c o &&
    match c.step o with
    | .ok (c', _) => allowedB c' (s.step o).1 os
    | .error _ => true

theorem legalB_ok {s : SDev D} {o : Op D} (h : legalB s o = true) : Legal s o := by
  cases o <;> simp only [legalB] at h <;> simp only [Legal] <;> try trivial
  case truncate id upto inMem =>
    cases ht : s.stores id with
    | none => simp [ht] at h
    | some t =>
      refine ⟨t, rfl, fun hi => ?_⟩
      subst hi
      simpa [ht] using h
  case rollback id to =>
    cases ht : s.stores id with
    | none => simp [ht] at h
    | some t =>
      refine ⟨t, rfl, fun hi => ?_⟩
      simpa [ht, hi] using h
  case remove id => simpa using h
  case restart opened _ _ => simpa using h

theorem noClashB_ok {c : Dev D} (h : noClashB c = true) : c.NoClash := by
  simp only [noClashB, Bool.or_eq_true, Bool.and_eq_true, List.all_eq_true, Bool.not_eq_true', decide_eq_false_iff_not,
    decide_eq_true_eq] at h
  intro h1 h2
  rcases h with (h | h) | h
  · omega
  · omega
  · exact ⟨fun r hr => h.1 r hr, fun g hg => h.2 g hg⟩

theorem safeB_ok {c : Dev D} {o : Op D} (h : safeB c o = true) : Safe c o := by
  cases o <;> simp only [Safe] <;> try trivial
  case create id => simpa [safeB] using h
  case truncateDev => exact noClashB_ok h
  case truncate id upto inMem =>
    cases inMem with
    | true => trivial
    | false =>
      intro c' hc
      simp only [safeB, hc] at h
      exact noClashB_ok h
  case restart _ unopened _ => simpa [safeB] using h

theorem allowedB_ok {c : Dev D} {s : SDev D} {os : List (Op D)} (h : allowedB c s os = true) : Allowed c s os := by
  induction os generalizing c s with
  | nil => trivial
  | cons o os ih =>
    simp only [allowedB, Bool.and_eq_true] at h
    refine ⟨legalB_ok h.1.1, safeB_ok h.1.2, fun c' r hc => ?_⟩
    have h2 := h.2
    rw [hc] at h2
    exact ih h2

/-! ## Histories -/

theorem SDev.exec_append (s : SDev D) (os ps : List (Op D)) :
    s.exec (os ++ ps) = (((s.exec os).1.exec ps).1, (s.exec os).2 ++ ((s.exec os).1.exec ps).2) := by
  induction os generalizing s with
  | nil => rfl
  | cons o os ih => simp [SDev.exec, ih]

/-- **C34.** Every allowed history of creating stores, appends, flushes, reads, truncations, rollbacks, removals,
crashes and restarts, over any number of stores that share the device, returns exactly what the specification returns:
appends get the next number of their store, a read of a record that was appended and is neither truncated nor rolled
back returns its bytes, every other number is out of range, and a restart gives every opened store its flushed records
in order.  Nothing throws, aborts or hangs. -/
theorem C34_histories_partial (os : List (Op D)) (ha : Allowed Dev.format SDev.format os) :
    ∃ c', (Dev.format : Dev D).exec os = .ok (c', (SDev.format.exec os).2) := by
  obtain ⟨c', h, _⟩ := exec_ok rel_format os ha
  exact ⟨c', h⟩

/-- The stores of an allowed history. -/
theorem store_bounds {os : List (Op D)} (ha : Allowed Dev.format SDev.format os) {id : Nat} {t : SStore D}
    (ht : (SDev.format.exec os).1.stores id = some t) :
    t.base ≤ t.start ∧ t.start ≤ t.base + t.flushed ∧ t.flushed ≤ t.log.length := by
  obtain ⟨c', _, hr⟩ := exec_ok rel_format os ha
  obtain ⟨st, _, hok⟩ := hr.get ht
  exact ⟨hok.base_le, hok.start_le, hok.flushed_le⟩

theorem Allowed.left {c : Dev D} {s : SDev D} {os ps : List (Op D)} (h : Allowed c s (os ++ ps)) : Allowed c s os := by
  induction os generalizing c s with
  | nil => trivial
  | cons o os ih => exact ⟨h.1, h.2.1, fun c' r hc => ih (h.2.2 c' r hc)⟩

/-- What an allowed history that goes on after `os` returns. -/
theorem exec_tail {os ps : List (Op D)} (ha : Allowed Dev.format SDev.format (os ++ ps)) :
    ∃ c' outs, (Dev.format : Dev D).exec (os ++ ps) = .ok (c', outs ++ ((SDev.format.exec os).1.exec ps).2) ∧
      outs.length = os.length := by
  obtain ⟨c', h⟩ := C34_histories_partial _ ha
  rw [SDev.exec_append] at h
  refine ⟨c', _, h, ?_⟩
  generalize (SDev.format : SDev D) = s
  clear h ha c'
  induction os generalizing s with
  | nil => rfl
  | cons o os ih => simp [SDev.exec, ih]

/-- **C34.** After any allowed history, two appends to a store get the next two numbers, and reading these two numbers
returns the two records. -/
theorem C34_append_read_back_partial {os : List (Op D)} {id : Nat} {t : SStore D} {d e : D}
    (ht : (SDev.format.exec os).1.stores id = some t)
    (ha : Allowed Dev.format SDev.format
      (os ++ [.append id d, .append id e, .read id (t.last + 1), .read id (t.last + 2)])) :
    ∃ c' outs, (Dev.format : Dev D).exec
        (os ++ [.append id d, .append id e, .read id (t.last + 1), .read id (t.last + 2)]) =
      .ok (c', outs ++ [.lsn (t.last + 1), .lsn (t.last + 2), .data d, .data e]) ∧ outs.length = os.length := by
  obtain ⟨c', outs, h1, h2⟩ := exec_tail ha
  refine ⟨c', outs, ?_, h2⟩
  rw [h1]
  congr 3
  obtain ⟨hb1, hb2, hb3⟩ := store_bounds ha.left ht
  generalize (SDev.format.exec os).1 = s at *
  have hlast : t.last = t.base + t.log.length - 1 := rfl
  have hn : (t.last + 1 - t.base).toNat = t.log.length := by omega
  have hn2 : (t.last + 2 - t.base).toNat = t.log.length + 1 := by omega
  have g1 : SStore.get { base := t.base, start := t.start, log := t.log ++ [d] ++ [e], flushed := t.flushed }
      (t.last + 1) = some d := by
    unfold SStore.get
    rw [if_pos (by show t.start ≤ _; omega)]
    show (t.log ++ [d] ++ [e])[(t.last + 1 - t.base).toNat]? = _
    rw [hn]; simp
  have g2 : ∀ n : Nat, SStore.get { base := t.base, start := t.start, log := t.log ++ [d] ++ [e], flushed := n }
      (t.last + 2) = some e := by
    intro n
    unfold SStore.get
    rw [if_pos (by show t.start ≤ _; omega)]
    show (t.log ++ [d] ++ [e])[(t.last + 2 - t.base).toNat]? = _
    rw [hn2]; simp
  have hl1 : ({ base := t.base, start := t.start, log := t.log ++ [d], flushed := t.flushed } : SStore D).last + 1 =
      t.last + 2 := by
    simp [SStore.last]; omega
  have hnf : ∀ l : List D, ¬ t.last + 1 ≤ (SStore.mk t.base t.start l t.flushed).lastFlushed := by
    intro l
    show ¬ t.last + 1 ≤ t.base + (t.flushed : Int) - 1
    omega
  simp only [SDev.exec, SDev.step, ht, SDev.set, if_true, hl1, g1]
  rw [if_neg (hnf _)]
  simp only [SDev.flush, SDev.flushK, if_true, Option.map_some, g2]

/-- What a restart gives a store. -/
def SDev.replayOf (s : SDev D) (id : Nat) : List (Int × D) :=
  match s.stores id with
  | none => []
  | some t => entries t.base (t.log.take t.flushed)

theorem SDev.step_restart (s : SDev D) (opened unopened : List Nat) (k : Nat) :
    s.step (.restart opened unopened k) =
      ({ stores := fun id => if id ∈ opened then ((s.flushK k).stores id).map SStore.crash else none, pend := [] },
        .replay (opened.map (s.flushK k).replayOf)) := rfl

/-- **C36.** After any allowed history: a device truncation, and a restart after it, keep every flushed record that can
be read; it is replayed with its number and bytes. -/
theorem C36_truncation_keeps_partial {os : List (Op D)} {opened unopened : List Nat} {k id : Nat} {t : SStore D}
    {lsn : Int} {d : D} (ht : (SDev.format.exec os).1.stores id = some t) (hd : t.get lsn = some d)
    (hf : lsn ≤ t.lastFlushed) (hid : id ∈ opened)
    (ha : Allowed Dev.format SDev.format (os ++ [.truncateDev, .restart opened unopened k, .read id lsn])) :
    ∃ c' outs rep, (Dev.format : Dev D).exec (os ++ [.truncateDev, .restart opened unopened k, .read id lsn]) =
        .ok (c', outs ++ [.unit, .replay (opened.map rep), .data d]) ∧ outs.length = os.length ∧ (lsn, d) ∈ rep id := by
  obtain ⟨c', outs, h1, h2⟩ := exec_tail ha
  obtain ⟨hb1, hb2, hb3⟩ := store_bounds ha.left ht
  generalize (SDev.format.exec os).1 = s at *
  refine ⟨c', outs, (s.truncateDev.flushK k).replayOf, ?_, h2, ?_⟩
  all_goals
    generalize hn : (s.truncateDev.pend.take k).count id = n
    have hs' : (s.truncateDev.flushK k).stores id = some { t.trim with flushed := t.trim.flushed + n } := by
      simp only [SDev.flushK, hn]
      simp only [SDev.truncateDev, ht, Option.map_some]
      rfl
    have hgetd := hd
    unfold SStore.get at hgetd
    have hst : t.start ≤ lsn := by
      by_cases hst : t.start ≤ lsn
      · exact hst
      · rw [if_neg hst] at hgetd; cases hgetd
    rw [if_pos hst] at hgetd
    have hlf : lsn ≤ t.base + t.flushed - 1 := hf
    have hget : ((t.log.drop (t.start - t.base).toNat).take (t.flushed - (t.start - t.base).toNat + n))[(lsn - t.start).toNat]?
          = some d := by
      rw [List.getElem?_take_of_lt (by omega), List.getElem?_drop, ← hgetd]
      congr 1
      omega
  · rw [h1]
    congr 3
    have hg : SStore.get (SStore.crash { t.trim with flushed := t.trim.flushed + n }) lsn = some d := by
      unfold SStore.get
      show (if t.start ≤ lsn then _ else none) = _
      rw [if_pos hst]
      exact hget
    have hs1 : s.step .truncateDev = (s.truncateDev, .unit) := rfl
    simp only [SDev.exec, SDev.step_restart, hs1]
    simp only [SDev.step, if_pos hid, hs', Option.map_some, hg]
  · unfold SDev.replayOf
    rw [hs']
    refine mem_entries.2 ?_
    refine ⟨(lsn - t.start).toNat, ?_⟩
    have e1 : lsn = t.start + ((lsn - t.start).toNat : Int) := by omega
    first
      | exact ⟨hget, e1⟩
      | exact ⟨e1, hget⟩

/-- **C37.** After any allowed history: once a rollback to `to` (within the store) was done, a restart replays no record
of the store above `to`, a read above `to` is out of range, and the next append gets `to + 1`. -/
theorem C37_rollback_is_final_partial {os : List (Op D)} {opened unopened : List Nat} {k id : Nat} {t : SStore D}
    {to lsn : Int} {d : D} (ht : (SDev.format.exec os).1.stores id = some t) (h1 : t.start - 1 ≤ to)
    (h2 : to ≤ t.lastFlushed) (hl : to < lsn) (hid : id ∈ opened)
    (ha : Allowed Dev.format SDev.format
      (os ++ [.rollback id to, .read id lsn, .restart opened unopened k, .read id lsn, .append id d])) :
    ∃ c' outs rep, (Dev.format : Dev D).exec
        (os ++ [.rollback id to, .read id lsn, .restart opened unopened k, .read id lsn, .append id d]) =
        .ok (c', outs ++ [.bool true, .outOfRange, .replay (opened.map rep), .outOfRange, .lsn (to + 1)]) ∧
      outs.length = os.length ∧ ∀ p ∈ rep id, p.1 ≤ to := by
  obtain ⟨c', outs, e1, e2⟩ := exec_tail ha
  obtain ⟨hb1, hb2, hb3⟩ := store_bounds ha.left ht
  obtain ⟨c0, _, hrel⟩ := exec_ok rel_format os ha.left
  have hlegal : Legal (SDev.format.exec os).1 (.rollback id to : Op D) := by
    have : ∀ (c : Dev D) (s : SDev D) (os ps : List (Op D)) (o : Op D), Rel c s → Allowed c s (os ++ o :: ps) →
        Legal (s.exec os).1 o := by
      intro c s os
      induction os generalizing c s with
      | nil => intro ps o _ h; exact h.1
      | cons a os ih =>
        intro ps o hr h
        obtain ⟨c1, hc1, hr1⟩ := step_ok hr a h.1 h.2.1
        exact ih c1 (s.step a).1 ps o hr1 (h.2.2 c1 _ hc1)
    exact this _ _ os _ _ rel_format ha
  generalize (SDev.format.exec os).1 = s at *
  have hlf : t.lastFlushed = t.base + t.flushed - 1 := rfl
  -- the store after the rollback
  generalize hm : (to + 1 - t.base).toNat = m at *
  have hmf : m ≤ t.flushed := by omega
  have hstep : ∃ s', s.step (.rollback id to) = (s', .bool true) ∧
      s'.stores id = some { t with log := t.log.take m, flushed := m } ∧ id ∉ s'.pend := by
    by_cases h0 : to = t.lastFlushed
    · have hnp : id ∉ s.pend := by
        obtain ⟨t', ht', hle⟩ := hlegal
        rw [ht] at ht'; cases ht'
        intro hp
        have := hle hp
        omega
      have hfull := (not_pend hrel ht).1 hnp
      refine ⟨s, by simp only [SDev.step, ht, if_pos h0], ?_, hnp⟩
      rw [ht]
      have e : m = t.log.length := by omega
      rw [e, List.take_length, ← hfull]
    · have hnlt : ¬ (t.lastFlushed < to ∨ to < t.start - 1) := by omega
      refine ⟨(if t.flushed < t.log.length then s.flush else s).set id (t.keep to),
        by simp only [SDev.step, ht, if_neg h0, if_neg hnlt], ?_, ?_⟩
      · simp only [SDev.set, if_true, SStore.keep, hm]
      · by_cases hp : t.flushed < t.log.length
        · simp [if_pos hp, SDev.set, SDev.flush, SDev.flushK]
        · rw [if_neg hp]
          exact (not_pend hrel ht).2 (by omega)
  obtain ⟨s', hs1, hs2, hs3⟩ := hstep
  have hmlen : (t.log.take m).length = m := by rw [List.length_take]; omega
  have hget : ∀ st : Int, SStore.get { base := t.base, start := st, log := t.log.take m, flushed := m } lsn = none := by
    intro st
    unfold SStore.get
    have : (t.log.take m)[(lsn - t.base).toNat]? = none := List.getElem?_eq_none (by omega)
    simp only [this]
    split <;> rfl
  have hcount : (s'.pend.take k).count id = 0 := by
    rw [List.count_eq_zero]
    intro hmem
    exact hs3 (List.mem_of_mem_take hmem)
  have hfk : (s'.flushK k).stores id = some { t with log := t.log.take m, flushed := m } := by
    simp only [SDev.flushK, hs2, Option.map_some, hcount, Nat.add_zero]
  have hcrash : SStore.crash { base := t.base, start := t.start, log := t.log.take m, flushed := m } =
      { base := t.base, start := t.base, log := t.log.take m, flushed := m } := by
    simp [SStore.crash, List.take_take]
  have hlast : ({ base := t.base, start := t.base, log := t.log.take m, flushed := m } : SStore D).last + 1 = to + 1 := by
    show t.base + ((t.log.take m).length : Int) - 1 + 1 = to + 1
    rw [hmlen]; omega
  refine ⟨c', outs, (s'.flushK k).replayOf, ?_, e2, ?_⟩
  · rw [e1]
    congr 3
    have hr : s'.step (.read id lsn) = (s', .outOfRange) := by simp only [SDev.step, hs2, hget]
    simp only [SDev.exec, hs1, hr, SDev.step_restart]
    simp only [SDev.step, if_pos hid, hfk, Option.map_some, hcrash, hget, hlast]
  · intro p hp
    simp only [SDev.replayOf, hfk] at hp
    have := mem_entries_range hp
    rw [List.take_take, Nat.min_self, hmlen] at this
    omega

/-! ## A history that is allowed -/

/-- Two stores share the device; groups of both; truncations in memory and on the device, a rollback, a removal, a
resync beyond the end, crashes with a group in flight. -/
def sampleHistory : List (Op Nat) :=
  [.create 0, .create 1, .append 0 10, .append 1 20, .append 0 11, .flushK 2, .append 1 21, .read 0 0, .read 1 1,
   .flush, .append 0 12, .append 1 22, .append 1 23, .truncate 0 0 true, .read 0 0, .rollback 1 1, .append 1 24, .flush,
   .read 1 2, .append 0 13, .append 1 25, .restart [0, 1] [] 1, .read 0 0, .read 0 3, .append 0 14, .append 1 26, .flush,
   .truncate 0 2 false, .truncate 1 2 false, .restart [0, 1] [] 0, .read 0 3, .read 1 3, .create 2, .append 2 30,
   .flush, .truncate 2 9 false, .append 2 31, .restart [0, 1, 2] [] 1, .remove 1, .append 0 15, .flush,
   .truncate 0 5 false, .restart [0, 2] [] 0, .append 2 32]

theorem sampleHistory_allowed : Allowed Dev.format SDev.format sampleHistory :=
  allowedB_ok (by decide +kernel)

example : (SDev.format.exec sampleHistory).2 =
    [.unit, .unit, .lsn 0, .lsn 0, .lsn 1, .unit, .lsn 1, .data 10, .data 21, .unit, .lsn 2, .lsn 2, .lsn 3, .bool true,
     .outOfRange, .bool true, .lsn 2, .unit, .data 24, .lsn 3, .lsn 3,
     .replay [[(0, 10), (1, 11), (2, 12), (3, 13)], [(0, 20), (1, 21), (2, 24)]], .data 10, .data 13, .lsn 4, .lsn 3,
     .unit, .bool true, .bool true, .replay [[(3, 13), (4, 14)], [(3, 26)]], .data 13, .data 26, .unit, .lsn 0, .unit,
     .bool true, .lsn 10, .replay [[(3, 13), (4, 14)], [(3, 26)], [(10, 31)]], .bool true, .lsn 5, .unit, .bool true,
     .replay [[], [(10, 31)]], .lsn 11] := by decide +kernel

/-- The hypotheses of `C34_append_read_back_partial`. -/
example : ∃ t, (SDev.format.exec (sampleHistory.take 24)).1.stores 0 = some t ∧
    Allowed Dev.format SDev.format
      (sampleHistory.take 24 ++ [.append 0 7, .append 0 8, .read 0 (t.last + 1), .read 0 (t.last + 2)]) :=
  ⟨⟨0, 0, [10, 11, 12, 13], 4⟩, by decide +kernel, allowedB_ok (by decide +kernel)⟩

/-- The hypotheses of `C36_truncation_keeps_partial`: a device truncation that moves the start of the device. -/
example : ∃ t, (SDev.format.exec (sampleHistory.take 33 ++ [.truncate 0 3 true, .truncate 1 3 true])).1.stores 0 = some t ∧
    t.get 4 = some 14 ∧ 4 ≤ t.lastFlushed ∧
    Allowed Dev.format SDev.format (sampleHistory.take 33 ++ [.truncate 0 3 true, .truncate 1 3 true] ++
      [.truncateDev, .restart [0, 1] [2] 0, .read 0 4]) :=
  ⟨⟨3, 4, [13, 14], 2⟩, by decide +kernel, by decide +kernel, by decide +kernel, allowedB_ok (by decide +kernel)⟩

/-- The hypotheses of `C37_rollback_is_final_partial`: an append of the store is pending. -/
example : ∃ t, (SDev.format.exec (sampleHistory.take 26)).1.stores 0 = some t ∧ t.start - 1 ≤ 1 ∧ 1 ≤ t.lastFlushed ∧
    Allowed Dev.format SDev.format (sampleHistory.take 26 ++
      [.rollback 0 1, .read 0 2, .restart [0, 1] [] 0, .read 0 2, .append 0 9]) :=
  ⟨⟨0, 0, [10, 11, 12, 13, 14], 4⟩, by decide +kernel, by decide +kernel, by decide +kernel,
    allowedB_ok (by decide +kernel)⟩

/-! ## What the code does outside the allowed histories -/

/-- The results of a history. -/
def results (os : List (Op Nat)) : Option (List (Out Nat)) := ((Dev.format : Dev Nat).exec os).toOption.map Prod.snd

/-- **C37 fails.** A rollback is forgotten: `remove_rollback_record_upto` (`log_dev.cpp` 1049) drops the rollback records
that end at the index up to which the device is truncated, but the record with that index stays on the device.  Store 1
rolls back its record 0; store 0 is then truncated; after a restart the rolled back record is replayed. -/
theorem C37_rollback_undone_violated :
    results [.create 0, .create 1, .append 0 10, .flush, .append 1 20, .append 0 11, .flush, .rollback 1 (-1),
      .read 1 0, .truncate 0 1 false, .restart [0, 1] [] 0] =
    some [.unit, .unit, .lsn 0, .unit, .lsn 0, .lsn 1, .unit, .bool true, .outOfRange, .bool true,
      .replay [[], [(0, 20)]]] := by decide +kernel

/-- **C37 fails.** A rollback to the last flushed record reports success and does nothing although there are appends
behind it that are not flushed yet (`log_store.cpp` 362-366): the append stays and the next number is not `to + 1`. -/
theorem C37_pending_append_survives_violated :
    results [.create 0, .append 0 10, .flush, .append 0 11, .rollback 0 0, .read 0 1, .append 0 12, .flush,
      .restart [0] [] 0] =
    some [.unit, .lsn 0, .unit, .lsn 1, .bool true, .data 11, .lsn 2, .unit, .replay [[(0, 10), (1, 11), (2, 12)]]] := by
  decide +kernel

/-- Two appends whose threads got their places in the log in the other order than their numbers: `append_async` takes
the number (`log_store.cpp` 89) and the place (`log_dev.cpp` 294) in two steps. -/
def appendSwapped (c : Dev D) (id : Nat) (d e : D) : Except LFault (Dev D) := do
  let (c, n) ← c.reserve id
  let (c, m) ← c.reserve id
  let c ← c.write id m e
  c.write id n d

/-- **C37 fails** with two appends racing: the range of indices that is rolled back goes from that of the first to that
of the last number (`log_store.cpp` 392-394), which is empty here.  Both rolled back records are replayed. -/
theorem C37_racing_appends_violated :
    (do let c ← (Dev.format : Dev Nat).create 0
        let (c, _) ← c.append 0 10
        let c ← appendSwapped c 0 11 12
        let c ← c.flush
        let (c, b) ← c.rollback 0 0
        let (_, out) ← c.restart [0] [] 0
        pure (b, out 0) : Except LFault (Bool × List (Int × Nat))).toOption =
    some (true, [(0, 10), (2, 12), (1, 11)]) := by decide +kernel

/-- **C36 fails** with appends racing.  The append with number 0 reaches the log last, after two groups with the numbers
1 and 2 were flushed.  Its truncation key is that of the last number (`log_store.cpp` 176), the group with number 2, so
that truncating number 0 removes the group with number 1: it is not replayed, and reading it fails. -/
theorem C36_racing_appends_violated :
    (do let c ← (Dev.format : Dev Nat).create 0
        let (c, n0) ← c.reserve 0
        let (c, n1) ← c.reserve 0
        let c ← c.write 0 n1 11
        let c ← c.flush
        let (c, _) ← c.append 0 12
        let c ← c.flush
        let c ← c.write 0 n0 10
        let c ← c.flush
        let (_, d) ← c.read 0 1
        let (c, b) ← c.truncate 0 0 false
        let (_, out) ← c.restart [0] [] 0
        pure (d, b, (match c.read 0 1 with | .ok _ => false | .error _ => true), out 0) :
          Except LFault (Option Nat × Bool × Bool × List (Int × Nat))).toOption =
    some (some 11, true, true, [(2, 12)]) := by decide +kernel

/-- **C36 fails** for a store written out of order by one thread, which the comment at `log_store.cpp` 149-175 says is
supported: numbers 1, 2, 3, 5 are flushed, then 7, then 4.  Truncating up to 4 removes the group with number 5. -/
theorem C36_out_of_order_violated :
    (do let c ← (Dev.format : Dev Nat).create 0
        let c ← c.write 0 1 1
        let c ← c.write 0 2 2
        let c ← c.write 0 3 3
        let c ← c.write 0 5 5
        let c ← c.flush
        let c ← c.write 0 7 7
        let c ← c.flush
        let c ← c.write 0 4 4
        let c ← c.flush
        let (_, d) ← c.read 0 5
        let (c, b) ← c.truncate 0 4 false
        let (_, out) ← c.restart [0] [] 0
        pure (d, b, out 0) : Except LFault (Option Nat × Bool × List (Int × Nat))).toOption =
    some (some 5, true, [(7, 7)]) := by decide +kernel

/-- **C54.** After any allowed history, a store created now replays after a restart exactly what it appended and
flushed itself, whatever store had its id before. -/
theorem C54_new_store_is_its_own_partial {os : List (Op D)} {opened unopened : List Nat} {id : Nat} {d : D}
    (ha : Allowed Dev.format SDev.format (os ++ [.create id, .append id d, .flush, .restart opened unopened 0])) :
    ∃ c' outs rep, (Dev.format : Dev D).exec (os ++ [.create id, .append id d, .flush, .restart opened unopened 0]) =
        .ok (c', outs ++ [.unit, .lsn 0, .unit, .replay (opened.map rep)]) ∧ outs.length = os.length ∧
      rep id = [(0, d)] := by
  obtain ⟨c', outs, e1, e2⟩ := exec_tail ha
  obtain ⟨c1, _, hrel⟩ := exec_ok rel_format (os ++ [.create id, .append id d]) (by
    have : os ++ [.create id, .append id d, .flush, .restart opened unopened 0] =
      (os ++ [.create id, .append id d]) ++ [.flush, .restart opened unopened 0] := by simp
    rw [this] at ha
    exact ha.left)
  rw [SDev.exec_append] at hrel
  generalize (SDev.format.exec os).1 = s at *
  simp only [SDev.exec] at hrel e1
  generalize hs2 : (s.step (.create id)).1.step (.append id d) = p at *
  have hp : p.1.stores id = some { base := 0, start := 0, log := [d], flushed := 0 } ∧ p.2 = .lsn 0 := by
    rw [← hs2]
    simp only [SDev.step, SDev.set, if_true]
    exact ⟨rfl, rfl⟩
  have hfl := flush_get hrel hp.1
  refine ⟨c', outs, (p.1.flush.flushK 0).replayOf, ?_, e2, ?_⟩
  · rw [e1]
    congr 3
    have h1 : (s.step (.create id)).2 = .unit := rfl
    have h2 : p.1.step .flush = (p.1.flush, .unit) := rfl
    rw [hp.2, h1, h2, SDev.step_restart]
  · have : ((p.1.flush).flushK 0).stores id = some { base := 0, start := 0, log := [d], flushed := 1 } := by
      simp only [SDev.flushK, List.take_zero, List.count_nil, Nat.add_zero, hfl]
      rfl
    simp only [SDev.replayOf, this]
    rfl

/-- The hypotheses of `C54_new_store_is_its_own_partial`: store 1 is removed and, after a device truncation, its id is
given out again. -/
example : Allowed Dev.format SDev.format
    ([.create 0, .create 1, .append 0 10, .append 1 20, .flush, .remove 1, .append 0 11, .flush, .append 0 12, .flush,
      .truncate 0 1 false] ++ [.create 1, .append 1 30, .flush, .restart [0, 1] [] 0]) :=
  allowedB_ok (by decide +kernel)

/-- **C54 fails.** A removed store's id is reclaimed when the device is truncated up to the index that was the last one
at its removal (`log_dev.cpp` 675 compares with `>`), but the record with that index stays.  A new store with the same
id is given the record of the removed store after a restart. -/
theorem C54_removed_store_comes_back_violated :
    results [.create 0, .create 1, .append 1 20, .flush, .append 0 10, .flush, .remove 0, .truncate 1 0 false,
      .create 0, .restart [0, 1] [] 0] =
    some [.unit, .unit, .lsn 0, .unit, .lsn 0, .unit, .bool true, .bool true, .unit, .replay [[(0, 10)], []]] := by
  decide +kernel

end HS.Log
