import Verif.Stop.Runs
/-
  C98 and C99: the theorems about shutdown.
-/
namespace HS.Stop
open Prog Obj

/-! ## C98: what a stop has taken down is not touched -/

/-- C98, for the calls that are counted while they touch an object, in histories in which no stop begins
while a call is between looking at the flag and counting itself: no thread, and nothing a thread has
started, touches an object whose stop has gone on.  There may be any number of threads, calls and stops,
of any objects, in any order.  Missing: the window between look and count, and the calls that are not
counted, see below. -/
theorem C98_not_touched_after_stop_partial (es : List Ev) (t : St) (hc : Calls Counted es)
    (hcalm : Calm nobody St.init es) (h : St.init.runs es = some t) : t.bad = false :=
  safe_runs es St.init t hc hcalm h (low_init _) (by simp [St.init]) safe_init rfl

/-- An append is in progress when its device is stopped: the stop waits, the append goes on. -/
def appendThenStop : List Ev :=
  [.call (storeAppend 0 0 done done), .run 0 false, .run 0 false, .run 0 false,  -- append_async
   .run 0 false, .run 0 false, .run 0 false,                                     -- write_async
   .run 0 false, .run 0 false, .run 0 false,                                     -- write_async(req)
   .run 0 false, .run 0 false,                                                   -- LogDev::append_async
   .call (logsStop [(0, [0])] done), .run 1 false, .run 1 false, .run 1 false,   -- stopping
   .run 0 false, .run 0 false, .run 0 false, .run 0 false, .run 0 false, .run 0 false,
   .run 1 false, .run 1 false, .run 1 false, .run 1 false, .run 1 false]

example : Calls Counted appendThenStop ∧ Calm nobody St.init appendThenStop ∧
    ∃ t, St.init.runs appendThenStop = some t ∧ t.Over ∧ t.bad = false ∧
      t.down logs = true ∧ t.down (ldev 0) = true ∧ t.down (store 0 0) = true := by
  refine ⟨?_, calmB_ok _ _ (by decide +kernel), ?_⟩
  · intro p hp
    simp only [appendThenStop, List.mem_cons, Ev.call.injEq, reduceCtorEq, List.not_mem_nil, or_false,
      false_or] at hp
    rcases hp with rfl | rfl
    · exact .storeAppend 0 0
    · exact .logsStop _
  · refine ⟨_, rfl, ?_, rfl, rfl, rfl, rfl⟩
    intro p hp
    revert p
    show ∀ p ∈ [done, done], p = done
    simp

/-- While the append is in progress the stop of the device cannot get past its wait. -/
example : ∃ t, St.init.runs (appendThenStop.take 16) = some t ∧ t.step (.run 1 false) = none ∧
    t.flag (ldev 0) = true ∧ t.down (ldev 0) = false :=
  ⟨_, rfl, rfl, rfl, rfl⟩

/-- The group reaper and the stops of the replication service. -/
def Reaper (p : Prog) : Prop := p = raftGc done ∨ ∃ gs ds, p = replStop gs ds done

/-- A thread that touches nothing. -/
def Idle : Prog → Prop
  | done => True
  | test _ a b => Idle a ∧ Idle b
  | inc _ k => Idle k
  | dec _ k => Idle k
  | use _ _ => False
  | alt a b => Idle a ∧ Idle b
  | fork a b => Idle a ∧ Idle b
  | stop _ k => Idle k
  | await _ k => Idle k

theorem idle_refuses (o : Obj) (p : Prog) (h : Idle p) : Refuses nobody o p := by
  induction p <;> simp only [Idle, Refuses, nobody] at h ⊢ <;> simp_all

theorem idle_each {α : Type} {f : α → Prog → Prog} (hf : ∀ a k, Idle k → Idle (f a k)) (l : List α)
    {k : Prog} (hk : Idle k) : Idle (each l f k) := by
  induction l with
  | nil => exact hk
  | cons a l ih => exact hf a _ ih

theorem idle_devStop (d : Nat) (ns : List Nat) {k : Prog} (hk : Idle k) : Idle (devStop d ns k) :=
  idle_each (f := storeStop d) (fun _ _ h => h) ns hk

theorem idle_replStop (gs : List Nat) (ds : List (Nat × List Nat)) : Idle (replStop gs ds done) := by
  refine idle_each (f := rdevStop) (fun _ _ h => h) gs ?_
  show Idle (each ds (fun (x : Nat × List Nat) => devStop x.1 x.2) (dataStop done))
  exact idle_each (fun x _ h => idle_devStop x.1 x.2 h) ds (k := dataStop done) trivial

/-- What a thread of the reaper, or of a stop, still has to do. -/
def Reaps (p : Prog) : Prop := Idle p ∨ p = raftGc done ∨
  p = test repl (dec repl done) (use repl (dec repl done)) ∨ p = use repl (dec repl done)

theorem reaps_settled (o : Obj) (p : Prog) (h : Reaps p) : Settled nobody o p := by
  rcases h with h | rfl | rfl | rfl
  · exact .inr (idle_refuses o p h)
  all_goals
    by_cases he : repl = o
    · subst he
      first
        | exact .inl (by decide)
        | exact .inr (by simp [raftGc, Refuses, nobody])
    · exact .inr (by simp [raftGc, Refuses, nobody, he])

theorem reaps_calm : ∀ (es : List Ev) (s : St), Calls Reaper es → (∀ p ∈ s.pool, Reaps p) →
    Calm nobody s es
  | [], _, _, _ => trivial
  | e :: es, s, hc, hs => by
    refine ⟨fun o _ _ p hp => reaps_settled o p (hs p hp), fun t ht => ?_⟩
    refine reaps_calm es t (fun p hp => hc p (by simp [hp])) ?_
    refine pool_step ht ?_ hs ?_
    · intro p hp
      rcases hc p (by simp [hp]) with rfl | ⟨gs, ds, rfl⟩
      · exact .inr (.inl rfl)
      · exact .inl (idle_replStop gs ds)
    · rintro p (hp | rfl | rfl | rfl)
      · cases p <;> simp only [Idle] at hp <;> simp only
        case test =>
          split
          · exact .inl hp.1
          · exact .inl hp.2
        all_goals first
          | exact .inl hp
          | exact ⟨.inl hp.1, .inl hp.2⟩
      · exact .inr (.inr (.inl rfl))
      · show if s.flag repl = true then Reaps _ else Reaps _
        split
        · exact .inl trivial
        · exact .inr (.inr (.inr rfl))
      · exact .inl trivial

/-- C98 for the reaper of destroyed groups, which counts itself before it looks: in every history of its
calls and of stops of the replication service, with no condition on when the stops begin. -/
theorem C98_reaper_counts_first (es : List Ev) (t : St) (hc : Calls Reaper es)
    (h : St.init.runs es = some t) : t.bad = false := by
  refine C98_not_touched_after_stop_partial es t ?_ (reaps_calm es _ hc (by simp [St.init])) h
  intro p hp
  rcases hc p hp with rfl | ⟨gs, ds, rfl⟩
  · exact .raftGc
  · exact .replStop gs ds

/-- The reaper has counted itself, the stop begins, the reaper looks and turns back; and the other way
round: the stop begins just after the look, and waits. -/
example : (∃ t, St.init.runs [.call (raftGc done), .run 0 false, .call (replStop [] [] done), .run 1 false,
      .run 0 false, .run 0 false, .run 1 false] = some t ∧ t.down repl = true ∧ t.bad = false) ∧
    (∃ t, St.init.runs [.call (raftGc done), .run 0 false, .run 0 false, .call (replStop [] [] done),
      .run 1 false] = some t ∧ t.step (.run 1 false) = none) :=
  ⟨⟨_, rfl, rfl, rfl⟩, _, rfl, rfl⟩

/-- C98 fails when a stop begins, and goes on, between a call's look at the flag and its count: here a put
on an index table. -/
theorem C98_not_touched_after_stop_violated :
    ∃ es t, Calls Counted es ∧ St.init.runs es = some t ∧ t.bad = true := by
  refine ⟨[.call (tableCall 0 done), .run 0 false, .call (tableStop 0 done), .run 1 false, .run 1 false,
    .run 0 false, .run 0 false], _, ?_, rfl, rfl⟩
  intro p hp
  simp only [List.mem_cons, Ev.call.injEq, reduceCtorEq, List.not_mem_nil, or_false, false_or] at hp
  rcases hp with rfl | rfl
  · exact .tableCall 0
  · exact .tableStop 0

/-- C98 fails for reads of the data service: the call has returned, the service is stopped and goes on, and
then the completion of the read touches it. -/
theorem C98_read_completion_violated :
    ∃ s t, St.init.runs [.call (dataRead done), .run 0 false, .run 0 false, .run 0 true, .run 0 false,
        .run 0 false, .run 0 false] = some s ∧ s.pool = [done, use data done] ∧ s.pend data = 0 ∧
      s.runs [.call (dataStop done), .run 2 false, .run 2 false, .run 1 false] = some t ∧ t.bad = true :=
  ⟨_, _, rfl, rfl, rfl, rfl, rfl⟩

/-- C98 fails for a write of one piece: the count is given back before the write is issued, and the stop
goes on in between. -/
theorem C98_write_issue_violated :
    ∃ t, St.init.runs [.call (dataWrite done), .run 0 false, .run 0 false, .run 0 true, .run 0 false,
        .call (dataStop done), .run 1 false, .run 1 false, .run 0 false] = some t ∧ t.bad = true :=
  ⟨_, rfl, rfl⟩

/-- C98 fails for a free that waits for reads: it is done after the stop. -/
theorem C98_free_violated :
    ∃ t, St.init.runs [.call (dataFree done), .run 0 false, .run 0 false, .run 0 false, .run 0 false,
        .run 0 false, .run 0 false, .run 0 false,
        .call (dataStop done), .run 2 false, .run 2 false, .run 1 false] = some t ∧
      t.pool = [done, done, done] ∧ t.bad = true :=
  ⟨_, rfl, rfl, rfl⟩

/-- C98 fails for queries of an index table, and for writes on a replication device: both are let in after
the stop has returned. -/
theorem C98_let_in_after_stop_violated :
    (∃ s t, St.init.runs [.call (tableStop 0 done), .run 0 false, .run 0 false] = some s ∧ s.Over ∧
      s.runs [.call (tableQuery 0 done), .run 1 false] = some t ∧ t.bad = true) ∧
    (∃ s t, St.init.runs [.call (rdevStop 0 done), .run 0 false, .run 0 false] = some s ∧ s.Over ∧
      s.runs [.call (soloAllocWrite 0 0 0 done), .run 1 false, .run 1 false] = some t ∧ t.bad = true) := by
  refine ⟨⟨_, _, rfl, ?_, rfl, rfl⟩, _, _, rfl, ?_, rfl, rfl⟩ <;>
  · intro p hp
    revert p
    show ∀ p ∈ [done], p = done
    simp

/-! ## C99: stops return -/

/-- C99, counts: whatever calls and stops are made, on all paths, no count goes below zero (it is unsigned in
the code, so that it would wrap). -/
theorem C99_counts_stay_right (es : List Ev) (t : St) (hc : Calls Api es)
    (h : St.init.runs es = some t) (o : Obj) : 0 ≤ t.pend o := by
  have h1 := (low_runs hc h).low o
  have h2 := total_nonneg (owed nobody o) (owed_nonneg nobody o) t.pool
  simp only [Int.zero_add] at h1; omega

/-- C99, for the calls that give back every count they take: from every state that a history of such calls
and stops can reach, the threads can only take so many steps without further calls; and when none can take
one any more, every call and every stop has returned, and every count is zero.  Missing: the paths that do
not give the count back, see below. -/
theorem C99_stops_return_partial (es : List Ev) (s : St) (hc : Calls Returning es)
    (h : St.init.runs es = some s) :
    (∃ n, ∀ fs t, Steps fs → s.runs fs = some t → fs.length ≤ n) ∧
    ∀ fs t, Steps fs → s.runs fs = some t → t.Stuck → t.Over ∧ ∀ o, t.pend o = 0 := by
  refine ⟨⟨s.left, fun fs t hs ht => by have := steps_left fs s t hs ht; omega⟩, ?_⟩
  intro fs t hs ht hst
  have hf := fine_runs (A := nobody) (F := Returning) (fun p hp => returning_counts hp nobody) es _ s hc h
    no_nobody (fine_init _)
  have hf' := fine_runs (A := nobody) (F := Returning) (fun p hp => returning_counts hp nobody) fs _ t
    (steps_calls hs _) ht no_nobody hf
  have hover := stuck_over hf'.low hf'.high hf'.ord hst
  refine ⟨hover, fun o => ?_⟩
  have h1 := hf'.low.low o
  have h2 := hf'.high.high o
  have h3 := total_nonneg (owed nobody o) (owed_nonneg nobody o) t.pool
  have h4 : ∀ l : List Prog, (∀ p ∈ l, p = done) → total (back nobody o) l = 0 := by
    intro l hl
    induction l with
    | nil => rfl
    | cons x l ih =>
      have := ih (fun p hp => hl p (by simp [hp]))
      have hx := hl x (by simp)
      subst hx
      simp only [total, List.map_cons, List.sum_cons, back] at *; omega
  rw [h4 t.pool hover] at h2
  simp only [Int.zero_add] at h1; omega

/-- Such a run: all kinds of calls, and a stop of all services in the middle of them. -/
def busy : List Ev :=
  [.call (soloWriteOk 0 2 done), .call (storeAppend 0 0 done done), .call (dataRead done),
   .call (logsDestroyDevOk 1 [0] done), .run 0 false, .run 0 false, .run 1 false, .run 1 false,
   .run 2 false, .run 2 false, .run 3 false, .run 3 false, .run 3 false, .run 3 false,
   .call (replStop [0] [(0, [0])] done), .run 4 false, .run 4 false, .run 4 false]

example : Calls Returning busy ∧ ∃ s, St.init.runs busy = some s ∧ s.flag (rdev 0) = true ∧
    s.pend (rdev 0) = 1 ∧ s.pend logs = 1 ∧ s.flag (ldev 1) = true ∧ s.step (.run 4 false) = none := by
  refine ⟨?_, _, rfl, rfl, rfl, rfl, rfl, rfl⟩
  intro p hp
  simp only [busy, List.mem_cons, Ev.call.injEq, reduceCtorEq, List.not_mem_nil, or_false,
    false_or] at hp
  rcases hp with rfl | rfl | rfl | rfl | rfl
  · exact .soloWrite 0 2
  · exact .storeAppend 0 0
  · exact .dataRead
  · exact .logsDestroyDev 1 [0]
  · exact .replStop _ _

/-- C99 for replication without peers, whose journal writes give the count back in the callback of the
append: as long as no log or data service below is stopping. -/
theorem C99_journal_partial (es : List Ev) (s : St) (hc : Calls (fun p => Returning p ∨ Journalling p) es)
    (h : St.init.runs es = some s) :
    (∃ n, ∀ fs t, Steps fs → s.runs fs = some t → fs.length ≤ n) ∧
    ∀ fs t, Steps fs → s.runs fs = some t → (∀ o, below o = true → t.flag o = false) → t.Stuck → t.Over := by
  refine ⟨⟨s.left, fun fs t hs ht => by have := steps_left fs s t hs ht; omega⟩, ?_⟩
  intro fs t hs ht hfl hst
  have hall := runs_append es fs _ s t h ht
  have hf := fine_runs (A := below) (F := fun p => Returning p ∨ Journalling p)
    (fun p hp => hp.elim (fun h => returning_counts h below) journalling_counts) (es ++ fs) _ t (by
      intro p hp
      rcases List.mem_append.1 hp with hp | hp
      · exact hc p hp
      · exact absurd hp (hs p)) hall hfl (fine_init _)
  exact stuck_over hf.low hf.high hf.ord hst

/-- A replication device is stopped while a journal write is on its way: the stop waits for the callback. -/
example : ∃ s t, St.init.runs [.call (soloWriteJournal 0 0 0 done), .run 0 false, .run 0 false,
      .call (rdevStop 0 done), .run 1 false] = some s ∧ s.step (.run 1 false) = none ∧
    s.runs ((List.replicate 19 (.run 0 false)) ++ List.replicate 7 (.run 2 false) ++ [.run 1 false]) =
      some t ∧ t.down (rdev 0) = true ∧ (∀ o, below o = true → t.flag o = false) ∧
    t.pool = [done, done, done] := by
  refine ⟨_, _, rfl, rfl, rfl, rfl, ?_, rfl⟩
  intro o ho
  cases o <;> simp [below] at ho <;> rfl

/-- Once a count is lost, no stop of the object ever gets past its wait, whatever calls follow. -/
theorem C99_lost_count_blocks_stop (es : List Ev) (s : St) (hc : Calls Api es)
    (h : St.init.runs es = some s) (o : Obj) (hover : s.Over) (hp : s.pend o ≠ 0)
    (hd : s.down o = false) (fs : List Ev) (t : St) (hcf : Calls Api fs) (ht : s.runs fs = some t) :
    t.down o = false := by
  have h0 := C99_counts_stay_right es s hc h o
  refine lost_runs hcf ht (low_runs hc h) ?_ hd
  have h4 : ∀ l : List Prog, (∀ p ∈ l, p = done) → total (owed nobody o) l = 0 := by
    intro l hl
    induction l with
    | nil => rfl
    | cons x l ih =>
      have := ih (fun p hp => hl p (by simp [hp]))
      have hx := hl x (by simp)
      subst hx
      simp only [total, List.map_cons, List.sum_cons, owed] at *; omega
  rw [Lost, h4 s.pool hover]; omega

/-- After these events every call has returned, and yet no stop of `o` that is made from then on, nor one
that waits, ever gets past its wait. -/
def Blocked (es : List Ev) (o : Obj) : Prop :=
  ∃ s, St.init.runs es = some s ∧ (∀ p ∈ s.pool, p = done ∨ ∃ x k, p = await x k) ∧
    ∀ fs t, Calls Api fs → s.runs fs = some t → t.down o = false

theorem blocked_one {p : Prog} {rs : List Ev} {o : Obj} (hp : Api p) (hr : Steps rs) {s : St}
    (h : St.init.runs (.call p :: rs) = some s) (hpool : s.pool = [done]) (hpend : s.pend o ≠ 0)
    (hd : s.down o = false) : Blocked (.call p :: rs) o := by
  have hover : s.Over := by intro q hq; rw [hpool] at hq; simpa using hq
  refine ⟨s, h, fun q hq => .inl (hover q hq), fun fs t hcf ht => ?_⟩
  refine C99_lost_count_blocks_stop _ s ?_ h o hover hpend hd fs t hcf ht
  intro q hq
  simp only [List.mem_cons, Ev.call.injEq] at hq
  rcases hq with rfl | hq
  · exact hp
  · exact absurd hq (hr q)

theorem steps_of_all {rs : List Ev} (h : rs.all (fun e => match e with | .call _ => false | _ => true) = true) :
    Steps rs := by
  intro p hp
  have := List.all_eq_true.1 h _ hp
  simp at this

/-- C99 fails for `write_and_flush` on a thread that cannot block, for `destroy_log_dev` and
`remove_log_store` on a device that does not exist, for a read of the log that fails, and for a write on a
replication device whose sizes do not match: each returns an error, and from then on no stop of the log
store, the log store service, the log device, the replication device ever returns. -/
theorem C99_stops_return_violated :
    Blocked [.call (storeWriteAndFlush 0 0 done), .run 0 false, .run 0 false, .run 0 true] (store 0 0) ∧
    Blocked [.call (logsDestroyDev 0 [] done), .run 0 false, .run 0 false, .run 0 false, .run 0 true] logs ∧
    Blocked [.call (logsRemoveStore 0 done), .run 0 false, .run 0 false, .run 0 false, .run 0 true] logs ∧
    Blocked [.call (devRead 0 done), .run 0 false, .run 0 false, .run 0 false, .run 0 true] (ldev 0) ∧
    Blocked [.call (soloWrite 0 0 done), .run 0 false, .run 0 false, .run 0 false, .run 0 true] (rdev 0) :=
  ⟨blocked_one (.inl (.storeWriteAndFlush 0 0)) (steps_of_all rfl) rfl rfl (by decide) rfl,
   blocked_one (.inl (.logsDestroyDev 0 [])) (steps_of_all rfl) rfl rfl (by decide) rfl,
   blocked_one (.inl (.logsRemoveStore 0)) (steps_of_all rfl) rfl rfl (by decide) rfl,
   blocked_one (.inl (.devRead 0)) (steps_of_all rfl) rfl rfl (by decide) rfl,
   blocked_one (.inl (.soloWrite 0 0)) (steps_of_all rfl) rfl rfl (by decide) rfl⟩

/-- C99 fails for a journal write of replication without peers that the log store refuses since it is
stopping: the callback does not come, the count is not given back, and the device's stop does not
return. -/
theorem C99_journal_violated :
    Blocked [.call (storeStop 0 0 done), .run 0 false, .run 0 false, .call (soloWriteJournal 0 0 0 done),
      .run 1 false, .run 1 false, .run 1 false, .run 1 false] (rdev 0) := by
  have hpool : ∀ q ∈ [done, done], q = done := by simp
  refine ⟨_, rfl, fun q hq => .inl (hpool q hq), fun fs t hcf ht => ?_⟩
  refine C99_lost_count_blocks_stop [.call (storeStop 0 0 done), .run 0 false, .run 0 false,
    .call (soloWriteJournal 0 0 0 done), .run 1 false, .run 1 false, .run 1 false, .run 1 false] _ ?_ rfl
    (rdev 0) hpool (by decide) rfl fs t hcf ht
  intro q hq
  simp only [List.mem_cons, Ev.call.injEq, reduceCtorEq, List.not_mem_nil, or_false, false_or] at hq
  rcases hq with rfl | rfl
  · exact .inl (.storeStop 0 0)
  · exact .inr (.inr (.soloWriteJournal 0 0 0))

end HS.Stop
