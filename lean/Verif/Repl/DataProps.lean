import Verif.Repl.DataSteps
/-!
# C78, C79: the data of replicated writes

The observer knows: the blocks that are allocated (`used`), what a read of a block returns (`disk`),
the entries on a member's disk (`log`, `dur`), how many were committed (`upto`), and which objects its
listener was told are committed, in which block, and has not freed (`app`).
-/
namespace HS.Repl.Data

/-- A read of block `b` returns the data of object `o`, and the block is allocated, so nobody else is
given it. -/
def Readable (s : St) (o b : Nat) : Prop := s.used b = true ∧ s.disk b = some o

theorem inv_run : ∀ (ops : List Op) (s s' : St), Inv s → FairRun s ops → s.run ops = .ok s' → Inv s'
  | [], s, s', h, _, hr => by cases hr; exact h
  | op :: ops, s, s', h, hf, hr => by
    simp only [St.run] at hr
    cases hs : s.step op with
    | ok t => rw [hs] at hr; exact inv_run ops t s' (inv_step h hf.1 hs) (hf.2 t hs) hr
    | na => rw [hs] at hr; cases hr
    | fault => rw [hs] at hr; cases hr

/-- **C78** (partial: under the side conditions of `Fair`).  Whatever happens, crashes included: the
data of every entry on a member's disk that is not committed yet can be read from the block that the
entry names, and so can the data of every object that the listener was told of and has not freed. -/
theorem C78_durable_data_partial (ops : List Op) (s : St) (hf : FairRun St.init ops) (hr : St.init.run ops = .ok s) :
    (∀ l k b, s.upto < l → l ≤ s.dur → s.log[l - 1]? = some (k, b) → Readable s k.obj b) ∧
    (∀ o b, (o, b) ∈ s.app → Readable s o b) := by
  have h := inv_run ops _ _ inv_init hf hr
  refine ⟨fun l k b h1 h2 h3 => ?_, fun o b hm => h.appok o b hm⟩
  have hd := h.dle
  obtain ⟨r, hl⟩ := h.linked l h1 (by omega)
  obtain ⟨_, _, q, c, g1, g2, g3, g4, g5⟩ := h.link l r hl
  obtain ⟨hw, he⟩ := h.durw l r q h2 hl g1
  have := h3.symm.trans g4
  cases this
  exact ⟨h.alloc r q b g1 (g5 he) g3, h.data r q b g1 (g5 he) g3 hw⟩

/-- **C78** (partial).  The next commit tells the listener of the object of the next entry, in the
block that the entry names; nothing else it holds changes. -/
theorem C78_commit_partial (ops : List Op) (s s' : St) (hf : FairRun St.init ops) (hr : St.init.run ops = .ok s)
    (hc : s.step .commit = .ok s') :
    s'.upto = s.upto + 1 ∧ ∃ k b, s.log[s.upto]? = some (k, b) ∧ ∀ p, p ∈ s'.app ↔ p = (k.obj, b) ∨ p ∈ s.app := by
  have h := inv_run ops _ _ inv_init hf hr
  simp only [St.step, St.commit] at hc
  by_cases hd : s.upto + 1 ≤ s.dur
  · rw [if_pos hd] at hc
    obtain ⟨r, q, b, hl, hq, hb, _, _, _, _, hlog⟩ := commit_facts h hd
    simp only [hl, hq, hb] at hc
    cases hc
    refine ⟨rfl, q.key, b, hlog, fun p => ?_⟩
    show p ∈ (if (q.key.obj, b) ∈ s.app then s.app else (q.key.obj, b) :: s.app) ↔ _
    split
    · next hm =>
      constructor
      · exact .inr
      · rintro (rfl | hp)
        · exact hm
        · exact hp
    · simp
  · rw [if_neg hd] at hc; cases hc

/-- **C78** (partial).  No step aborts the process. -/
theorem C78_no_abort_partial (ops : List Op) (s : St) (op : Op) (hf : FairRun St.init ops) (hr : St.init.run ops = .ok s)
    (ho : Fair s op) : s.step op ≠ .fault := by
  have h := inv_run ops _ _ inv_init hf hr
  have halloc : ∀ (t : St) (r o b : Nat) (hint : Bool), t.alloc r o b hint ≠ .fault := fun t r o b hint => by
    simp only [St.alloc]
    split <;> split <;> simp
  cases op with
  | create k b hint =>
    simp only [St.step, St.create]
    split
    · split
      · simp
      · split
        · simp
        · exact halloc _ _ _ _ _
    · exact halloc _ _ _ _ _
  | createFail k => simp only [St.step, St.createFail]; split <;> simp
  | propose k b hint =>
    simp only [St.step, St.propose]
    split
    · simp
    · split
      · split <;> simp
      · exact halloc _ _ _ _ _
  | save r => simp only [St.step, St.save]; split <;> (try split) <;> (try split) <;> simp
  | wdone r => simp only [St.step, St.wdone]; split <;> (try split) <;> (try split) <;> simp
  | wfail r =>
    simp only [St.step, St.wfail]
    by_cases hm : r ∈ s.fly
    · rw [if_pos hm]
      obtain ⟨q, b, h1, h2, h3, _⟩ := h.flyok r hm
      exact handleError_ne_fault (s := { s with fly := s.fly.erase r }) (h.unfly r) h1 h2 (.inl h3)
    · rw [if_neg hm]; simp
  | doom r => simp only [St.step, St.doomed]; split <;> (try split) <;> simp
  | err r =>
    simp only [St.step, St.giveUp]
    cases hq : s.reqs[r]? with
    | none => simp
    | some q =>
      simp only
      by_cases hc : r ∈ s.doom ∧ q.prop = false
      · rw [if_pos hc]
        cases he : q.err with
        | true => simp [St.handleError, hq, he]
        | false =>
          obtain ⟨h1, h2⟩ := ho q hq he
          exact handleError_ne_fault (s := { s with doom := s.doom.erase r }) h hq h2 (.inl (err_facts h hq hc.2 h1).1)
      · rw [if_neg hc]; simp
  | reject r =>
    simp only [St.step, St.reject]
    cases hq : s.reqs[r]? with
    | none => simp
    | some q =>
      simp only
      by_cases hc : q.prop = true ∧ q.written = true ∧ q.lsn = none
      · rw [if_pos hc]
        cases he : q.err with
        | true => simp [St.handleError, hq, he]
        | false => exact handleError_ne_fault h hq (ho q hq he) (.inr hc.2.2)
      · rw [if_neg hc]; simp
  | append k =>
    simp only [St.step, St.append]
    split
    · simp
    · split
      · simp
      · split
        · simp
        · split <;> simp
  | flush => simp only [St.step, St.flush]; split <;> (try split) <;> (try split) <;> (try split) <;> simp
  | rollback => simp only [St.step, St.rollback]; split <;> (try split) <;> (try split) <;> simp
  | commit =>
    simp only [St.step, St.commit]
    by_cases hd : s.upto + 1 ≤ s.dur
    · rw [if_pos hd]
      obtain ⟨r, q, b, hl, hq, hb, _⟩ := commit_facts h hd
      simp [hl, hq, hb]
    · rw [if_neg hd]; simp
  | free o b => simp only [St.step, St.free]; split <;> simp
  | gc r => simp only [St.step, St.gc]; split <;> (try split) <;> simp
  | clear r => simp only [St.step, St.clear]; split <;> (try split) <;> simp
  | restart => simp [St.step]

/-- The requests that can still come to something: those in the table. -/
def Live (s : St) (r : Nat) (q : Req) : Prop := s.reqs[r]? = some q ∧ s.kmap q.key = some r

/-- **C79** (partial: under `Fair`).  A block is allocated exactly when the listener holds it or a
request under way names it: none is lost, and none is in use without being allocated. -/
theorem C79_no_leak_partial (ops : List Op) (s : St) (hf : FairRun St.init ops) (hr : St.init.run ops = .ok s) (b : Nat) :
    s.used b = true ↔ (∃ o, (o, b) ∈ s.app) ∨ ∃ r q, Live s r q ∧ q.blk = some b := by
  have h := inv_run ops _ _ inv_init hf hr
  constructor
  · intro hu
    rcases h.leak b hu with hl | ⟨r, q, h1, h2, h3⟩
    · exact .inl hl
    · exact .inr ⟨r, q, ⟨h1, h2⟩, h3⟩
  · rintro (⟨o, ho⟩ | ⟨r, q, ⟨h1, h2⟩, h3⟩)
    · exact (h.appok o b ho).1
    · exact h.alloc r q b h1 h2 h3

/-- **C79** (partial).  With no request under way, the blocks allocated are those the listener holds. -/
theorem C79_idle_partial (ops : List Op) (s : St) (hf : FairRun St.init ops) (hr : St.init.run ops = .ok s)
    (hi : ∀ k, s.kmap k = none) (b : Nat) : s.used b = true ↔ ∃ o, (o, b) ∈ s.app := by
  rw [C79_no_leak_partial ops s hf hr b]
  constructor
  · rintro (h | ⟨r, q, ⟨_, h2⟩, _⟩)
    · exact h
    · rw [hi] at h2; cases h2
  · exact .inl

/-- **C79** (partial).  Two requests under way never name the same block, unless both are of the
object that the listener holds there; the listener holds one object in a block. -/
theorem C79_exclusive_partial (ops : List Op) (s : St) (hf : FairRun St.init ops) (hr : St.init.run ops = .ok s) :
    (∀ r q r' q' b, Live s r q → Live s r' q' → q.blk = some b → q'.blk = some b →
      r = r' ∨ ((q.key.obj, b) ∈ s.app ∧ (q'.key.obj, b) ∈ s.app)) ∧
    (∀ o o' b, (o, b) ∈ s.app → (o', b) ∈ s.app → o = o') ∧
    (∀ r q b o, Live s r q → q.blk = some b → (o, b) ∈ s.app → q.key.obj = o) := by
  have h := inv_run ops _ _ inv_init hf hr
  have hone : ∀ o o' b, (o, b) ∈ s.app → (o', b) ∈ s.app → o = o' := fun o o' b h1 h2 =>
    Option.some.inj ((h.appok o b h1).2.symm.trans (h.appok o' b h2).2)
  refine ⟨fun r q r' q' b h1 h2 h3 h4 => ?_, hone, fun r q b o h1 h2 h3 =>
    hone _ _ b (h.share r q o b h1.1 h1.2 h2 h3).1 h3⟩
  by_cases hc : ∃ o, (o, b) ∈ s.app
  · obtain ⟨o, ho⟩ := hc
    exact .inr ⟨(h.share r q o b h1.1 h1.2 h3 ho).1, (h.share r' q' o b h2.1 h2.2 h4 ho).1⟩
  · exact .inl (h.excl r q r' q' b h1.1 h1.2 h2.1 h2.2 h3 h4 (fun o ho => hc ⟨o, ho⟩))

theorem release_app (s : St) (q : Req) : (s.release q).app = s.app := by
  unfold St.release; split <;> rfl

theorem handleError_app {s s' : St} {r : Nat} (hs : s.handleError r = .ok s') : s'.app = s.app := by
  unfold St.handleError at hs
  split at hs
  · cases hs
  · split at hs
    · cases hs; rfl
    · simp only at hs
      split at hs
      · cases hs
      · cases hs; rw [release_app]; rfl

theorem alloc_app {s s' : St} {r o b : Nat} {hint : Bool} (hs : s.alloc r o b hint = .ok s') : s'.app = s.app := by
  unfold St.alloc at hs
  split at hs <;> split at hs <;> cases hs <;> rfl

/-- What the listener holds changes with a commit and with its own frees only. -/
theorem step_app {s s' : St} {op : Op} (hs : s.step op = .ok s') (h1 : op ≠ .commit) (h2 : ∀ o b, op ≠ .free o b) :
    s'.app = s.app := by
  cases op with
  | create k b hint =>
    simp only [St.step, St.create] at hs
    split at hs
    · split at hs
      · cases hs
      · split at hs
        · cases hs; rfl
        · exact alloc_app hs
    · exact alloc_app (s := { s with reqs := s.reqs ++ [Req.fresh k false], kmap := upd s.kmap k (some s.reqs.length) }) hs
  | createFail k => simp only [St.step, St.createFail] at hs; split at hs <;> cases hs <;> rfl
  | propose k b hint =>
    simp only [St.step, St.propose] at hs
    split at hs
    · cases hs
    · split at hs
      · next ha =>
        have := alloc_app ha
        split at hs <;> cases hs <;> exact this
      · next ho => exact absurd hs (ho s')
  | save r =>
    simp only [St.step, St.save] at hs
    split at hs
    · cases hs
    · split at hs
      · cases hs
      · split at hs <;> cases hs <;> rfl
  | wdone r =>
    simp only [St.step, St.wdone] at hs
    split at hs
    · cases hs
    · split at hs
      · cases hs
      · split at hs <;> cases hs; rfl
  | wfail r =>
    simp only [St.step, St.wfail] at hs
    split at hs
    · exact handleError_app (s := { s with fly := s.fly.erase r }) hs
    · cases hs
  | doom r =>
    simp only [St.step, St.doomed] at hs
    split at hs
    · cases hs
    · split at hs <;> cases hs; rfl
  | err r =>
    simp only [St.step, St.giveUp] at hs
    split at hs
    · cases hs
    · split at hs
      · exact handleError_app (s := { s with doom := s.doom.erase r }) hs
      · cases hs
  | reject r =>
    simp only [St.step, St.reject] at hs
    split at hs
    · cases hs
    · split at hs
      · exact handleError_app hs
      · cases hs
  | append k =>
    simp only [St.step, St.append] at hs
    split at hs
    · cases hs
    · split at hs
      · cases hs
      · split at hs
        · cases hs
        · split at hs <;> cases hs; rfl
  | flush =>
    simp only [St.step, St.flush] at hs
    split at hs
    · split at hs
      · cases hs; rfl
      · split at hs
        · cases hs
        · split at hs <;> cases hs; rfl
    · cases hs
  | rollback =>
    simp only [St.step, St.rollback] at hs
    split at hs
    · split at hs
      · cases hs; rfl
      · split at hs
        · cases hs
        · cases hs; rw [release_app]
    · cases hs
  | commit => exact absurd rfl h1
  | free o b => exact absurd rfl (h2 o b)
  | gc r =>
    simp only [St.step, St.gc] at hs
    split at hs
    · cases hs
    · split at hs <;> cases hs; rw [release_app]
  | clear r =>
    simp only [St.step, St.clear] at hs
    split at hs
    · cases hs
    · split at hs <;> cases hs; rw [release_app]
  | restart => cases hs; rfl

/-- **C79** (partial).  What the listener was told of stays readable through every step, a crash and
restart included, until the listener frees it. -/
theorem C79_committed_kept_partial (ops : List Op) (s s' : St) (op : Op) (o b : Nat) (hf : FairRun St.init ops)
    (hr : St.init.run ops = .ok s) (ho : Fair s op) (hs : s.step op = .ok s') (hm : (o, b) ∈ s.app)
    (hn : op ≠ .free o b) : (o, b) ∈ s'.app ∧ Readable s' o b := by
  have h := inv_run ops _ _ inv_init hf hr
  have h' := inv_step h ho hs
  have hin : (o, b) ∈ s'.app := by
    by_cases hc : op = .commit
    · subst hc
      obtain ⟨_, k, c, _, hp⟩ := C78_commit_partial ops s s' hf hr hs
      exact (hp _).2 (.inr hm)
    · by_cases hfr : ∃ o' b', op = .free o' b'
      · obtain ⟨o', b', rfl⟩ := hfr
        simp only [St.step, St.free] at hs
        split at hs
        · cases hs
          refine List.mem_filter.2 ⟨hm, ?_⟩
          simp only [decide_eq_true_eq]
          intro e
          cases e
          exact hn rfl
        · cases hs
      · rw [step_app hs hc (fun o' b' e => hfr ⟨o', b', e⟩)]; exact hm
  exact ⟨hin, h'.appok o b hin⟩

/-! ## Cases -/

/-- What a check says of the state after a history. -/
def probe (r : Res) (f : St → Bool) : Bool :=
  match r with
  | .ok s => f s
  | _ => false

theorem probe_ok {r : Res} {f : St → Bool} (h : probe r f = true) : ∃ s, r = .ok s ∧ f s = true := by
  cases r with
  | ok s => exact ⟨s, rfl, h⟩
  | na => cases h
  | fault => cases h

/-- A way to check the side conditions of a history by computation. -/
def fairB (s : St) : Op → Bool
  | .save r => match s.reqs[r]? with
    | none => true
    | some q => q.recv || decide (s.kmap q.key = some r)
  | .err r => match s.reqs[r]? with
    | none => true
    | some q => q.err || (!q.recv && decide (s.kmap q.key = some r))
  | .reject r => match s.reqs[r]? with
    | none => true
    | some q => q.err || decide (s.kmap q.key = some r)
  | .gc r => match s.reqs[r]? with
    | none => true
    | some q => decide (r ∉ s.fly) && decide (q.lsn = none) && s.app.all (fun p => decide (q.blk ≠ some p.2))
  | .clear r => match s.reqs[r]? with
    | none => true
    | some q => decide (r ∉ s.fly) && decide (q.lsn = none) && s.app.all (fun p => decide (q.blk ≠ some p.2))
  | .rollback => match s.log.getLast? with
    | none => true
    | some e => s.app.all (fun p => decide (p.2 ≠ e.2))
  | .free _ b => (List.range s.reqs.length).all fun r => match s.reqs[r]? with
    | none => true
    | some q => decide (s.kmap q.key ≠ some r) || decide (q.blk ≠ some b)
  | _ => true

theorem fairB_fair {s : St} {op : Op} (h : fairB s op = true) : Fair s op := by
  cases op with
  | save r =>
    intro q hq hr
    simp only [fairB, hq, hr, Bool.false_or, decide_eq_true_eq] at h
    exact h
  | err r =>
    intro q hq hr
    simp only [fairB, hq, hr, Bool.false_or, Bool.and_eq_true, decide_eq_true_eq, Bool.not_eq_true'] at h
    exact h
  | reject r =>
    intro q hq hr
    simp only [fairB, hq, hr, Bool.false_or, decide_eq_true_eq] at h
    exact h
  | gc r =>
    intro q hq
    simp only [fairB, hq, Bool.and_eq_true, decide_eq_true_eq, List.all_eq_true] at h
    exact ⟨h.1.1, h.1.2, fun b hb o ho => h.2 (o, b) ho hb⟩
  | clear r =>
    intro q hq
    simp only [fairB, hq, Bool.and_eq_true, decide_eq_true_eq, List.all_eq_true] at h
    exact ⟨h.1.1, h.1.2, fun b hb o ho => h.2 (o, b) ho hb⟩
  | rollback =>
    intro e he o ho
    simp only [fairB, he, List.all_eq_true, decide_eq_true_eq] at h
    exact h (o, e.2) ho rfl
  | free o b =>
    intro r q hq hk hb
    simp only [fairB, List.all_eq_true, List.mem_range] at h
    have hl : r < s.reqs.length := (List.getElem?_eq_some_iff.1 hq).1
    have := h r hl
    simp [hq, hk, hb] at this
  | _ => trivial

/-- The same along a history. -/
def fairRunB (s : St) : List Op → Bool
  | [] => true
  | op :: ops => fairB s op &&
    match s.step op with
    | .ok s' => fairRunB s' ops
    | _ => true

theorem fairRunB_fair : ∀ (ops : List Op) (s : St), fairRunB s ops = true → FairRun s ops
  | [], _, _ => trivial
  | op :: ops, s, h => by
    simp only [fairRunB, Bool.and_eq_true] at h
    refine ⟨fairB_fair h.1, fun s' hs => ?_⟩
    rw [hs] at h
    exact fairRunB_fair ops s' h.2

/-- A follower: the entry comes before the data, which is pushed; a second one times out and is
retried; one is rolled back; the user overwrites the first object and frees the old block; a crash
with one entry on disk that is not committed; a late push of a committed write finds the listener's
block; the garbage collector takes an orphan. -/
def busy : List Op :=
  [.create ⟨1, 7⟩ 0 false, .append ⟨1, 7⟩, .save 0, .wdone 0, .flush,
   .create ⟨2, 8⟩ 1 false, .doom 1, .err 1, .create ⟨2, 8⟩ 1 false, .save 2, .wdone 2, .append ⟨2, 8⟩, .flush,
   .commit, .rollback, .propose ⟨3, 9⟩ 1 false, .wdone 3, .append ⟨3, 9⟩, .flush,
   .create ⟨5, 4⟩ 2 false, .gc 4, .restart,
   .create ⟨1, 7⟩ 0 true, .commit, .propose ⟨4, 7⟩ 0 true, .create ⟨6, 3⟩ 2 false, .save 3, .wfail 3]

example : fairRunB St.init busy = true := by decide +kernel
example : probe (St.init.run busy) (fun s => decide (s.app = [(9, 1), (7, 0)] ∧ s.upto = 2 ∧ s.dur = 2 ∧ s.reqs.length = 4) &&
    s.used 0 && s.used 1 && !s.used 2 && decide (s.disk 0 = some 7 ∧ s.disk 1 = some 9)) = true := by decide +kernel

/-- With an entry on disk that is not committed, after a crash. -/
example : ∃ s, St.init.run (busy.take 22) = .ok s ∧ FairRun St.init (busy.take 22) ∧ s.upto < 2 ∧ 2 ≤ s.dur ∧
    s.log[2 - 1]? = some (⟨3, 9⟩, 1) ∧ (7, 0) ∈ s.app := by
  obtain ⟨s, h1, h2⟩ := probe_ok (r := St.init.run (busy.take 22))
    (f := fun s => decide (s.upto < 2 ∧ 2 ≤ s.dur ∧ s.log[2 - 1]? = some ((⟨3, 9⟩ : Key), 1) ∧ (7, 0) ∈ s.app)) (by decide +kernel)
  exact ⟨s, h1, fairRunB_fair _ _ (by decide +kernel), by simpa using h2⟩

/-- The request of a late push. -/
def late : Req := { Req.fresh ⟨1, 7⟩ false with blk := some 0, recv := true, written := true, comm := true }

/-- A state with a commit ahead, and one in which a live request shares the listener's block. -/
example : ∃ s s', St.init.run (busy.take 23) = .ok s ∧ FairRun St.init (busy.take 23) ∧ s.step .commit = .ok s' ∧
    Live s 1 late := by
  obtain ⟨s, h1, h2⟩ := probe_ok (r := St.init.run (busy.take 23))
    (f := fun s => decide (s.reqs[1]? = some late ∧
      s.kmap ⟨1, 7⟩ = some 1) && probe (s.step .commit) (fun _ => true)) (by decide +kernel)
  simp only [Bool.and_eq_true, decide_eq_true_eq] at h2
  obtain ⟨s', h3, _⟩ := probe_ok h2.2
  exact ⟨s, s', h1, fairRunB_fair _ _ (by decide +kernel), h3, h2.1.1, h2.1.2⟩

end HS.Repl.Data
