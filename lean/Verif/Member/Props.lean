import Verif.Member.Seen
import Verif.Member.Kept
import Batteries.Data.List.Perm

/-!
# C82-C85: changes of the membership of a replication group
-/

namespace HS.Member

/-! ## Examples of runs -/

/-- Three members, with priorities. -/
def three : List Srv := [⟨1, false, 100⟩, ⟨2, false, 50⟩, ⟨3, false, 60⟩]

/-- `k` smooth steps of call `c`. -/
def goes (c k : Nat) : List Act := List.replicate k (.step c {})

/-- An entry is committed and applied on `n`. -/
def upTo (n : RId) : List Act := [.commit, .apply n]

/-- `start_replace_member(t, 3, 4)` on the leader 1, which returns OK. -/
def sampleReplace (t : Bytes) : List Act :=
  [.elect 1 0, .call 0 1 (.replace t 3 4 0)] ++ goes 0 4 ++ [.step 0 { active := [2] }] ++ goes 0 3 ++ upTo 1 ++ goes 0 3 ++ upTo 1 ++ goes 0 3 ++
  [.append 0] ++ upTo 1

/-- Then the reaper of node 1 completes the replacement. -/
def sampleComplete (t : Bytes) : List Act :=
  sampleReplace t ++ [.reap 1 1 true (fun _ => 7) 0] ++ goes 1 3 ++ [.append 0] ++ upTo 1 ++ goes 1 4 ++ upTo 1

/-- The members, the replacement in progress, and the result of the calls in these runs. -/
example : (run (St.start three) (sampleReplace [65])).map (fun s => (s.conf 1, ongoing (s.nodes 1).sb, (s.runs 0).map (·.pc))) =
    some (three.set 2 ⟨3, true, 60⟩ ++ [⟨4, false, 60⟩], some ⟨[65], 3, 4⟩, some (.done .ok 0)) := by decide +kernel

example : (run (St.start three) (sampleComplete [65])).map (fun s => (s.conf 1, ongoing (s.nodes 1).sb, (s.runs 1).map (·.pc))) =
    some (three.set 2 ⟨4, false, 60⟩, none, some (.done .ok 0)) := by decide +kernel

/-- There is a state a run ends in, with what is seen of it. -/
theorem ends {β : Type} {ms : List Srv} {l : List Act} {f : St → β} {x : β} (h : (run (St.start ms) l).map f = some x) :
    ∃ s, run (St.start ms) l = some s ∧ f s = x := by
  rw [Option.map_eq_some_iff] at h
  exact h

theorem reaches {ms : List Srv} {l : List Act} {P : St → Prop} [DecidablePred P] (h : (run (St.start ms) l).map (fun s => decide (P s)) = some true) :
    ∃ s, run (St.start ms) l = some s ∧ P s := by
  obtain ⟨s, h1, h2⟩ := ends h
  exact ⟨s, h1, of_decide_eq_true h2⟩

/-! ## C82: the quorum a call asks for is in force during the call, and no longer -/

/-- Whenever a node has another quorum than the majority, it is that of a call made on this node, which has not returned yet or has returned without
resetting it: `start_replace_member` with NOT_LEADER (by `raft_repl_dev.cpp` 246), or with OK since there was nothing to do (267); or
`flip_learner_flag` with OK (684). -/
theorem C82_quorum_of_a_call_partial {ms : List Srv} {l : List Act} {s : St} (hr : run (St.start ms) l = some s) (n : RId)
    (hn : (s.nodes n).quorum ≠ 0) :
    ∃ c r, s.runs c = some r ∧ r.node = n ∧ r.call.quorum = (s.nodes n).quorum ∧ r.pc ≠ .lost ∧
      ((∀ o line, r.pc ≠ .done o line) ∨
       (∃ t out inn q, r.call = .replace t out inn q ∧ (r.pc = .done (.err .notLeader) 246 ∨ r.pc = .done .ok 267)) ∨
       (∃ m f q v, r.call = .flip m f q v ∧ r.pc = .done .ok 684)) := by
  obtain ⟨c, r, h1, h2, h3, h4⟩ := qinv_run hr n hn
  unfold Run.holds at h4
  refine ⟨c, r, h1, h2, h3, ?_, ?_⟩
  · intro hc; rw [hc] at h4; exact h4
  · cases hp : r.pc
    case done o line =>
      rw [hp] at h4
      rcases h4 with ⟨t, o', i, q, h5, h6⟩ | ⟨m, f, q, v, h5, h6⟩
      · rw [hp] at h6; exact Or.inr (Or.inl ⟨t, o', i, q, h5, h6⟩)
      · rw [hp] at h6; exact Or.inr (Or.inr ⟨m, f, q, v, h5, h6⟩)
    all_goals exact Or.inl fun _ _ hc => (by cases hc)

/-- When all the calls made on a node have returned (or were cut off by a restart), and none of them was a replacement that returned NOT_LEADER or OK, or
a flip that returned OK, the node has the majority as quorum again. -/
theorem C82_quorum_restored_partial {ms : List Srv} {l : List Act} {s : St} (hr : run (St.start ms) l = some s) (n : RId)
    (hret : ∀ c r, s.runs c = some r → r.node = n → r.pc = .lost ∨ ∃ o line, r.pc = .done o line ∧
      (∀ t out inn q, r.call = .replace t out inn q → o ≠ .err .notLeader ∧ (o = .ok → line ≠ 267)) ∧
      (∀ m f q v, r.call = .flip m f q v → o ≠ .ok)) :
    (s.nodes n).quorum = 0 := by
  refine Decidable.byContradiction fun hn => ?_
  obtain ⟨c, r, h1, h2, _, h4, h5⟩ := C82_quorum_of_a_call_partial hr n hn
  rcases hret c r h1 h2 with h6 | ⟨o, line, h6, h7, h8⟩
  · exact h4 h6
  · rcases h5 with h5 | ⟨t, o', i, q, h9, h10⟩ | ⟨m, f, q, v, h9, h10⟩
    · exact h5 _ _ h6
    · rw [h6] at h10
      rcases h10 with h10 | h10
      · cases h10; exact (h7 _ _ _ _ h9).1 rfl
      · cases h10; exact (h7 _ _ _ _ h9).2 rfl rfl
    · rw [h6] at h10; cases h10; exact h8 _ _ _ _ h9 rfl

/-- While a call that asked for a quorum is going on after it was set, it is in force, if no other call was made on this node. -/
theorem C82_quorum_in_force_partial {ms : List Srv} {l : List Act} {s : St} (hr : run (St.start ms) l = some s) {c : Nat} {r : Run}
    (hc : s.runs c = some r) (hu : ∀ d r', s.runs d = some r' → r'.node = r.node → d = c) (hq : r.call.quorum ≠ 0)
    (h1 : r.pc ≠ .entry) (h2 : ∀ b, r.pc ≠ .setQ b) (h3 : r.pc ≠ .lost) (h4 : ∀ o line, r.pc ≠ .done o line) :
    (s.nodes r.node).quorum = r.call.quorum := by
  refine kinv_run hr c r hc hu hq ?_ h4
  unfold Run.holds
  split
  · next h => exact absurd h h1
  · next h => exact absurd h (h2 _)
  · next h => exact absurd h h3
  · next h => exact absurd h (h4 _ _)
  · trivial

/-- A removal with quorum 1 sets it, and resets it. -/
def sampleQuorum : List Act :=
  [.elect 1 0, .call 0 1 (.remove 3 1 true)] ++ goes 0 4 ++ [.append 0] ++ upTo 1

example : (run (St.start three) sampleQuorum).map (fun s => ((s.nodes 1).quorum, (s.runs 0).map (·.pc), (s.runs 1).isNone)) =
    some (1, some .remVerify, true) := by decide +kernel

example : (run (St.start three) (sampleQuorum ++ goes 0 3)).map (fun s => ((s.nodes 1).quorum, (s.runs 0).map (·.pc), (s.runs 1).isNone)) =
    some (0, some (.done .ok 0), true) := by decide +kernel

/-- The node and the pc of each of the first three calls. -/
def St.calls (s : St) : List (Option (RId × Pc)) := [0, 1, 2].map fun c => (s.runs c).map fun r => (r.node, r.pc)

/-- After a successful `flip_learner_flag` the quorum it asked for stays: the call has returned OK, and no other call was made. -/
theorem C82_flip_keeps_quorum_violated : ∃ l s, run (St.start three) l = some s ∧
    s.runs 0 = some ⟨1, .flip 3 true 1 true, .done .ok 684, 0, 0⟩ ∧ s.runs 1 = none ∧ (s.nodes 1).quorum = 1 := by
  obtain ⟨s, h1, h2⟩ := ends (ms := three) (l := [.elect 1 0, .call 0 1 (.flip 3 true 1 true)] ++ goes 0 5 ++ upTo 1 ++ goes 0 1)
    (f := fun s => (s.runs 0, s.runs 1, (s.nodes 1).quorum)) (x := (some ⟨1, .flip 3 true 1 true, .done .ok 684, 0, 0⟩, none, 1)) (by decide +kernel)
  simp only [Prod.mk.injEq] at h2
  exact ⟨_, s, h1, h2⟩

/-- So it does after a replacement that finds its intent fulfilled (a retry of the same call, after it was completed). -/
theorem C82_replace_again_keeps_quorum_violated : ∃ l s, run (St.start three) l = some s ∧
    s.runs 2 = some ⟨1, .replace [65] 3 4 1, .done .ok 267, 0, 5⟩ ∧ (s.nodes 1).quorum = 1 ∧
    ∀ c ∈ [0, 1], (s.runs c).map (·.pc) = some (.done .ok 0) := by
  obtain ⟨s, h1, h2⟩ := ends (ms := three) (l := sampleComplete [65] ++ [.call 2 1 (.replace [65] 3 4 1)] ++ goes 2 5)
    (f := fun s => (s.runs 2, (s.nodes 1).quorum, [0, 1].map fun c => (s.runs c).map (·.pc)))
    (x := (some ⟨1, .replace [65] 3 4 1, .done .ok 267, 0, 5⟩, 1, [some (.done .ok 0), some (.done .ok 0)])) (by decide +kernel)
  simp only [Prod.mk.injEq, List.map_cons, List.map_nil, List.cons.injEq, and_true] at h2
  refine ⟨_, s, h1, h2.1, h2.2.1, fun c hc => ?_⟩
  simp only [List.mem_cons, List.not_mem_nil, or_false] at hc
  rcases hc with rfl | rfl
  · exact h2.2.2.1
  · exact h2.2.2.2

/-- And after a replacement that was refused, since another node is the leader (here the comment in the code asks for a retry; nothing resets the quorum
if there is none). -/
theorem C82_refused_keeps_quorum_violated : ∃ l s, run (St.start three) l = some s ∧
    s.runs 0 = some ⟨2, .replace [65] 3 4 1, .done (.err .notLeader) 246, 0, 0⟩ ∧ s.leader = some 1 ∧ s.runs 1 = none ∧ (s.nodes 2).quorum = 1 := by
  obtain ⟨s, h1, h2⟩ := ends (ms := three) (l := [.elect 1 0, .call 0 2 (.replace [65] 3 4 1), .step 0 { lead := false }] ++ goes 0 2)
    (f := fun s => (s.runs 0, s.leader, s.runs 1, (s.nodes 2).quorum))
    (x := (some ⟨2, .replace [65] 3 4 1, .done (.err .notLeader) 246, 0, 0⟩, some 1, none, 1)) (by decide +kernel)
  simp only [Prod.mk.injEq] at h2
  exact ⟨_, s, h1, h2⟩

/-- The quorum is not in force: the reaper, which asks for none, resets it in the middle of a call. -/
theorem C82_reaper_resets_quorum_violated : ∃ l s, run (St.start three) l = some s ∧
    s.runs 2 = some ⟨1, .remove 2 1 true, .remCmd, 0, 3⟩ ∧ (s.nodes 1).quorum = 0 := by
  obtain ⟨s, h1, h2⟩ := ends (ms := three) (l := sampleReplace [65] ++ [.call 2 1 (.remove 2 1 true)] ++ goes 2 3 ++
      [.reap 1 1 true (fun _ => 7) 0] ++ goes 1 2 ++ [.step 1 { code := 3, eff := false }] ++ goes 1 1)
    (f := fun s => (s.runs 2, (s.nodes 1).quorum)) (x := (some ⟨1, .remove 2 1 true, .remCmd, 0, 3⟩, 0)) (by decide +kernel)
  simp only [Prod.mk.injEq] at h2
  exact ⟨_, s, h1, h2⟩

/-! ## C83: the recorded replacement -/

/-- A node that did not get a snapshot, and has applied again all it had applied before, has recorded the replacement in progress after the entries it
has applied, as long as the ids of all replacements fit. -/
theorem C83_task_is_open_task_partial {ms : List Srv} {l : List Act} {s : St} (hr : run (St.start ms) l = some s)
    (hfit : ∀ c n t out inn q, .call c n (.replace t out inn q) ∈ l → Fits t ∧ out ≠ 0 ∧ inn ≠ 0)
    {n : RId} (hsnap : ∀ k, .snapshot n k ∉ l) (happ : (s.nodes n).applied = (s.nodes n).high) :
    ongoing (s.nodes n).sb = openTask (s.log.take (s.nodes n).applied) := by
  have hf : ∀ a ∈ l, a.Fits := by
    intro a ha
    cases a with
    | call c n k =>
      cases k with
      | replace t o i q => exact hfit c n t o i q ha
      | _ => trivial
    | _ => trivial
  have h1 := fits_run hf hr
  have h2 := (tinv_run (n := n) (fun a ha k hc => hsnap k (hc ▸ ha)) hr).recorded happ
  rw [h2]
  exact (stands_recorded fun e he => h1.log e (List.mem_of_mem_take he)).ongoing

/-- Two such nodes that have applied as many entries have recorded the same. -/
theorem C83_nodes_agree_partial {ms : List Srv} {l : List Act} {s : St} (hr : run (St.start ms) l = some s) {n m : RId}
    (hn : ∀ k, .snapshot n k ∉ l) (hm : ∀ k, .snapshot m k ∉ l)
    (hn1 : (s.nodes n).applied = (s.nodes n).high) (hm1 : (s.nodes m).applied = (s.nodes m).high)
    (he : (s.nodes n).applied = (s.nodes m).applied) : (s.nodes n).sb = (s.nodes m).sb := by
  rw [(tinv_run (n := n) (fun a ha k hc => hn k (hc ▸ ha)) hr).recorded hn1, (tinv_run (n := m) (fun a ha k hc => hm k (hc ▸ ha)) hr).recorded hm1, he]

/-- What such a leader says about a replacement: IN_PROGRESS exactly if it is in progress; another one in progress gives TASK_MISMATCH; with none
in progress it is COMPLETED only if the member that leaves is gone and the one that comes is there. -/
theorem C83_status_partial {ms : List Srv} {l : List Act} {s : St} (hr : run (St.start ms) l = some s)
    (hfit : ∀ c n t out inn q, .call c n (.replace t out inn q) ∈ l → Fits t ∧ out ≠ 0 ∧ inn ≠ 0)
    {n : RId} (hsnap : ∀ k, .snapshot n k ∉ l) (happ : (s.nodes n).applied = (s.nodes n).high)
    (t : Bytes) (out inn : RId) (others : List RId) :
    let st := status false true (s.conf n) (s.nodes n).sb t out inn others
    let inProgress := (openTask (s.log.take (s.nodes n).applied)).map (·.tid)
    (st = .inProgress ↔ inProgress = some t) ∧
    (st = .taskMismatch ↔ ∃ t', inProgress = some t' ∧ t' ≠ t) ∧
    (st = .completed → inProgress = none ∧ out ∉ ids (s.conf n) ∧ inn ∈ ids (s.conf n) ∧ ∀ o ∈ others, o ∈ ids (s.conf n)) ∧
    (inProgress = none → out ∈ ids (s.conf n) → st = .taskNotFound) := by
  have hf : ∀ a ∈ l, a.Fits := by
    intro a ha
    cases a with
    | call c n k =>
      cases k with
      | replace t o i q => exact hfit c n t o i q ha
      | _ => trivial
    | _ => trivial
  have h1 := fits_run hf hr
  have h2 := (tinv_run (n := n) (fun a ha k hc => hsnap k (hc ▸ ha)) hr).recorded happ
  have h3 : Stands (s.nodes n).sb (openTask (s.log.take (s.nodes n).applied)) := by
    rw [h2]; exact stands_recorded fun e he => h1.log e (List.mem_of_mem_take he)
  intro st inp
  rcases h3 with ⟨h4, h5⟩ | ⟨k, h4, h5, _, _, h6, _⟩
  · have h7 : inp = none := by simp only [inp, h4, Option.map_none]
    have h8 : (s.nodes n).sb.id = [] := by rw [h5]; decide
    simp only [st, status, h7, h8, Bool.false_eq_true, if_false, Bool.not_true, if_true, reduceCtorEq, false_and, iff_false, exists_const, iff_false,
      true_and, forall_const]
    refine ⟨?_, ?_, ?_, ?_⟩
    · split
      · split <;> simp
      · simp
    · split
      · split <;> simp
      · simp
    · split
      · next hd =>
        split
        · next ho =>
          intro _
          simp only [Bool.and_eq_true, Bool.not_eq_true', List.any_eq_false, List.any_eq_true, decide_eq_true_eq] at hd
          simp only [Bool.and_eq_true, List.all_eq_true] at ho
          obtain ⟨v, hv1, hv2⟩ := hd.2
          refine ⟨fun hc => ?_, mem_ids.2 ⟨v, hv1, hv2.2⟩, fun o hx => getSrv_isSome.1 (ho.2 o hx)⟩
          obtain ⟨w, hw1, hw2⟩ := mem_ids.1 hc
          exact hd.1 w hw1 hw2
        · intro hc; cases hc
      · intro hc; cases hc
    · intro ho
      have : ((s.conf n).any fun v => decide (v.id = out)) = true := by
        simp only [List.any_eq_true, decide_eq_true_eq]; exact mem_ids.1 ho
      simp [this]
  · have h7 : inp = some k.tid := by simp only [inp, h4, Option.map_some]
    simp only [st, status, h7, h6.1, h5, Bool.false_eq_true, if_false, Bool.not_true, ne_eq, reduceCtorEq, false_and, Option.some.injEq]
    by_cases ht : k.tid = t
    · subst ht; simp [h6.1]
    · simp [ht, h6.1]

/-- The checks of a new replacement and of a cleaning on such a node agree with that: a replacement is refused with TASK_MISMATCH exactly if another
one is in progress; a cleaning returns OK at once if none is, and is refused if another one is. -/
theorem C83_checks_partial {ms : List Srv} {l : List Act} {s : St} (hr : run (St.start ms) l = some s)
    (hfit : ∀ c n t out inn q, .call c n (.replace t out inn q) ∈ l → Fits t ∧ out ≠ 0 ∧ inn ≠ 0)
    {n : RId} (hsnap : ∀ k, .snapshot n k ∉ l) (happ : (s.nodes n).applied = (s.nodes n).high)
    {c : Nat} {r : Run} (hc : s.runs c = some r) (hn : r.node = n) :
    let inProgress := (openTask (s.log.take (s.nodes n).applied)).map (·.tid)
    (∀ t out inn q, r.call = .replace t out inn q → r.pc = .task → ∃ s', step s (.step c {}) = some s' ∧
      ((s'.runs c).map (·.pc) = some (.reset (.err .mismatch)) ↔ ∃ t', inProgress = some t' ∧ t' ≠ t)) ∧
    (∀ t q, r.call = .clean t q → r.pc = .entry → ∃ s', step s (.step c {}) = some s' ∧
      ((s'.runs c).map (·.pc) = some (.done .ok 750) ↔ inProgress = none) ∧
      ((s'.runs c).map (·.pc) = some (.done (.err .mismatch) 755) ↔ ∃ t', inProgress = some t' ∧ t' ≠ t)) := by
  have hf : ∀ a ∈ l, a.Fits := by
    intro a ha
    cases a with
    | call c n k =>
      cases k with
      | replace t o i q => exact hfit c n t o i q ha
      | _ => trivial
    | _ => trivial
  have h1 := fits_run hf hr
  have h2 := (tinv_run (n := n) (fun a ha k hc => hsnap k (hc ▸ ha)) hr).recorded happ
  have h3 : Stands (s.nodes n).sb (openTask (s.log.take (s.nodes n).applied)) := by
    rw [h2]; exact stands_recorded fun e he => h1.log e (List.mem_of_mem_take he)
  intro inp
  have h9 : ((s.nodes n).sb.id = [] ∧ inp = none) ∨ ((s.nodes n).sb.id ≠ [] ∧ inp = some (s.nodes n).sb.id) := by
    rcases h3 with ⟨h4, h5⟩ | ⟨k, h4, h5, _, _, h6, _⟩
    · exact Or.inl ⟨by rw [h5]; decide, by simp only [inp, h4, Option.map_none]⟩
    · exact Or.inr ⟨by rw [h5]; exact h6.1, by simp only [inp, h4, Option.map_some, h5]⟩
  obtain ⟨n', k, pc, p, si⟩ := r
  simp only at hn
  subst hn
  refine ⟨fun t o i q h4 h5 => ?_, fun t q h4 h5 => ?_⟩
  · simp only at h4 h5
    subst h4 h5
    simp only [step, hc, advance, St.effect, Run.after]
    refine ⟨_, rfl, ?_⟩
    simp only [upd_same, Option.map_some, Option.some.injEq]
    rcases h9 with ⟨h6, h7⟩ | ⟨h6, h7⟩
    · simp [h6, h7]
    · by_cases ht : (s.nodes n').sb.id = t
      · simp [h6, h7, ht]
      · simp [h6, h7, ht]
  · simp only at h4 h5
    subst h4 h5
    have hb : ∀ x o y, beforeSetQ x (.clean t q) ≠ .done o y := by
      intro x o y; unfold beforeSetQ; split <;> simp [afterSetQ]
    simp only [step, hc, advance, Bool.false_eq_true, if_false, Bool.not_true]
    rcases h9 with ⟨h6, h7⟩ | ⟨h6, h7⟩
    · simp [h6, h7, St.effect, Run.after, upd_same]
    · by_cases ht : (s.nodes n').sb.id = t
      · rw [if_neg h6, if_neg (by simp [ht])]
        refine ⟨_, rfl, ?_, ?_⟩
        · simp only [upd_same, Run.after, Option.map_some, Option.some.injEq, h7]
          simp [hb]
        · simp only [upd_same, Run.after, Option.map_some, Option.some.injEq, h7]
          simp [hb, ht]
      · rw [if_neg h6, if_pos ht]
        refine ⟨_, rfl, ?_, ?_⟩
        · simp [upd_same, Run.after, h7]
        · simp [upd_same, Run.after, h7, ht]

/-- Node 1 crashes during a replacement and applies the log again from its beginning; node 2 applies it once: both have recorded the replacement. -/
example : (run (St.start three) (sampleReplace [65] ++ [.restart 1 0, .apply 1, .apply 2, .apply 1, .apply 2, .apply 1, .apply 2])).map
    (fun s => ([(s.nodes 1).applied, (s.nodes 1).high, (s.nodes 2).applied], [openTask s.log, ongoing (s.nodes 1).sb, ongoing (s.nodes 2).sb])) =
    some ([3, 3, 3], [some ⟨[65], 3, 4⟩, some ⟨[65], 3, 4⟩, some ⟨[65], 3, 4⟩]) := by decide +kernel

example : Fits [65] ∧ (3 : Nat) ≠ 0 ∧ (4 : Nat) ≠ 0 := by decide

/-- The two calls whose checks are stated. -/
example : (run (St.start three) (sampleReplace [65] ++ [.call 1 1 (.replace [66] 2 5 0), .call 2 1 (.clean [66] 0)] ++ goes 1 2)).map
    (fun s => ((s.runs 1).map (·.pc), (s.runs 2).map (·.pc), (s.nodes 1).applied, (s.nodes 1).high)) = some (some .task, some .entry, 3, 3) := by
  decide +kernel

/-- An id of more than 63 characters: whoever started the replacement is told that another one is in progress. -/
theorem C83_long_id_violated (t pad : Bytes) (h : t.length > 63) (sb : TaskSb) (out inn : RId) (ms : List Srv) (others : List RId)
    (h0 : cstr t ≠ []) :
    let sb' := commitSb sb (.start (ctxTid t pad) out inn)
    status false true ms sb' t out inn others = .taskMismatch := by
  intro sb'
  have h1 : sb'.id = (cstr t).take 63 := by
    simp only [sb', commitSb, TaskSb.id, cstr_strncpy, cstr_ctxTid]
    rw [List.take_take]
    rfl
  have h2 : sb'.id ≠ t := by
    intro hc
    rw [h1] at hc
    have := congrArg List.length hc
    simp only [List.length_take] at this
    omega
  have h3 : sb'.id ≠ [] := by
    rw [h1]
    cases hx : cstr t with
    | nil => exact absurd hx h0
    | cons a b => simp
  simp [status, h2, h3]

/-- After the replacement with such an id was started with success, repeating the call, and cleaning the task, are refused for ever (as long as the log
does not change). -/
theorem C83_long_id_stuck_violated : ∃ t l s, run (St.start three) l = some s ∧
    (s.runs 0).map (fun r => (r.call, r.pc)) = some (.replace t 3 4 0, .done .ok 0) ∧
    (s.runs 1).map (fun r => (r.call, r.pc)) = some (.replace t 3 4 0, .done (.err .mismatch) 0) ∧
    (s.runs 2).map (fun r => (r.call, r.pc)) = some (.clean t 0, .done (.err .mismatch) 755) := by
  refine ⟨List.replicate 64 65, ?_⟩
  obtain ⟨s, h1, h2⟩ := ends (ms := three) (l := sampleReplace (List.replicate 64 65) ++
      [.call 1 1 (.replace (List.replicate 64 65) 3 4 0), .call 2 1 (.clean (List.replicate 64 65) 0)] ++ goes 1 4 ++ goes 2 1)
    (f := fun s => ((s.runs 0).map (fun r => (r.call, r.pc)), (s.runs 1).map (fun r => (r.call, r.pc)), (s.runs 2).map (fun r => (r.call, r.pc))))
    (x := (some (.replace (List.replicate 64 65) 3 4 0, .done .ok 0), some (.replace (List.replicate 64 65) 3 4 0, .done (.err .mismatch) 0),
      some (.clean (List.replicate 64 65) 0, .done (.err .mismatch) 755))) (by decide +kernel)
  simp only [Prod.mk.injEq] at h2
  exact ⟨_, s, h1, h2⟩

/-- A replacement with the empty id is never taken off the record, though it was completed: the node goes on reporting it as ongoing, and its reaper
goes on completing it. -/
theorem C83_empty_id_violated : ∃ l s, run (St.start three) l = some s ∧ openTask s.log = none ∧ ids (s.conf 1) = [1, 2, 4] ∧
    (s.nodes 1).applied = s.log.length ∧ ongoing (s.nodes 1).sb = some ⟨[], 3, 4⟩ ∧ s.due 1 true (fun _ => 7) 0 = true := by
  obtain ⟨s, h1, h2⟩ := ends (ms := three) (l := sampleComplete [])
    (f := fun s => (openTask s.log, ids (s.conf 1), decide ((s.nodes 1).applied = s.log.length), ongoing (s.nodes 1).sb, s.due 1 true (fun _ => 7) 0))
    (x := (none, [1, 2, 4], true, some ⟨[], 3, 4⟩, true)) (by decide +kernel)
  simp only [Prod.mk.injEq, decide_eq_true_eq] at h2
  exact ⟨_, s, h1, h2⟩

/-- A snapshot does not carry the recorded replacement: node 2, which gets one, keeps a replacement that was completed; node 5, which gets one, does not
know of the replacement in progress. -/
theorem C83_snapshot_violated :
    (∃ l s, run (St.start three) l = some s ∧ (s.nodes 2).applied = s.log.length ∧ openTask s.log = none ∧
      ongoing (s.nodes 2).sb = some ⟨[65], 3, 4⟩ ∧ ongoing (s.nodes 1).sb = none) ∧
    (∃ l s, run (St.start three) l = some s ∧ (s.nodes 2).applied = s.log.length ∧ openTask s.log = some ⟨[65], 3, 4⟩ ∧
      ongoing (s.nodes 2).sb = none ∧ ongoing (s.nodes 1).sb = some ⟨[65], 3, 4⟩) := by
  constructor
  · obtain ⟨s, h1, h2⟩ := ends (ms := three) (l := sampleComplete [65] ++ [.apply 2, .apply 2, .snapshot 2 5])
      (f := fun s => (decide ((s.nodes 2).applied = s.log.length), openTask s.log, ongoing (s.nodes 2).sb, ongoing (s.nodes 1).sb))
      (x := (true, none, some ⟨[65], 3, 4⟩, none)) (by decide +kernel)
    simp only [Prod.mk.injEq, decide_eq_true_eq] at h2
    exact ⟨_, s, h1, h2⟩
  · obtain ⟨s, h1, h2⟩ := ends (ms := three) (l := sampleReplace [65] ++ [.snapshot 2 3])
      (f := fun s => (decide ((s.nodes 2).applied = s.log.length), openTask s.log, ongoing (s.nodes 2).sb, ongoing (s.nodes 1).sb))
      (x := (true, some ⟨[65], 3, 4⟩, none, some ⟨[65], 3, 4⟩)) (by decide +kernel)
    simp only [Prod.mk.injEq, decide_eq_true_eq] at h2
    exact ⟨_, s, h1, h2⟩

/-! ## C84: a replacement replaces this member, and does nothing else -/

theorem shape_start {ms : List Srv} {out inn : RId} {p : Nat} (hn : (ids ms).Nodup) (hp : ∃ v ∈ ms, v.id = out ∧ v.prio = p) : Shape ms out inn p ms := by
  refine ⟨fun v hv _ => hv, fun v hv => ?_, hn⟩
  by_cases h : v.id = out
  · obtain ⟨w, hw, hwo, hwp⟩ := hp
    have : v = w := by
      have hn' : ms.Pairwise (fun a b => a.id ≠ b.id) := List.pairwise_map.1 hn
      refine Decidable.byContradiction fun hne => ?_
      rcases List.getElem_of_mem hv with ⟨i, hi, rfl⟩
      rcases List.getElem_of_mem hw with ⟨j, hj, rfl⟩
      rw [List.pairwise_iff_getElem] at hn'
      rcases Nat.lt_trichotomy i j with hij | rfl | hij
      · exact hn' i j hi hj hij (by rw [h, hwo])
      · exact hne rfl
      · exact hn' j i hj hi hij (by rw [h, hwo])
    rw [this]
    exact Or.inr (Or.inl ⟨hwo, hwp⟩)
  · exact Or.inl ⟨hv, h⟩

theorem one_run {ms : List Srv} {out inn : RId} {p : Nat} (hne : out ≠ inn) (hout : out ≠ 0) (h0 : Shape ms out inn p ms) {l : List Act} {s : St}
    (hq : ∀ a ∈ l, OneAct out inn a) (hr : run (St.start ms) l = some s) : One ms out inn p s := by
  refine inv_run' (Q := OneAct out inn) (fun _ _ _ hq h hs => one_step hne hout h0 hq h hs) l _ _ hq ?_ hr
  refine ⟨idx_start ms, rfl, calls_start _ _ ms, fun _ h => (by cases h), fun k v h => (by simp [St.start] at h), fun n => Or.inl rfl,
    fun _ _ h => (by cases h), ?_, fun k h => (by simp [St.start] at h), fun _ _ h => (by cases h), fun k _ _ _ h => (by simp [St.start] at h)⟩
  rintro (⟨c, r, h, _⟩ | h)
  · cases h
  · cases h

/-- Whatever happens (changes of leaders, lost entries, restarts, snapshots, calls that are repeated, that fail, or run at the same time on several
nodes), as long as the only changes asked for are replacements of `out` by `inn` (under any ids and quorums) and the cleaning of tasks: at any time, on
any node, every other member is as it was; nobody else but `inn` has come, and it has the priority of `out` and a vote; nobody is there twice; the
group never gets smaller, and larger by one at most; at most one vote is missing; and when a completion is in the log, `out` is gone and `inn` is there. -/
theorem C84_replacement_partial {ms : List Srv} {out inn : RId} {p : Nat} (hnd : (ids ms).Nodup) (hp : ∃ v ∈ ms, v.id = out ∧ v.prio = p)
    (hin : inn ∉ ids ms) (hout : out ≠ 0) {l : List Act} {s : St}
    (hcalls : ∀ c n k, .call c n k ∈ l → (∃ t q, k = .replace t out inn q) ∨ (∃ t q, k = .clean t q))
    (hr : run (St.start ms) l = some s) (n : RId) :
    (∀ v ∈ ms, v.id ≠ out → v ∈ s.conf n) ∧
    (∀ v ∈ s.conf n, v ∈ ms ∨ v.id = out ∨ v = ⟨inn, false, p⟩) ∧
    (ids (s.conf n)).Nodup ∧
    (out ∈ ids (s.conf n) ∨ inn ∈ ids (s.conf n)) ∧
    (ms.length ≤ (s.conf n).length ∧ (s.conf n).length ≤ ms.length + 1) ∧
    (voters ms).length ≤ (voters (s.conf n)).length + 1 ∧
    (∀ h o i, .complete h o i ∈ s.log.take (s.nodes n).high → out ∉ ids (s.conf n) ∧ ⟨inn, false, p⟩ ∈ s.conf n ∧ (s.conf n).length = ms.length) := by
  have hoi : out ∈ ids ms := by obtain ⟨v, h1, h2, _⟩ := hp; exact mem_ids.2 ⟨v, h1, h2⟩
  have hne : out ≠ inn := fun hc => hin (hc ▸ hoi)
  have hq : ∀ a ∈ l, OneAct out inn a := by
    intro a ha
    cases a with
    | call c n k =>
      rcases hcalls c n k ha with ⟨t, q, rfl⟩ | ⟨t, q, rfl⟩
      · exact ⟨rfl, rfl⟩
      · trivial
    | _ => trivial
  have h0 := shape_start (inn := inn) hnd hp
  have h := one_run hne hout h0 hq hr
  have hinit := h.init
  have hsh := shape_take h.calls.log hne h.adds h0 (s.nodes n).high
  have hei := either_take h.calls.log hne h.rem hoi (s.nodes n).high
  rw [show s.conf n = members ms (s.log.take (s.nodes n).high) from by rw [St.conf, hinit]]
  generalize hM : members ms (s.log.take (s.nodes n).high) = M at hsh hei ⊢
  have hkeep : ∀ i ∈ (ids ms).erase out, i ∈ ids M := by
    intro i hi
    rw [hnd.mem_erase_iff] at hi
    obtain ⟨v, hv, hvi⟩ := mem_ids.1 hi.2
    exact mem_ids.2 ⟨v, hsh.keep v hv (by rw [hvi]; exact hi.1), hvi⟩
  have hlen : ((ids ms).erase out).length + 1 = ms.length := by
    rw [List.length_erase_of_mem hoi, ids, List.length_map]
    have : 0 < ms.length := by
      obtain ⟨v, hv, _⟩ := hp
      exact List.length_pos_of_mem hv
    omega
  have hMl : (ids M).length = M.length := by simp [ids]
  have honly : ∀ i ∈ ids M, i ∈ (ids ms).erase out ∨ i = out ∨ i = inn := by
    intro i hi
    obtain ⟨v, hv, hvi⟩ := mem_ids.1 hi
    rcases hsh.only v hv with ⟨h1, h2⟩ | ⟨h1, _⟩ | h1
    · left; rw [hnd.mem_erase_iff]; exact ⟨by rw [← hvi]; exact h2, mem_ids.2 ⟨v, h1, hvi⟩⟩
    · right; left; rw [← hvi, h1]
    · right; right; rw [← hvi, h1]
  have hlow : ms.length ≤ M.length := by
    obtain ⟨x, hx, hxM⟩ : ∃ x, x ∉ (ids ms).erase out ∧ x ∈ ids M := by
      rcases hei with h1 | h1
      · exact ⟨out, fun hc => (hnd.mem_erase_iff.1 hc).1 rfl, h1⟩
      · exact ⟨inn, fun hc => hin (List.mem_of_mem_erase hc), h1⟩
    have h1 : (x :: (ids ms).erase out).Nodup := List.nodup_cons.2 ⟨hx, hnd.erase out⟩
    have h2 := (List.subperm_of_subset h1 (l₂ := ids M) (fun i hi => by
      rcases List.mem_cons.1 hi with rfl | hi
      · exact hxM
      · exact hkeep i hi)).length_le
    simp only [List.length_cons] at h2
    omega
  refine ⟨hsh.keep, fun v hv => ?_, hsh.nodup, hei, ⟨hlow, ?_⟩, ?_, fun hd o i hc => ?_⟩
  · rcases hsh.only v hv with ⟨h1, _⟩ | ⟨h1, _⟩ | h1
    · exact Or.inl h1
    · exact Or.inr (Or.inl h1)
    · exact Or.inr (Or.inr h1)
  · have h2 := (List.subperm_of_subset hsh.nodup (l₂ := inn :: out :: (ids ms).erase out) (fun i hi => by
      rcases honly i hi with h1 | rfl | rfl
      · exact List.mem_cons_of_mem _ (List.mem_cons_of_mem _ h1)
      · simp
      · simp)).length_le
    simp only [List.length_cons] at h2
    omega
  · have hv : (voters ms).Nodup := List.Nodup.sublist (List.Sublist.map _ (List.filter_sublist)) hnd
    have h2 := (List.subperm_of_subset (hv.erase out) (l₂ := voters M) (fun i hi => by
      rw [hv.mem_erase_iff] at hi
      obtain ⟨v, hv1, hv2⟩ := mem_ids.1 hi.2
      rw [List.mem_filter] at hv1
      exact mem_ids.2 ⟨v, List.mem_filter.2 ⟨hsh.keep v hv1.1 (by rw [hv2]; exact hi.1), hv1.2⟩, hv2⟩)).length_le
    have h3 : (voters ms).length ≤ ((voters ms).erase out).length + 1 := by
      rw [List.length_erase]; split <;> omega
    omega
  · obtain ⟨k, hk, hk'⟩ := List.getElem_of_mem hc
    simp only [List.length_take] at hk
    have hk2 : s.log[k]? = some (.complete hd o i) := by
      rw [List.getElem_take] at hk'
      rw [← hk']; exact List.getElem?_eq_getElem _
    have h1 := h.comp k hd o i hk2
    have h2 : out ∉ ids M := by rw [← hM]; exact stays_gone_take h.calls.log hne (by omega) h1
    have h3 : inn ∈ ids M := by rcases hei with h4 | h4; exact absurd h4 h2; exact h4
    obtain ⟨v, hv1, hv2⟩ := mem_ids.1 h3
    have h4 : v = ⟨inn, false, p⟩ := by
      rcases hsh.only v hv1 with ⟨h5, _⟩ | ⟨h5, _⟩ | h5
      · exact absurd (mem_ids.2 ⟨v, h5, hv2⟩) hin
      · exact absurd (h5.symm.trans hv2) hne
      · exact h5
    refine ⟨h2, h4 ▸ hv1, Nat.le_antisymm ?_ hlow⟩
    have h6 := (List.subperm_of_subset hsh.nodup (l₂ := inn :: (ids ms).erase out) (fun i hi => by
      rcases honly i hi with h1 | rfl | rfl
      · exact List.mem_cons_of_mem _ h1
      · exact absurd hi h2
      · simp)).length_le
    simp only [List.length_cons] at h6
    omega

example : (ids three).Nodup ∧ (∃ v ∈ three, v.id = 3 ∧ v.prio = 60) ∧ 4 ∉ ids three := by decide

/-- A run the theorem is about: the leader changes in the middle, the call is repeated on the new leader, node 2, and completed there. -/
example : (run (St.start three) ([.elect 1 0, .call 0 1 (.replace [65] 3 4 0)] ++ goes 0 4 ++ [.step 0 { active := [2] }] ++ goes 0 3 ++ upTo 1 ++ goes 0 3 ++
    [.elect 2 1, .apply 2, .call 1 2 (.replace [65] 3 4 0)] ++ goes 1 4 ++ [.step 1 { active := [1] }] ++ goes 1 4 ++ goes 1 1 ++ upTo 2 ++ goes 1 3 ++ [.append 0] ++
    upTo 2 ++ [.reap 2 2 true (fun _ => 7) 0] ++ goes 2 3 ++ [.append 0] ++ upTo 2 ++ goes 2 4 ++ upTo 2)).map
    (fun s => ([s.conf 2, s.conf 1], s.calls)) =
    some ([[⟨1, false, 100⟩, ⟨2, false, 50⟩, ⟨4, false, 60⟩], three.set 2 ⟨3, true, 60⟩],
      [some (1, .addLead), some (2, .done .ok 0), some (2, .done .ok 0)]) := by decide +kernel

/-- A replacement on the leader `n` from the check of the configuration on. -/
def replaceRest (c n : Nat) (active : List RId) : List Act :=
  goes c 1 ++ [.step c { active := active }] ++ goes c 3 ++ upTo n ++ goes c 3 ++ upTo n ++ goes c 3 ++ [.append 0] ++ upTo n

/-- The reaper of the leader `n` completes the recorded replacement. -/
def completeOn (c n : Nat) : List Act :=
  [.reap c n true (fun _ => 7) 0] ++ goes c 3 ++ [.append 0] ++ upTo n ++ goes c 4 ++ upTo n

/-- Two replacements, of 3 by 4 and of 2 by 5, are asked for at the same time; both find no other one in progress, and both return OK.  The record of
the first is lost: when the second is completed, no replacement is in progress, 3 is still a member (without a vote) along with 4, and the status
of the first is TASK_NOT_FOUND. -/
theorem C84_two_replacements_violated : ∃ l s, run (St.start three) l = some s ∧
    (s.runs 0).map (fun r => (r.call, r.pc)) = some (.replace [65] 3 4 0, .done .ok 0) ∧
    (s.runs 1).map (fun r => (r.call, r.pc)) = some (.replace [66] 2 5 0, .done .ok 0) ∧
    (s.runs 2).map (·.pc) = some (.done .ok 0) ∧
    s.conf 1 = [⟨1, false, 100⟩, ⟨3, true, 60⟩, ⟨4, false, 60⟩, ⟨5, false, 50⟩] ∧
    ongoing (s.nodes 1).sb = none ∧ openTask s.log = none ∧ (s.nodes 1).applied = s.log.length ∧
    status false true (s.conf 1) (s.nodes 1).sb [65] 3 4 [] = .taskNotFound := by
  exact ⟨_, reaches (ms := three) (l := [.elect 1 0, .call 0 1 (.replace [65] 3 4 0), .call 1 1 (.replace [66] 2 5 0)] ++ goes 0 3 ++ goes 1 3 ++
      replaceRest 0 1 [2, 3] ++ replaceRest 1 1 [2, 3] ++ completeOn 2 1) (by decide +kernel)⟩

/-- Node 2 gets the end of one replacement (of 3 by 4), and all of another (of 1 by 3), with a snapshot.  When it becomes the leader, its
reaper takes the first one for the one in progress, and removes 3, which has come back: nobody asked for that. -/
theorem C84_snapshot_removes_member_violated : ∃ l s, run (St.start three) l = some s ∧
    s.conf 2 = [⟨2, false, 50⟩, ⟨4, false, 60⟩] ∧
    (s.runs 0).map (·.pc) = some (.done .ok 0) ∧ (s.runs 2).map (·.pc) = some (.done .ok 0) ∧
    openTask (s.log.take 10) = none ∧ members three (s.log.take 10) = [⟨2, false, 50⟩, ⟨4, false, 60⟩, ⟨3, false, 100⟩] ∧
    s.log.drop 10 = [.rem 3] ∧
    ∀ c n k, .call c n k ∈ l → (c, n, k) ∈ [(0, 1, .replace [65] 3 4 0), (2, 4, .replace [66] 1 3 0)] := by
  obtain ⟨s, h1, h2⟩ := reaches (ms := three) (l := sampleComplete [65] ++ [.apply 2, .apply 2, .elect 4 5, .apply 4, .apply 4, .apply 4, .apply 4, .apply 4,
      .call 2 4 (.replace [66] 1 3 0)] ++ goes 2 3 ++ replaceRest 2 4 [2] ++ completeOn 3 4 ++
      [.snapshot 2 10, .elect 2 10, .reap 4 2 true (fun _ => 7) 0] ++ goes 4 3 ++ [.append 0] ++ upTo 2)
    (P := fun s => s.conf 2 = [⟨2, false, 50⟩, ⟨4, false, 60⟩] ∧ (s.runs 0).map (·.pc) = some (.done .ok 0) ∧ (s.runs 2).map (·.pc) = some (.done .ok 0) ∧
      openTask (s.log.take 10) = none ∧ members three (s.log.take 10) = [⟨2, false, 50⟩, ⟨4, false, 60⟩, ⟨3, false, 100⟩] ∧
      s.log.drop 10 = [.rem 3]) (by decide +kernel)
  obtain ⟨a, b, c, d, e, f⟩ := h2
  refine ⟨_, s, h1, a, b, c, d, e, f, ?_⟩
  · intro c n k h
    simp [sampleComplete, sampleReplace, goes, upTo, replaceRest, completeOn] at h
    rcases h with h | h
    · obtain ⟨rfl, rfl, rfl⟩ := h; simp
    · obtain ⟨rfl, rfl, rfl⟩ := h; simp

/-- The reaper has decided to complete the replacement when the user takes it back (`clean_replace_member_task` returns OK, and the status is
TASK_NOT_FOUND): the member is removed after that. -/
theorem C84_cleaned_then_removed_violated : ∃ l l' s s', run (St.start three) l = some s ∧ run s l' = some s' ∧
    (s.runs 2).map (fun r => (r.call, r.pc)) = some (.clean [65] 0, .done .ok 0) ∧
    status false true (s.conf 1) (s.nodes 1).sb [65] 3 4 [] = .taskNotFound ∧ ids (s.conf 1) = [1, 2, 3, 4] ∧
    (∀ c n k, .call c n k ∉ l') ∧ ids (s'.conf 1) = [1, 2, 4] := by
  let l := sampleReplace [65] ++ [.reap 1 1 true (fun _ => 7) 0] ++ goes 1 1 ++ [.call 2 1 (.clean [65] 0)] ++ goes 2 3 ++ upTo 1
  let l' := goes 1 2 ++ [.append 0] ++ upTo 1
  obtain ⟨s, h1, h2⟩ := ends (ms := three) (l := l)
    (f := fun s => ((s.runs 2).map (fun r => (r.call, r.pc)), status false true (s.conf 1) (s.nodes 1).sb [65] 3 4 [], ids (s.conf 1),
      (run s l').map fun s' => ids (s'.conf 1)))
    (x := (some (.clean [65] 0, .done .ok 0), .taskNotFound, [1, 2, 3, 4], some [1, 2, 4])) (by decide +kernel)
  simp only [Prod.mk.injEq] at h2
  obtain ⟨a, b, c, d⟩ := h2
  obtain ⟨s', h3, h4⟩ := Option.map_eq_some_iff.1 d
  exact ⟨l, l', s, s', h1, h3, a, b, c, fun c n k h => by simp [l', goes, upTo] at h, h4⟩

/-! ## C85: a change that was reported done was done -/

/-- A call that returns OK after checking, has seen its effect in a configuration its node had during the call: the member that leaves a group
has no vote any more when its replacement was started (other than one that found nothing to do), so has a member whose vote was to be taken away; a
member to be removed was no member. -/
theorem C85_effect_seen_partial {ms : List Srv} {l : List Act} {s : St} (hr : run (St.start ms) l = some s) {c : Nat} {r : Run}
    (hc : s.runs c = some r) {line : Nat} (hp : r.pc = .done .ok line) :
    let had := fun P : List Srv → Prop => ∃ k, r.since ≤ k ∧ k ≤ (s.nodes r.node).high ∧ P (members ms (s.log.take k))
    (∀ t out inn q, r.call = .replace t out inn q → line ≠ 267 → had fun m => ∃ v ∈ m, v.id = out ∧ v.learner = true) ∧
    (∀ m q, r.call = .flip m true q true → had fun x => ∃ v ∈ x, v.id = m ∧ v.learner = true) ∧
    (∀ m q, r.call = .remove m q true → had fun x => m ∉ ids x) ∧
    (∀ t out inn q, r.call = .complete t out inn q → had fun x => out ∉ ids x) := by
  intro had
  have hi := init_run hr
  have key : line ≠ 267 → had r.call.effect := by
    intro hl
    obtain ⟨k, h1, h2, h3⟩ := (seen_run hr).past c r hc (by rw [hp]; simpa [Pc.past] using hl)
    exact ⟨k, h1, h2, by rw [← hi]; exact h3⟩
  have hline : (∀ t o i q, r.call ≠ .replace t o i q) → line ≠ 267 := (line_run hr) c r hc line hp
  refine ⟨fun t o i q h hl => ?_, fun m q h => ?_, fun m q h => ?_, fun t o i q h => ?_⟩
  · have := key hl; rw [h] at this; exact this
  · have := key (hline (by simp [h])); rw [h] at this; exact this
  · have := key (hline (by simp [h])); rw [h] at this; exact this
  · have := key (hline (by simp [h])); rw [h] at this; exact this

example : (run (St.start three) (sampleReplace [65])).map (fun s => ((s.runs 0).map (·.pc), members three (s.log.take 1))) =
    some (some (.done .ok 0), [⟨1, false, 100⟩, ⟨2, false, 50⟩, ⟨3, true, 60⟩]) := by decide +kernel

/-- `flip_learner_flag(m, false)` with verification returns OK only if the node saw `m` without a vote: the check looks for the flag, not
for what was asked. -/
theorem C85_flip_to_voter_checks_the_opposite_violated {ms : List Srv} {l : List Act} {s : St} (hr : run (St.start ms) l = some s) {c : Nat} {r : Run}
    (hc : s.runs c = some r) {m : RId} {q line : Nat} (hk : r.call = .flip m false q true) (hp : r.pc = .done .ok line) :
    ∃ k, r.since ≤ k ∧ k ≤ (s.nodes r.node).high ∧ ∃ v ∈ members ms (s.log.take k), v.id = m ∧ v.learner = true := by
  have hline : line ≠ 267 := (line_run hr) c r hc line hp (by simp [hk])
  obtain ⟨k, h1, h2, h3⟩ := (seen_run hr).past c r hc (by rw [hp]; simpa [Pc.past] using hline)
  rw [hk] at h3
  exact ⟨k, h1, h2, by rw [← init_run hr]; exact h3⟩

/-- So it may return OK for a change that never happens: the entry is lost with the leader. -/
theorem C85_flip_to_voter_lost_violated : ∃ l s, run (St.start [⟨1, false, 9⟩, ⟨2, false, 9⟩, ⟨3, true, 9⟩]) l = some s ∧
    (s.runs 0).map (fun r => (r.call, r.pc)) = some (.flip 3 false 0 true, .done .ok 684) ∧ s.log = [] := by
  obtain ⟨s, h1, h2⟩ := ends (ms := [⟨1, false, 9⟩, ⟨2, false, 9⟩, ⟨3, true, 9⟩])
    (l := [.elect 1 0, .call 0 1 (.flip 3 false 0 true)] ++ goes 0 5 ++ [.elect 2 0])
    (f := fun s => ((s.runs 0).map (fun r => (r.call, r.pc)), s.log)) (x := (some (.flip 3 false 0 true, .done .ok 684), [])) (by decide +kernel)
  simp only [Prod.mk.injEq] at h2
  exact ⟨_, s, h1, h2⟩

/-- And when the change has happened, it does not succeed: once the member has a vote in the node's configuration, the check never holds. -/
theorem C85_flip_to_voter_never_verified_violated {s : St} {c : Nat} {n m : RId} {q p k : Nat} {v : Srv} {a : Ans} {s' : St}
    (hc : s.runs c = some ⟨n, .flip m false q true, .flipVerify, p, k⟩) (hv : getSrv (s.conf n) m = some v) (hl : v.learner = false)
    (hs : step s (.step c a) = some s') : (s'.runs c).map (·.pc) = some (.reset (.err .retry)) := by
  simp only [step, hc, advance, flipArgs, hv, hl, Bool.false_eq_true, if_false] at hs
  split at hs
  · cases hs
  · next h =>
    split at h
    · cases h
    · cases h
      simp only [St.effect, Option.some.injEq] at hs
      subst hs
      simp [upd, Run.after]

/-- The check dereferences a null pointer when the member is removed meanwhile. -/
theorem C85_flip_null_violated : ∃ l s, run (St.start three) l = some s ∧ (s.runs 0).map (fun r => (r.call, r.pc)) = some (.flip 3 true 0 true, .fault) := by
  obtain ⟨s, h1, h2⟩ := ends (ms := three)
    (l := [.elect 1 0, .call 0 1 (.flip 3 true 0 true), .call 1 1 (.remove 3 0 true)] ++ goes 0 4 ++ upTo 1 ++ goes 1 3 ++ [.append 0] ++ upTo 1 ++ goes 0 1)
    (f := fun s => ((s.runs 0).map (fun r => (r.call, r.pc)))) (x := (some (.flip 3 true 0 true, .fault))) (by decide +kernel)
  exact ⟨_, s, h1, h2⟩

end HS.Member
