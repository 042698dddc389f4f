import Verif.Member.Model

/-! # Membership: lemmas -/

namespace HS.Member

theorem inv_run {P : St → Prop} (hstep : ∀ s a s', P s → step s a = some s' → P s') :
    ∀ (l : List Act) (s s' : St), P s → run s l = some s' → P s' := by
  intro l
  induction l with
  | nil => intro s s' h hr; simp only [run, Option.some.injEq] at hr; exact hr ▸ h
  | cons a l ih =>
    intro s s' h hr
    simp only [run] at hr
    cases hs : step s a with
    | none => rw [hs] at hr; cases hr
    | some s1 => rw [hs] at hr; exact ih s1 s' (hstep s a s1 h hs) hr

/-- The same, if all the acts of the run meet `Q`. -/
theorem inv_run' {P : St → Prop} {Q : Act → Prop} (hstep : ∀ s a s', Q a → P s → step s a = some s' → P s') :
    ∀ (l : List Act) (s s' : St), (∀ a ∈ l, Q a) → P s → run s l = some s' → P s' := by
  intro l
  induction l with
  | nil => intro s s' _ h hr; simp only [run, Option.some.injEq] at hr; exact hr ▸ h
  | cons a l ih =>
    intro s s' hq h hr
    simp only [run] at hr
    cases hs : step s a with
    | none => rw [hs] at hr; cases hr
    | some s1 =>
      rw [hs] at hr
      exact ih s1 s' (fun b hb => hq b (List.mem_cons_of_mem _ hb)) (hstep s a s1 (hq a (List.mem_cons_self ..)) h hs) hr

theorem run_append (l1 l2 : List Act) (s : St) : run s (l1 ++ l2) = (run s l1).bind fun s' => run s' l2 := by
  induction l1 generalizing s with
  | nil => rfl
  | cons a l ih =>
    simp only [List.cons_append, run]
    cases step s a with
    | none => rfl
    | some s1 => exact ih s1

theorem upd_same {β : Type} (f : Nat → β) (i : Nat) (x : β) : upd f i x i = x := by simp [upd]
theorem upd_ne {β : Type} (f : Nat → β) {i j : Nat} (x : β) (h : j ≠ i) : upd f i x j = f j := by simp [upd, h]

/-- A step of a call, taken apart. -/
theorem step_call {s s' : St} {c : Nat} {a : Ans} (h : step s (.step c a) = some s') :
    ∃ r pc e s1, s.runs c = some r ∧ advance r.node (s.conf r.node) (s.nodes r.node).sb r a = some (pc, e) ∧
      s.effect r.node e = some s1 ∧ s' = { s1 with runs := upd s1.runs c (some (r.after pc e)) } := by
  simp only [step] at h
  cases hr : s.runs c with
  | none => rw [hr] at h; cases h
  | some r =>
    rw [hr] at h
    simp only at h
    cases ha : advance r.node (s.conf r.node) (s.nodes r.node).sb r a with
    | none => rw [ha] at h; cases h
    | some x =>
      obtain ⟨pc, e⟩ := x
      rw [ha] at h
      simp only at h
      cases he : s.effect r.node e with
      | none => rw [he] at h; cases h
      | some s1 =>
        rw [he] at h
        simp only [Option.some.injEq] at h
        exact ⟨r, pc, e, s1, rfl, ha, he, h.symm⟩

/-- What an effect may change. -/
theorem effect_cases {s s1 : St} {n : RId} {e : Eff} (h : s.effect n e = some s1) :
    (s1 = s ∧ (e = .none ∨ ∃ p, e = .prio p)) ∨
    (∃ q, e = .quorum q ∧ s1 = { s with nodes := upd s.nodes n { s.nodes n with quorum := q } }) ∨
    (∃ x, e = .append x ∧ s.leader = some n ∧ s.accepts x = true ∧ s1 = { s with log := s.log ++ [x] }) ∨
    (∃ x, e = .submit x ∧ s.leader = some n ∧ s1 = { s with pend := s.pend ++ [x] }) := by
  cases e with
  | none => simp only [St.effect, Option.some.injEq] at h; exact Or.inl ⟨h.symm, Or.inl rfl⟩
  | prio p => simp only [St.effect, Option.some.injEq] at h; exact Or.inl ⟨h.symm, Or.inr ⟨p, rfl⟩⟩
  | quorum q =>
    simp only [St.effect, Option.some.injEq] at h
    exact Or.inr (Or.inl ⟨q, rfl, h.symm⟩)
  | append x =>
    simp only [St.effect] at h
    by_cases hc : s.leader = some n ∧ s.accepts x = true
    · rw [if_pos hc] at h
      simp only [Option.some.injEq] at h
      exact Or.inr (Or.inr (Or.inl ⟨x, rfl, hc.1, hc.2, h.symm⟩))
    · rw [if_neg hc] at h; cases h
  | submit x =>
    simp only [St.effect] at h
    by_cases hc : s.leader = some n
    · rw [if_pos hc] at h
      simp only [Option.some.injEq] at h
      exact Or.inr (Or.inr (Or.inr ⟨x, rfl, hc, h.symm⟩))
    · rw [if_neg hc] at h; cases h

theorem effect_runs {s s1 : St} {n : RId} {e : Eff} (h : s.effect n e = some s1) : s1.runs = s.runs := by
  rcases effect_cases h with ⟨h, _⟩ | ⟨_, _, h⟩ | ⟨_, _, _, _, h⟩ | ⟨_, _, _, h⟩ <;> subst h <;> rfl

/-! ## The order of the indices -/

structure Idx (s : St) : Prop where
  app : ∀ n, (s.nodes n).applied ≤ (s.nodes n).high
  high : ∀ n, (s.nodes n).high ≤ s.committed
  comm : s.committed ≤ s.log.length

theorem idx_start (ms : List Srv) : Idx (St.start ms) := ⟨fun _ => Nat.le_refl _, fun _ => Nat.le_refl _, Nat.le_refl _⟩

/-- What a node has in common before and after, as far as the log is concerned. -/
theorem idx_of {s s' : St} (h : Idx s) (ha : ∀ n, (s'.nodes n).applied = (s.nodes n).applied) (hh : ∀ n, (s'.nodes n).high = (s.nodes n).high)
    (hc : s'.committed = s.committed) (hl : s.log.length ≤ s'.log.length) : Idx s' :=
  ⟨fun n => by rw [ha, hh]; exact h.app n, fun n => by rw [hh, hc]; exact h.high n, by rw [hc]; exact Nat.le_trans h.comm hl⟩

theorem effect_idx {s s1 : St} {n : RId} {e : Eff} (h : s.effect n e = some s1) :
    (∀ m, (s1.nodes m).applied = (s.nodes m).applied) ∧ (∀ m, (s1.nodes m).high = (s.nodes m).high) ∧
    (∀ m, (s1.nodes m).sb = (s.nodes m).sb) ∧ (∀ m, (s1.nodes m).snap = (s.nodes m).snap) ∧
    s1.committed = s.committed ∧ s1.init = s.init ∧ ∃ x, s1.log = s.log ++ x := by
  rcases effect_cases h with ⟨h, _⟩ | ⟨_, _, h⟩ | ⟨_, _, _, _, h⟩ | ⟨_, _, _, h⟩ <;> subst h
  · exact ⟨fun _ => rfl, fun _ => rfl, fun _ => rfl, fun _ => rfl, rfl, rfl, [], by simp⟩
  · refine ⟨fun m => ?_, fun m => ?_, fun m => ?_, fun m => ?_, rfl, rfl, [], by simp⟩ <;>
    · simp only [upd]; split
      · next h => rw [h]
      · rfl
  · exact ⟨fun _ => rfl, fun _ => rfl, fun _ => rfl, fun _ => rfl, rfl, rfl, _, rfl⟩
  · exact ⟨fun _ => rfl, fun _ => rfl, fun _ => rfl, fun _ => rfl, rfl, rfl, [], by simp⟩

theorem idx_step {s s' : St} {a : Act} (h : Idx s) (hs : step s a = some s') : Idx s' := by
  cases a with
  | call c n k =>
    simp only [step] at hs
    split at hs
    · cases hs; exact ⟨h.app, h.high, h.comm⟩
    · cases hs
  | reap c n b f g =>
    simp only [step] at hs
    split at hs
    · cases hs; exact ⟨h.app, h.high, h.comm⟩
    · cases hs
  | step c a =>
    obtain ⟨r, pc, e, s1, _, _, he, rfl⟩ := step_call hs
    obtain ⟨h1, h2, _, _, h3, _, x, h4⟩ := effect_idx he
    exact idx_of h h1 h2 h3 (by simp [h4])
  | append i =>
    simp only [step] at hs
    split at hs
    · cases hs
    · split at hs
      · cases hs; exact idx_of h (fun _ => rfl) (fun _ => rfl) rfl (by simp)
      · cases hs
  | commit =>
    simp only [step] at hs
    split at hs
    · cases hs
      next hc => exact ⟨h.app, fun n => Nat.le_succ_of_le (h.high n), hc⟩
    · cases hs
  | apply n =>
    simp only [step] at hs
    split at hs
    · next hc =>
      split at hs
      · cases hs
      · cases hs
        refine ⟨fun m => ?_, fun m => ?_, h.comm⟩
        · simp only [upd]; split
          · simp only; omega
          · exact h.app m
        · simp only [upd]; split
          · have := h.high n; simp only; omega
          · exact h.high m
    · cases hs
  | elect l k =>
    simp only [step] at hs
    split at hs
    · cases hs
      next hc => exact ⟨h.app, h.high, by simp only [List.length_take]; omega⟩
    · cases hs
  | resign =>
    simp only [step] at hs
    cases hs; exact ⟨h.app, h.high, h.comm⟩
  | restart n k =>
    simp only [step] at hs
    split at hs
    · cases hs
      next hc =>
      refine ⟨fun m => ?_, fun m => ?_, h.comm⟩
      · simp only [upd]; split
        · have := h.app n; simp only; omega
        · exact h.app m
      · simp only [upd]; split
        · exact h.high n
        · exact h.high m
    · cases hs
  | snapshot n k =>
    simp only [step] at hs
    split at hs
    · cases hs
      next hc =>
      refine ⟨fun m => ?_, fun m => ?_, h.comm⟩
      · simp only [upd]; split
        · simp only; omega
        · exact h.app m
      · simp only [upd]; split
        · have := h.high n; simp only; omega
        · exact h.high m
    · cases hs

theorem idx_run {ms : List Srv} {l : List Act} {s : St} (hr : run (St.start ms) l = some s) : Idx s :=
  inv_run (fun _ _ _ h hs => idx_step h hs) l _ _ (idx_start ms) hr

/-! ## The quorum -/

/-- The calls that return without resetting the quorum. -/
def Run.leaves (r : Run) : Prop :=
  (∃ t o i q, r.call = .replace t o i q ∧ (r.pc = .done (.err .notLeader) 246 ∨ r.pc = .done .ok 267)) ∨
  (∃ m f q v, r.call = .flip m f q v ∧ r.pc = .done .ok 684)

/-- Has a call set the quorum, if it was to set it, and not reset it? -/
def Run.holds (r : Run) : Prop :=
  match r.pc with
  | .entry | .setQ _ | .lost => False
  | .done _ _ => r.leaves
  | _ => True

theorem after_node (r : Run) (pc : Pc) (e : Eff) : (r.after pc e).node = r.node := by cases e <;> rfl
theorem after_call (r : Run) (pc : Pc) (e : Eff) : (r.after pc e).call = r.call := by cases e <;> rfl
theorem after_pc (r : Run) (pc : Pc) (e : Eff) : (r.after pc e).pc = pc := by cases e <;> rfl
theorem after_since (r : Run) (pc : Pc) (e : Eff) : (r.after pc e).since = r.since := by cases e <;> rfl

theorem leaves_after (r : Run) (pc : Pc) (e : Eff) : (r.after pc e).leaves ↔
    ((∃ t o i q, r.call = .replace t o i q ∧ (pc = .done (.err .notLeader) 246 ∨ pc = .done .ok 267)) ∨
      (∃ m f q v, r.call = .flip m f q v ∧ pc = .done .ok 684)) := by
  rw [Run.leaves, after_call, after_pc]

/-- A call that has set the quorum keeps it or resets it. -/
theorem holds_advance {me : RId} {ms : List Srv} {sb : TaskSb} {r : Run} {a : Ans} {pc : Pc} {e : Eff}
    (h : advance me ms sb r a = some (pc, e)) (hh : r.holds) : (r.after pc e).holds ∨ e = .quorum 0 := by
  unfold Run.holds at hh
  unfold Run.holds
  rw [after_pc]
  obtain ⟨n, c, p, pr, si⟩ := r
  cases p <;> simp only at hh
  case done => simp [advance] at h
  case fault => simp [advance] at h
  all_goals
    rcases c with ⟨t, o, i, q⟩ | ⟨t, o, i, q⟩ | ⟨m, q, _ | _⟩ | ⟨m, f, q, _ | _⟩ | ⟨t, q⟩ <;>
      simp only [advance, flipArgs, remArg, proposal, afterFlip, afterRem, afterPropose, flipChecks, remChecks, reduceCtorEq, if_true, if_false,
        Bool.false_eq_true] at h <;>
      repeat' split at h
  all_goals first
    | (cases h; done)
    | (simp only [Option.some.injEq, Prod.mk.injEq, reduceCtorEq] at h
       obtain ⟨rfl, rfl⟩ := h
       first
         | exact Or.inr rfl
         | exact Or.inl trivial
         | exact Or.inl ((leaves_after _ _ _).2 (by simp))
         | (split <;> first
              | exact Or.inl trivial
              | exact Or.inl ((leaves_after _ _ _).2 (by simp))))

theorem holds_iff_after (r : Run) (pc : Pc) (e : Eff) (h : pc ≠ .entry) (h1 : ∀ l, pc ≠ .setQ l) (h2 : pc ≠ .lost) (h3 : ∀ o l, pc ≠ .done o l) :
    (r.after pc e).holds := by
  unfold Run.holds
  rw [after_pc]
  cases pc <;> simp_all

/-- The quorum is set to the one asked for, or reset. -/
theorem quorum_advance {me : RId} {ms : List Srv} {sb : TaskSb} {r : Run} {a : Ans} {pc : Pc} {q : Nat}
    (h : advance me ms sb r a = some (pc, .quorum q)) : q = 0 ∨ (q = r.call.quorum ∧ (r.after pc (.quorum q)).holds) := by
  obtain ⟨n, c, p, pr, si⟩ := r
  cases p
  case setQ l =>
    simp only [advance, Option.some.injEq, Prod.mk.injEq, Eff.quorum.injEq] at h
    obtain ⟨rfl, rfl⟩ := h
    refine Or.inr ⟨rfl, holds_iff_after _ _ _ ?_ ?_ ?_ ?_⟩ <;> cases c <;> simp [afterSetQ]
  case reset o =>
    simp only [advance, Option.some.injEq, Prod.mk.injEq, Eff.quorum.injEq] at h
    exact Or.inl h.2.symm
  all_goals exfalso
  all_goals
    rcases c with ⟨t, o, i, q⟩ | ⟨t, o, i, q⟩ | ⟨m, q, _ | _⟩ | ⟨m, f, q, _ | _⟩ | ⟨t, q⟩ <;>
      simp only [advance, flipArgs, remArg, proposal, afterFlip, afterRem, afterPropose, flipChecks, remChecks, reduceCtorEq, if_true, if_false,
        Bool.false_eq_true] at h <;>
      repeat' split at h
  all_goals first
    | (cases h; done)
    | (simp only [Option.some.injEq, Prod.mk.injEq, reduceCtorEq, and_false] at h; done)
    | (simp only [ifEff, Option.some.injEq, Prod.mk.injEq] at h
       have h := h.2
       split at h <;> cases h)

/-- Whoever set the quorum is still at work, or has left it behind. -/
def QInv (s : St) : Prop :=
  ∀ n, (s.nodes n).quorum ≠ 0 → ∃ c r, s.runs c = some r ∧ r.node = n ∧ r.call.quorum = (s.nodes n).quorum ∧ r.holds

theorem qinv_of {s s' : St} (h : QInv s) (hq : ∀ n, (s'.nodes n).quorum = (s.nodes n).quorum)
    (hr : ∀ c r, s.runs c = some r → s'.runs c = some r) : QInv s' := by
  intro n hn
  rw [hq] at hn ⊢
  obtain ⟨c, r, h1, h2, h3, h4⟩ := h n hn
  exact ⟨c, r, hr c r h1, h2, h3, h4⟩

theorem upd_new {s : St} {c : Nat} {x : Run} (h : s.runs c = none) : ∀ d r, s.runs d = some r → upd s.runs c (some x) d = some r := by
  intro d r hd
  simp only [upd]
  split
  · next he => rw [he, h] at hd; cases hd
  · exact hd

theorem qinv_step {s s' : St} {a : Act} (h : QInv s) (hs : step s a = some s') : QInv s' := by
  cases a with
  | call c n k =>
    simp only [step] at hs
    split at hs
    · next hc => cases hs; exact qinv_of h (fun _ => rfl) (upd_new hc.1)
    · cases hs
  | reap c n b f g =>
    simp only [step] at hs
    split at hs
    · next hc => cases hs; exact qinv_of h (fun _ => rfl) (upd_new hc.1)
    · cases hs
  | step c a =>
    obtain ⟨r, pc, e, s1, hr, ha, he, rfl⟩ := step_call hs
    intro n hn
    simp only [effect_runs he] at hn ⊢
    by_cases hq : ∃ q, e = .quorum q ∧ r.node = n
    · obtain ⟨q, rfl, hn'⟩ := hq
      simp only [St.effect, Option.some.injEq] at he
      subst he
      simp only [hn', upd_same] at hn ⊢
      rcases quorum_advance ha with h0 | ⟨h1, h2⟩
      · exact absurd h0 hn
      · exact ⟨c, _, upd_same _ _ _, by rw [after_node]; exact hn', by rw [after_call]; exact h1.symm, h2⟩
    · have hqn : (s1.nodes n).quorum = (s.nodes n).quorum := by
        rcases effect_cases he with ⟨rfl, _⟩ | ⟨q, rfl, rfl⟩ | ⟨_, _, _, _, rfl⟩ | ⟨_, _, _, rfl⟩
        · rfl
        · simp only [upd]
          split
          · next h' => exact absurd ⟨q, rfl, h'.symm⟩ hq
          · rfl
        · rfl
        · rfl
      rw [hqn] at hn ⊢
      obtain ⟨d, r', h1, h2, h3, h4⟩ := h n hn
      by_cases hd : d = c
      · subst hd
        rw [hr] at h1
        cases h1
        rcases holds_advance ha h4 with h5 | h5
        · exact ⟨d, _, upd_same _ _ _, by rw [after_node]; exact h2, by rw [after_call]; exact h3, h5⟩
        · exact absurd ⟨0, h5, h2⟩ hq
      · exact ⟨d, r', by rw [upd_ne _ _ hd]; exact h1, h2, h3, h4⟩
  | append i =>
    simp only [step] at hs
    split at hs
    · cases hs
    · split at hs
      · cases hs; exact qinv_of h (fun _ => rfl) fun _ _ hc => hc
      · cases hs
  | commit =>
    simp only [step] at hs
    split at hs
    · cases hs; exact qinv_of h (fun _ => rfl) fun _ _ hc => hc
    · cases hs
  | apply n =>
    simp only [step] at hs
    split at hs
    · split at hs
      · cases hs
      · cases hs
        refine qinv_of h (fun m => ?_) fun _ _ hc => hc
        simp only [upd]; split
        · next h' => rw [h']
        · rfl
    · cases hs
  | elect l k =>
    simp only [step] at hs
    split at hs
    · cases hs; exact qinv_of h (fun _ => rfl) fun _ _ hc => hc
    · cases hs
  | resign =>
    simp only [step] at hs
    cases hs; exact qinv_of h (fun _ => rfl) fun _ _ hc => hc
  | restart n k =>
    simp only [step] at hs
    split at hs
    · cases hs
      intro m hm
      simp only [upd] at hm ⊢
      by_cases hmn : m = n
      · rw [if_pos hmn] at hm; exact absurd rfl hm
      · rw [if_neg hmn] at hm ⊢
        obtain ⟨d, r', h1, h2, h3, h4⟩ := h m hm
        refine ⟨d, r', ?_, h2, h3, h4⟩
        rw [h1]
        simp only [Option.map_some, h2, if_neg hmn]
    · cases hs
  | snapshot n k =>
    simp only [step] at hs
    split at hs
    · cases hs
      refine qinv_of h (fun m => ?_) fun _ _ hc => hc
      simp only [upd]; split
      · next h' => rw [h']
      · rfl
    · cases hs

theorem qinv_run {ms : List Srv} {l : List Act} {s : St} (hr : run (St.start ms) l = some s) : QInv s :=
  inv_run (fun _ _ _ h hs => qinv_step h hs) l _ _ (fun n hn => absurd rfl hn) hr

end HS.Member
