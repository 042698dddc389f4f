import Verif.Member.One

/-! # Membership: what a call has seen when it succeeds -/

namespace HS.Member

/-- What a call that checks its result has seen in the configuration. -/
def Call.effect : Call → List Srv → Prop
  | .replace _ o _ _, ms => ∃ v ∈ ms, v.id = o ∧ v.learner = true
  | .flip m _ _ true, ms => ∃ v ∈ ms, v.id = m ∧ v.learner = true
  | .complete _ o _ _, ms => o ∉ ids ms
  | .remove m _ true, ms => m ∉ ids ms
  | _, _ => True

/-- Where a call is after that. -/
def Pc.past : Pc → Bool
  | .init | .propose | .addLead | .addCmd => true
  | .reset .ok => true
  | .done .ok l => l ≠ 267
  | _ => false

theorem advance_past {me : RId} {ms : List Srv} {sb : TaskSb} {r : Run} {a : Ans} {pc : Pc} {e : Eff}
    (h : advance me ms sb r a = some (pc, e)) (hp : pc.past = true) : r.pc.past = true ∨ r.call.effect ms := by
  obtain ⟨n, c, p, pr, si⟩ := r
  cases p
  case reset x =>
    simp only [advance, Option.some.injEq, Prod.mk.injEq] at h
    obtain ⟨rfl, rfl⟩ := h
    left
    cases x with
    | ok => rfl
    | err e => cases hp
  all_goals
    rcases c with ⟨t, o, i, q⟩ | ⟨t, o, i, q⟩ | ⟨m, q, _ | _⟩ | ⟨m, f, q, _ | _⟩ | ⟨t, q⟩ <;>
      simp only [advance, flipArgs, remArg, proposal, afterFlip, afterRem, afterPropose, flipChecks, remChecks, reduceCtorEq, if_true, if_false,
        Bool.false_eq_true, beforeSetQ, afterSetQ] at h <;>
      repeat' split at h
  all_goals first
    | (cases h; done)
    | (simp only [Option.some.injEq, Prod.mk.injEq] at h
       obtain ⟨rfl, rfl⟩ := h
       first
         | (simp [Pc.past] at hp; done)
         | exact Or.inl rfl
         | exact Or.inr trivial
         | (next hx =>
              refine Or.inr ?_
              obtain ⟨h1, h2⟩ := getSrv_some (by assumption)
              exact ⟨_, h1, h2, hx⟩)
         | (next hx =>
              refine Or.inr ?_
              simp only [Option.isNone_iff_eq_none] at hx
              exact getSrv_none.1 hx))

/-- A configuration the node has had since the call was made. -/
def Seen (s : St) (r : Run) (P : List Srv → Prop) : Prop :=
  ∃ k, r.since ≤ k ∧ k ≤ (s.nodes r.node).high ∧ P (members s.init (s.log.take k))

structure SeenInv (s : St) : Prop where
  idx : Idx s
  since : ∀ c r, s.runs c = some r → r.since ≤ (s.nodes r.node).high
  past : ∀ c r, s.runs c = some r → r.pc.past = true → Seen s r r.call.effect

theorem seen_mono {s s' : St} {r : Run} {P : List Srv → Prop} (h : Idx s) (h1 : s'.init = s.init)
    (h2 : (s.nodes r.node).high ≤ (s'.nodes r.node).high) (h3 : s'.log.take s.committed = s.log.take s.committed) (hs : Seen s r P) : Seen s' r P := by
  obtain ⟨k, hk1, hk2, hk3⟩ := hs
  refine ⟨k, hk1, Nat.le_trans hk2 h2, ?_⟩
  have hkc : k ≤ s.committed := Nat.le_trans hk2 (h.high _)
  have : s'.log.take k = s.log.take k := by
    have := congrArg (List.take k) h3
    rwa [List.take_take, List.take_take, Nat.min_eq_left hkc] at this
  rw [h1, this]; exact hk3

theorem seen_same {s s' : St} (h : SeenInv s) (hi : Idx s') (h1 : s'.init = s.init) (h2 : ∀ n, (s.nodes n).high ≤ (s'.nodes n).high)
    (h3 : s'.log.take s.committed = s.log.take s.committed)
    (hr : ∀ c r, s'.runs c = some r → ∃ r', s.runs c = some r' ∧ r.node = r'.node ∧ r.call = r'.call ∧ r.since = r'.since ∧
      (r.pc = r'.pc ∨ r.pc.past = false)) : SeenInv s' := by
  refine ⟨hi, fun c r hc => ?_, fun c r hc hp => ?_⟩
  · obtain ⟨r', h4, h5, _, h6, _⟩ := hr c r hc
    rw [h5, h6]; exact Nat.le_trans (h.since c r' h4) (h2 _)
  · obtain ⟨r', h4, h5, h6, h7, h8⟩ := hr c r hc
    rcases h8 with h8 | h8
    · obtain ⟨k, hk⟩ := seen_mono h.idx h1 (h2 _) h3 (h.past c r' h4 (h8 ▸ hp))
      exact ⟨k, by rw [h5, h6, h7]; exact hk⟩
    · rw [h8] at hp; cases hp

theorem same_runs' {s : St} : ∀ c r, s.runs c = some r → ∃ r', s.runs c = some r' ∧ r.node = r'.node ∧ r.call = r'.call ∧ r.since = r'.since ∧
    (r.pc = r'.pc ∨ r.pc.past = false) := fun _ r h => ⟨r, h, rfl, rfl, rfl, Or.inl rfl⟩

theorem seen_new {s : St} (h : SeenInv s) {c : Nat} {n : RId} {k : Call} :
    SeenInv { s with runs := upd s.runs c (some ⟨n, k, .entry, 0, (s.nodes n).high⟩) } := by
  refine ⟨⟨h.idx.app, h.idx.high, h.idx.comm⟩, fun d r hd => ?_, fun d r hd hp => ?_⟩
  · simp only [upd] at hd
    split at hd
    · cases hd; exact Nat.le_refl _
    · exact h.since d r hd
  · simp only [upd] at hd
    split at hd
    · cases hd; cases hp
    · exact h.past d r hd hp

theorem seen_step {s s' : St} {a : Act} (h : SeenInv s) (hs : step s a = some s') : SeenInv s' := by
  have hi := idx_step h.idx hs
  cases a with
  | call c n k =>
    simp only [step] at hs
    split at hs
    · cases hs; exact seen_new h
    · cases hs
  | reap c n b f g =>
    simp only [step] at hs
    split at hs
    · cases hs; exact seen_new h
    · cases hs
  | step c a =>
    obtain ⟨r, pc, e, s1, hr, ha, he, rfl⟩ := step_call hs
    obtain ⟨e1, e2, e3, e4, e5, e6, x, e7⟩ := effect_idx he
    have ht : s1.log.take s.committed = s.log.take s.committed := by rw [e7]; exact take_append_of_le h.idx.comm
    have key : ∀ r0 : Run, Seen s r0 r0.call.effect → Seen { s1 with runs := upd s1.runs c (some (r.after pc e)) } r0 r0.call.effect :=
      fun r0 h0 => seen_mono h.idx e6 (by simp only [e2]; exact Nat.le_refl _) ht h0
    refine ⟨hi, fun d r' hd => ?_, fun d r' hd hp => ?_⟩
    · simp only [upd, effect_runs he] at hd
      split at hd
      · cases hd
        rw [after_since, after_node]
        simp only [e2]; exact h.since c r hr
      · simp only [e2]; exact h.since d r' hd
    · simp only [upd, effect_runs he] at hd
      split at hd
      · cases hd
        rw [after_pc] at hp
        have h0 : Seen s r r.call.effect := by
          rcases advance_past ha hp with h1 | h1
          · exact h.past c r hr h1
          · exact ⟨_, h.since c r hr, Nat.le_refl _, h1⟩
        obtain ⟨k, hk⟩ := key r h0
        exact ⟨k, by rw [after_since, after_node, after_call]; exact hk⟩
      · exact key r' (h.past d r' hd hp)
  | append i =>
    simp only [step] at hs
    split at hs
    · cases hs
    · split at hs
      · cases hs
        exact seen_same h hi rfl (fun _ => Nat.le_refl _) (take_append_of_le h.idx.comm) same_runs'
      · cases hs
  | commit =>
    simp only [step] at hs
    split at hs
    · cases hs; exact seen_same h hi rfl (fun _ => Nat.le_refl _) rfl same_runs'
    · cases hs
  | apply n =>
    simp only [step] at hs
    split at hs
    · split at hs
      · cases hs
      · cases hs
        refine seen_same h hi rfl (fun m => ?_) rfl same_runs'
        simp only [upd]; split
        · next hm => rw [hm]; simp only; omega
        · exact Nat.le_refl _
    · cases hs
  | elect l k =>
    simp only [step] at hs
    split at hs
    · next hc =>
      cases hs
      refine seen_same h hi rfl (fun _ => Nat.le_refl _) ?_ same_runs'
      simp only [List.take_take, Nat.min_eq_left hc.1]
    · cases hs
  | resign =>
    simp only [step] at hs
    cases hs; exact seen_same h hi rfl (fun _ => Nat.le_refl _) rfl same_runs'
  | restart n k =>
    simp only [step] at hs
    split at hs
    · cases hs
      refine seen_same h hi rfl (fun m => ?_) rfl fun c r hc => ?_
      · simp only [upd]; split
        · next hm => rw [hm]; exact Nat.le_refl _
        · exact Nat.le_refl _
      · simp only [Option.map_eq_some_iff] at hc
        obtain ⟨r', h1, h2⟩ := hc
        refine ⟨r', h1, ?_⟩
        rw [← h2]
        split
        · split
          · exact ⟨rfl, rfl, rfl, Or.inl rfl⟩
          · exact ⟨rfl, rfl, rfl, Or.inr rfl⟩
        · exact ⟨rfl, rfl, rfl, Or.inl rfl⟩
    · cases hs
  | snapshot n k =>
    simp only [step] at hs
    split at hs
    · cases hs
      refine seen_same h hi rfl (fun m => ?_) rfl same_runs'
      simp only [upd]; split
      · next hm => rw [hm]; simp only; omega
      · exact Nat.le_refl _
    · cases hs

theorem seen_run {ms : List Srv} {l : List Act} {s : St} (hr : run (St.start ms) l = some s) : SeenInv s :=
  inv_run (fun _ _ _ h hs => seen_step h hs) l _ _
    ⟨idx_start ms, fun _ _ h => (by cases h), fun _ _ h => (by cases h)⟩ hr

theorem init_step {s s' : St} {a : Act} (hs : step s a = some s') : s'.init = s.init := by
  cases a with
  | step c a =>
    obtain ⟨r, pc, e, s1, hr, ha, he, rfl⟩ := step_call hs
    exact (effect_idx he).2.2.2.2.2.1
  | append i =>
    simp only [step] at hs
    split at hs
    · cases hs
    · split at hs <;> cases hs
      rfl
  | apply n =>
    simp only [step] at hs
    split at hs
    · split at hs <;> cases hs
      rfl
    · cases hs
  | resign => simp only [step] at hs; cases hs; rfl
  | _ =>
    simp only [step] at hs
    split at hs <;> cases hs
    rfl

theorem init_run {ms : List Srv} {l : List Act} {s : St} (hr : run (St.start ms) l = some s) : s.init = ms :=
  inv_run (P := fun s => s.init = ms) (fun _ _ _ h hs => (init_step hs).trans h) l _ _ rfl hr

/-- Only a replacement returns by line 267. -/
theorem advance_line {me : RId} {ms : List Srv} {sb : TaskSb} {r : Run} {a : Ans} {o : Out} {line : Nat} {e : Eff}
    (h : advance me ms sb r a = some (.done o line, e)) (hc : ∀ t o i q, r.call ≠ .replace t o i q) : line ≠ 267 := by
  obtain ⟨n, c, p, pr, si⟩ := r
  cases p
  all_goals
    rcases c with ⟨t, o, i, q⟩ | ⟨t, o, i, q⟩ | ⟨m, q, _ | _⟩ | ⟨m, f, q, _ | _⟩ | ⟨t, q⟩ <;>
      simp only [advance, flipArgs, remArg, proposal, afterFlip, afterRem, afterPropose, flipChecks, remChecks, reduceCtorEq, if_true, if_false,
        Bool.false_eq_true, beforeSetQ, afterSetQ] at h <;>
      repeat' split at h
  all_goals first
    | (cases h; done)
    | (cases h; decide)
    | exact absurd rfl (hc _ _ _ _)
    | (simp only [Option.some.injEq, Prod.mk.injEq, reduceCtorEq, false_and] at h; done)

theorem line_run {ms : List Srv} {l : List Act} {s : St} (hr : run (St.start ms) l = some s) :
    ∀ c r, s.runs c = some r → ∀ line, r.pc = .done .ok line → (∀ t o i q, r.call ≠ .replace t o i q) → line ≠ 267 := by
  refine inv_run (P := fun s => ∀ c r, s.runs c = some r → ∀ line, r.pc = .done .ok line → (∀ t o i q, r.call ≠ .replace t o i q) → line ≠ 267)
    (fun s a s' h hs => ?_) l _ _ (fun _ _ h => (by cases h)) hr
  intro d x hd line hx hn
  cases a with
  | call c n k =>
    simp only [step] at hs
    split at hs <;> cases hs
    simp only [upd] at hd
    split at hd
    · cases hd; cases hx
    · exact h d x hd line hx hn
  | reap c n b f g =>
    simp only [step] at hs
    split at hs <;> cases hs
    simp only [upd] at hd
    split at hd
    · cases hd; cases hx
    · exact h d x hd line hx hn
  | step c a =>
    obtain ⟨r, pc, e, s1, hr, ha, he, rfl⟩ := step_call hs
    simp only [upd, effect_runs he] at hd
    split at hd
    · cases hd
      rw [after_pc] at hx
      rw [after_call] at hn
      subst hx
      exact advance_line ha hn
    · exact h d x hd line hx hn
  | append i =>
    simp only [step] at hs
    split at hs
    · cases hs
    · split at hs <;> cases hs
      exact h d x hd line hx hn
  | apply n =>
    simp only [step] at hs
    split at hs
    · split at hs <;> cases hs
      exact h d x hd line hx hn
    · cases hs
  | resign => simp only [step] at hs; cases hs; exact h d x hd line hx hn
  | restart n k =>
    simp only [step] at hs
    split at hs <;> cases hs
    simp only [Option.map_eq_some_iff] at hd
    obtain ⟨y, h1, h2⟩ := hd
    split at h2
    · split at h2
      · subst h2; exact h d _ h1 line hx hn
      · rw [← h2] at hx; cases hx
    · subst h2; exact h d _ h1 line hx hn
  | commit =>
    simp only [step] at hs
    split at hs <;> cases hs
    exact h d x hd line hx hn
  | elect l k =>
    simp only [step] at hs
    split at hs <;> cases hs
    exact h d x hd line hx hn
  | snapshot n k =>
    simp only [step] at hs
    split at hs <;> cases hs
    exact h d x hd line hx hn

end HS.Member
