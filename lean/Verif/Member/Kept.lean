import Verif.Member.Lemmas

/-! # Membership: a call alone on its node keeps the quorum it has set -/

namespace HS.Member

/-- A call that holds the quorum has just set it, or held it before and left it alone. -/
theorem holds_from {me : RId} {ms : List Srv} {sb : TaskSb} {r : Run} {a : Ans} {pc : Pc} {e : Eff}
    (h : advance me ms sb r a = some (pc, e)) (hq : r.call.quorum ≠ 0) (hh : (r.after pc e).holds)
    (hd : ∀ o l, pc ≠ .done o l) :
    e = .quorum r.call.quorum ∨ (r.holds ∧ ∀ q, e ≠ .quorum q) := by
  unfold Run.holds at hh ⊢
  rw [after_pc] at hh
  obtain ⟨n, c, p, pr, si⟩ := r
  have hq' : c.quorum ≥ 1 := Nat.pos_of_ne_zero hq
  cases p
  all_goals
    rcases c with ⟨t, o, i, q⟩ | ⟨t, o, i, q⟩ | ⟨m, q, _ | _⟩ | ⟨m, f, q, _ | _⟩ | ⟨t, q⟩ <;>
      simp only [advance, flipArgs, remArg, proposal, afterFlip, afterRem, afterPropose, flipChecks, remChecks, reduceCtorEq, if_true, if_false,
        Bool.false_eq_true, beforeSetQ, hq'] at h <;>
      repeat' split at h
  all_goals first
    | (cases h; done)
    | (simp only [Option.some.injEq, Prod.mk.injEq] at h
       obtain ⟨rfl, rfl⟩ := h
       first
         | exact absurd rfl (hd _ _)
         | exact Or.inl rfl
         | exact Or.inr ⟨trivial, fun _ h => (by cases h)⟩
         | exact hh.elim
         | (rw [leaves_after] at hh; simp at hh; done)
         | (refine Or.inr ⟨trivial, fun q hc => ?_⟩
            simp only [ifEff] at hc
            split at hc <;> cases hc))

/-- The quorum of a node on which only one call was made. -/
def KInv (s : St) : Prop :=
  ∀ c r, s.runs c = some r → (∀ d r', s.runs d = some r' → r'.node = r.node → d = c) → r.call.quorum ≠ 0 → r.holds →
    (∀ o l, r.pc ≠ .done o l) →
    (s.nodes r.node).quorum = r.call.quorum

theorem kinv_of {s s' : St} (h : KInv s) (hq : ∀ n, (s'.nodes n).quorum = (s.nodes n).quorum) (hr : s'.runs = s.runs) : KInv s' := by
  intro c r hc hu hn hh hx
  rw [hq]
  rw [hr] at hc hu
  exact h c r hc hu hn hh hx

theorem kinv_new {s : St} (h : KInv s) {c : Nat} {n : RId} {k : Call} {j : Nat} (hc : s.runs c = none) :
    KInv { s with runs := upd s.runs c (some ⟨n, k, .entry, 0, j⟩) } := by
  intro d r hd hu hn hh hx
  simp only at hd hu ⊢
  by_cases hdc : d = c
  · subst hdc
    rw [upd_same] at hd
    cases hd
    exact absurd hh (by simp [Run.holds])
  · rw [upd_ne _ _ hdc] at hd
    exact h d r hd (fun e r' he hr' => hu e r' (upd_new hc e r' he) hr') hn hh hx

theorem kinv_step {s s' : St} {a : Act} (h : KInv s) (hs : step s a = some s') : KInv s' := by
  cases a with
  | call c n k =>
    simp only [step] at hs
    split at hs
    · next hc => cases hs; exact kinv_new h hc.1
    · cases hs
  | reap c n b f g =>
    simp only [step] at hs
    split at hs
    · next hc => cases hs; exact kinv_new h hc.1
    · cases hs
  | step c a =>
    obtain ⟨r, pc, e, s1, hr, ha, he, rfl⟩ := step_call hs
    have hru := effect_runs he
    intro d x hd hu hn hh hx
    simp only at hd hu ⊢
    -- the calls there were before
    have hold : ∀ y, s.runs d = some y → y.node = x.node → ∀ e' r', s.runs e' = some r' → r'.node = y.node → e' = d := by
      intro y hy hyx e' r' he' hr'
      by_cases hec : e' = c
      · subst hec
        rw [hr] at he'
        cases he'
        exact hu e' (r.after pc e) (upd_same _ _ _) (by rw [after_node, hr', hyx])
      · exact hu e' r' (by rw [upd_ne _ _ hec, hru]; exact he') (by rw [hr', hyx])
    by_cases hdc : d = c
    · subst hdc
      rw [upd_same] at hd
      cases hd
      rw [after_call] at hn
      rw [after_node, after_call]
      have hu' := hold r hr (by rw [after_node])
      rw [after_pc] at hx
      rcases holds_from ha hn hh hx with rfl | ⟨h1, h2⟩
      · simp only [St.effect, Option.some.injEq] at he
        subst he
        simp [upd]
      · have h4 : ∀ o l, r.pc ≠ .done o l := fun o l hc => by simp [advance, hc] at ha
        have h3 := h d r hr hu' hn h1 h4
        rcases effect_cases he with ⟨rfl, _⟩ | ⟨q, rfl, rfl⟩ | ⟨_, _, _, _, rfl⟩ | ⟨_, _, _, rfl⟩
        · exact h3
        · exact absurd rfl (h2 q)
        · exact h3
        · exact h3
    · rw [upd_ne _ _ hdc, hru] at hd
      have h3 := h d x hd (hold x hd rfl) hn hh hx
      rcases effect_cases he with ⟨rfl, _⟩ | ⟨q, rfl, rfl⟩ | ⟨_, _, _, _, rfl⟩ | ⟨_, _, _, rfl⟩
      · exact h3
      · have hne : x.node ≠ r.node := fun hc =>
          hdc (hold x hd rfl c r hr hc.symm).symm
        simp only [upd, hne, if_false]
        exact h3
      · exact h3
      · exact h3
  | append i =>
    simp only [step] at hs
    split at hs
    · cases hs
    · split at hs
      · cases hs; exact kinv_of h (fun _ => rfl) rfl
      · cases hs
  | commit =>
    simp only [step] at hs
    split at hs
    · cases hs; exact kinv_of h (fun _ => rfl) rfl
    · cases hs
  | apply n =>
    simp only [step] at hs
    split at hs
    · split at hs
      · cases hs
      · cases hs
        refine kinv_of h (fun m => ?_) rfl
        simp only [upd]
        split
        · next hm => rw [hm]
        · rfl
    · cases hs
  | elect l k =>
    simp only [step] at hs
    split at hs
    · cases hs; exact kinv_of h (fun _ => rfl) rfl
    · cases hs
  | resign =>
    simp only [step] at hs
    cases hs; exact kinv_of h (fun _ => rfl) rfl
  | restart n k =>
    simp only [step] at hs
    split at hs
    · cases hs
      intro c x hc hu hn hh hx
      simp only [Option.map_eq_some_iff] at hc
      obtain ⟨y, h1, h2⟩ := hc
      by_cases hy : y.node = n
      · rw [if_pos hy] at h2
        split at h2
        · next hp => rw [← h2] at hx; exact absurd hp (hx _ _)
        · rw [← h2] at hh; exact absurd hh (by simp [Run.holds])
      · rw [if_neg hy] at h2
        subst h2
        simp only [upd, hy, if_false]
        refine h c y h1 (fun d r' hd hr' => ?_) hn hh hx
        refine hu d r' ?_ hr'
        rw [Option.map_eq_some_iff]
        exact ⟨r', hd, by rw [if_neg (by rw [hr']; exact hy)]⟩
    · cases hs
  | snapshot n k =>
    simp only [step] at hs
    split at hs
    · cases hs
      refine kinv_of h (fun m => ?_) rfl
      simp only [upd]
      split
      · next hm => rw [hm]
      · rfl
    · cases hs

theorem kinv_run {ms : List Srv} {l : List Act} {s : St} (hr : run (St.start ms) l = some s) : KInv s :=
  inv_run (fun _ _ _ h hs => kinv_step h hs) l _ _ (fun _ _ h => (by cases h)) hr

end HS.Member
