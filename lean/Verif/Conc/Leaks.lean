import Verif.Conc.Progress

/-!
# The lock of the tree that is not released
-/

namespace HS.Conc

variable {s s' : St}

theorem take_leaks (t n : Nat) (w : Bool) : (s.take t n w).leaks = s.leaks := by cases w <;> rfl
theorem take_cp (t n : Nat) (w : Bool) : (s.take t n w).cp = s.cp := by cases w <;> rfl
theorem take_tcp (t n : Nat) (w : Bool) : (s.take t n w).tcp = s.tcp := by cases w <;> rfl
theorem take_pcs (t n : Nat) (w : Bool) : (s.take t n w).pcs = s.pcs := by cases w <;> rfl
theorem take_tr (t n : Nat) (w : Bool) : (s.take t n w).tr = s.tr := by cases w <;> rfl
theorem take_nt (t n : Nat) (w : Bool) : (s.take t n w).nt = s.nt := by cases w <;> rfl
theorem atLeaf_leaks (t n : Nat) (o : Op) : (s.atLeaf t n o).leaks = s.leaks := by
  simp only [St.atLeaf]
  split <;> rfl
theorem atLeaf_cp (t n : Nat) (o : Op) : (s.atLeaf t n o).cp = s.cp ∧ (s.atLeaf t n o).tcp = s.tcp ∧ (s.atLeaf t n o).ncp = s.ncp := by
  simp only [St.atLeaf]
  split <;> exact ⟨rfl, rfl, rfl⟩
theorem atLeaf_tr (t n : Nat) (o : Op) : (s.atLeaf t n o).tr = s.tr ++ [.point t o (leafCall (s.nodes n).es o).2] := by
  simp only [St.atLeaf]
  split <;> rfl
theorem atLeaf_pcs (t n : Nat) (o : Op) : (s.atLeaf t n o).pcs = fun x => if x = t then .fin (leafCall (s.nodes n).es o).2 else s.pcs x := by
  simp only [St.atLeaf]
  split <;> rfl
theorem atLeaf_nt (t n : Nat) (o : Op) : (s.atLeaf t n o).nt = s.nt := by
  simp only [St.atLeaf]
  split <;> rfl

/-- The thread of an event. -/
def Ev.thread : Ev → Nat
  | .call t _ => t
  | .point t _ _ => t
  | .ret t _ => t

/-- A step of one thread leaves the others where they are; what happens is its own; leaked locks stay. -/
theorem step_others {t : Nat} {a : Act} (hs : step s t a = some s') :
    s'.nt = s.nt ∧ s.leaks ≤ s'.leaks ∧ (∀ u, u ≠ t → s'.pcs u = s.pcs u) ∧ ∃ ext, s'.tr = s.tr ++ ext ∧ ∀ e ∈ ext, e.thread = t := by
  simp only [step] at hs
  repeat' split at hs
  all_goals first
    | (cases hs; done)
    | (cases hs
       refine ⟨by simp [St.goto, St.emit, St.stamp, St.split, St.splitRoot, St.merge, St.collapse, St.set, take_nt, atLeaf_nt],
         by simp [St.goto, St.emit, St.stamp, St.split, St.splitRoot, St.merge, St.collapse, St.set, take_leaks, atLeaf_leaks],
         fun u hu => by simp [St.goto, St.emit, St.stamp, St.split, St.splitRoot, St.merge, St.collapse, St.set, take_pcs, atLeaf_pcs, hu],
         ?_⟩
       simp only [St.goto, St.emit, St.stamp, St.split, St.splitRoot, St.merge, St.collapse, St.set, take_tr, atLeaf_tr]
       first
         | exact ⟨_, rfl, by simp [Ev.thread]⟩
         | exact ⟨[], by simp, by simp⟩)

/-- A thread that waits for the tree lock exclusively waits for ever if the lock was leaked. -/
theorem stuck_step {t : Nat} {o : Op} (hl : 0 < s.leaks) (hp : s.pcs t = .excl o) {u : Nat} {a : Act} (hs : step s u a = some s') :
    0 < s'.leaks ∧ s'.pcs t = .excl o ∧ ∃ ext, s'.tr = s.tr ++ ext ∧ ∀ e ∈ ext, e.thread ≠ t := by
  obtain ⟨_, h1, h2, ext, h3, h4⟩ := step_others hs
  by_cases hu : u = t
  · subst hu
    have hx : ¬ s.canExcl u := fun h => by have := h.1; omega
    unfold step at hs
    rw [hp] at hs
    split at hs
    · cases a <;> simp only [hx, false_and, if_false] at hs <;> try cases hs
      split at hs
      · cases hs
        exact ⟨hl, hp, [], by simp, by simp⟩
      · cases hs
    · cases hs
  · exact ⟨Nat.lt_of_lt_of_le hl h1, by rw [h2 t (Ne.symm hu)]; exact hp, ext, h3, fun e he => by rw [h4 e he]; exact hu⟩

theorem stuck_run {t : Nat} {o : Op} : ∀ (l : List (Nat × Act)) (s : St), 0 < s.leaks → s.pcs t = .excl o → run s l = some s' →
    s'.pcs t = .excl o ∧ ∃ ext, s'.tr = s.tr ++ ext ∧ ∀ e ∈ ext, e.thread ≠ t
  | [], s, _, hp, hr => by
    cases hr
    exact ⟨hp, [], by simp, by simp⟩
  | (u, a) :: l, s, hl, hp, hr => by
    simp only [run] at hr
    split at hr
    · next s1 hs =>
      obtain ⟨h1, h2, e1, h3, h4⟩ := stuck_step hl hp hs
      obtain ⟨k1, e2, k2, k3⟩ := stuck_run l s1 h1 h2 hr
      refine ⟨k1, e1 ++ e2, by rw [k2, h3, List.append_assoc], fun e he => ?_⟩
      rcases List.mem_append.1 he with he | he
      · exact h4 e he
      · exact k3 e he
    · cases hr

/-- While the first checkpoint goes on. -/
def OneCp (s : St) : Prop := s.cp = 0 ∧ (∀ t, s.tcp t = 0) ∧ (∀ n, s.ncp n = 0) ∧ s.leaks = 0

theorem OneCp.take (h : OneCp s) (t n : Nat) (w : Bool) : OneCp (s.take t n w) := by
  cases w
  · exact h
  · refine ⟨h.1, h.2.1, fun j => ?_, h.2.2.2⟩
    simp only [St.take, if_true]
    split
    · exact h.2.1 t
    · exact h.2.2.1 j

theorem OneCp.stamp (h : OneCp s) {s1 : St} (h1 : OneCp s1) (t : Nat) : OneCp (s.stamp t s1) := by
  refine ⟨h1.1, h1.2.1, fun j => ?_, h1.2.2.2⟩
  simp only [St.stamp]
  split
  · exact h.2.1 t
  · exact h1.2.2.1 j

theorem OneCp.fits (h : OneCp s) (t n : Nat) (w : Bool) : s.fits t n w := fun _ => by rw [h.2.2.1 n]; exact Nat.zero_le _

theorem oneCp_step (h : OneCp s) {t : Nat} {a : Act} (ha : a ≠ .switchCp) (hs : step s t a = some s') : OneCp s' := by
  have hf := fun n w => h.fits t n w
  have htcp : ∀ x, (if x = t then s.cp else s.tcp x) = 0 := by
    intro x
    split
    · exact h.1
    · exact h.2.1 x
  simp only [step] at hs
  repeat' split at hs
  all_goals first
    | (cases hs; done)
    | (cases hs
       first
         | exact h
         | exact h.take _ _ _
         | exact (h.take _ _ _).take _ _ _
         | exact h.stamp (s1 := s.split _ _ _ _) h t
         | exact h.stamp (s1 := s.merge _ _ _ _) h t
         | exact h.stamp (s1 := (s.take _ _ _).splitRoot _) (h.take _ _ _) t
         | exact ⟨h.1, htcp, h.2.2⟩
         | exact absurd (hf _ _) ‹_›
         | exact absurd rfl ha
         | exact ⟨by rw [(atLeaf_cp _ _ _).1]; exact h.1, by rw [(atLeaf_cp _ _ _).2.1]; exact h.2.1, by rw [(atLeaf_cp _ _ _).2.2]; exact h.2.2.1,
             by rw [atLeaf_leaks]; exact h.2.2.2⟩)

/-- No call in progress is a remove. -/
def NoRemove (s : St) : Prop := s.leaks = 0 ∧ ∀ t o, (s.pcs t).phase = .before o → o.isRemove = false

theorem noRemove_step (h : NoRemove s) {t : Nat} {a : Act} (ha : ∀ k, a ≠ .call (.remove k)) (hs : step s t a = some s') : NoRemove s' := by
  have hgo : ∀ (s1 : St) (p : Pc), s1.leaks = 0 → s1.pcs = s.pcs → (∀ o, p.phase = .before o → (s.pcs t).phase = .before o) → NoRemove (s1.goto t p) := by
    intro s1 p h1 h2 h3
    refine ⟨h1, fun u o hu => ?_⟩
    simp only [St.goto] at hu
    split at hu
    · exact h.2 t o (h3 o hu)
    · rw [h2] at hu
      exact h.2 u o hu
  have h0 := h.1
  simp only [step] at hs
  repeat' split at hs
  all_goals first
    | (cases hs; done)
    | skip
  all_goals first
    | (cases hs
       exact ⟨h.1, h.2⟩)
    | (cases hs
       refine hgo _ _ ?_ ?_ ?_
       · simp [St.emit, St.stamp, St.split, St.splitRoot, St.merge, St.collapse, St.set, take_leaks, h0]
       · simp [St.emit, St.stamp, St.split, St.splitRoot, St.merge, St.collapse, St.set, take_pcs]
       · simp_all [Pc.phase])
    | skip
  · next o hpc =>
    cases hs
    refine ⟨h0, fun u o' hu => ?_⟩
    simp only [St.goto, St.emit] at hu
    split at hu
    · simp only [Pc.phase, Phase.before.injEq] at hu
      subst hu
      cases o with
      | remove k => exact absurd rfl (ha k)
      | get k => rfl
      | put ty k v => rfl
    · exact h.2 u o' hu
  · next o w hpc _ _ hr =>
    have := h.2 t o (by rw [hpc]; rfl)
    rw [this] at hr
    cases hr
  · next o n w hpc _ =>
    cases hs
    refine ⟨by rw [atLeaf_leaks]; exact h0, fun u o' hu => ?_⟩
    rw [atLeaf_pcs] at hu
    simp only at hu
    split at hu
    · cases hu
    · exact h.2 u o' hu
  · next o hpc =>
    cases hs
    exact ⟨h0, (hgo s (.start o false) h0 rfl (fun o' ho => by rw [hpc]; exact ho)).2⟩

theorem run_nt : ∀ (l : List (Nat × Act)) (s : St), run s l = some s' → s'.nt = s.nt
  | [], s, hr => by cases hr; rfl
  | (t, a) :: l, s, hr => by
    simp only [run] at hr
    split at hr
    · next s1 hs => rw [run_nt l s1 hr, (step_others hs).1]
    · cases hr

theorem oneCp_run : ∀ (l : List (Nat × Act)) (s : St), OneCp s → (∀ x ∈ l, x.2 ≠ .switchCp) → run s l = some s' → OneCp s'
  | [], s, h, _, hr => by cases hr; exact h
  | (t, a) :: l, s, h, ha, hr => by
    simp only [run] at hr
    split at hr
    · next s1 hs =>
      exact oneCp_run l s1 (oneCp_step h (ha (t, a) (List.mem_cons_self ..)) hs) (fun x hx => ha x (List.mem_cons_of_mem _ hx)) hr
    · cases hr

theorem noRemove_run : ∀ (l : List (Nat × Act)) (s : St), NoRemove s → (∀ x ∈ l, ∀ k, x.2 ≠ .call (.remove k)) → run s l = some s' → NoRemove s'
  | [], s, h, _, hr => by cases hr; exact h
  | (t, a) :: l, s, h, ha, hr => by
    simp only [run] at hr
    split at hr
    · next s1 hs =>
      exact noRemove_run l s1 (noRemove_step h (ha (t, a) (List.mem_cons_self ..)) hs) (fun x hx => ha x (List.mem_cons_of_mem _ hx)) hr
    · cases hr

end HS.Conc
