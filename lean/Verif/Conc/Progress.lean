import Verif.Conc.Run

/-!
# Threads do not block one another for ever

A step may also have to wait for threads that wait themselves: a mutex may let waiting writers go first, and hold off
new readers.  `Granted` says that the step need not wait even then.
-/

namespace HS.Conc

/-- The node a thread is about to lock, and whether for writing. -/
def St.awaits (s : St) : Pc → Option (Nat × Bool)
  | .start _ w => some (s.root, w)
  | .on o n _ =>
    if (s.nodes n).lev = 0 then none else (child o.key (s.nodes n).es).map fun c => (c, o.writes && (s.nodes c).lev == 0)
  | .up1 _ n _ _ _ => some (n, true)
  | .up2 _ _ c _ _ => some (c, true)
  | .mrg _ _ _ _ (y :: _) => some (y, true)
  | _ => none

/-- Thread `t` has to wait: for a node that another thread holds, or, wanting it for reading, that another thread waits for to write; for
the tree lock exclusively while it is held shared; for the tree lock shared (in a call that goes on, or that is begun again) while
another thread waits for it exclusively. -/
def Blocked (s : St) (t : Nat) : Prop :=
  (∃ x w, s.awaits (s.pcs t) = some (x, w) ∧ (¬ s.canLock t x w ∨ (w = false ∧ ∃ t' < s.nt, t' ≠ t ∧ s.awaits (s.pcs t') = some (x, true)))) ∨
  (∃ o, s.pcs t = .excl o ∧ ¬ s.canExcl t) ∨
  (∃ o, (s.pcs t = .again o ∨ s.pcs t = .out o) ∧ ∃ t' < s.nt, t' ≠ t ∧ ∃ o', s.pcs t' = .excl o')

variable {s : St}

/-- The levels of what is held and what is awaited. -/
theorem kid_of (h : Inv s) {k n c x : Nat} (hat : At s k n c) (hx : x = c ∨ x ∈ ((rest k (s.nodes n).es).drop 1).map (·.2)) :
    ∃ e ∈ (s.nodes n).es, e.2 = x ∧ (s.nodes x).lev + 1 = (s.nodes n).lev := by
  obtain ⟨b, t, m, h1, h2, h3, h4, h5⟩ := hat.find h.tree
  have hlev := hat.lev
  have hsub : ∀ e ∈ (s.nodes n).es, (s.nodes e.2).lev + 1 = (s.nodes n).lev := by
    intro e he
    obtain ⟨y, hy, _⟩ := (h.tree.chain hat.live hlev).mem he
    have := hy.2.1
    omega
  rw [h1] at hx
  rcases hx with rfl | hx
  · have he : (b, x) ∈ (s.nodes n).es := by rw [h2]; simp
    exact ⟨(b, x), he, rfl, hsub _ he⟩
  · simp only [List.drop_succ_cons, List.drop_zero, List.mem_map] at hx
    obtain ⟨e, he, rfl⟩ := hx
    have he' : e ∈ (s.nodes n).es := by
      rw [h2]
      exact List.mem_append_right _ (List.mem_cons_of_mem _ he)
    exact ⟨e, he', rfl, hsub _ he'⟩

theorem mem_want {olds want : List Nat} {l : List Ent} (h : olds ++ want = (l.take (olds ++ want).length).map (·.2)) {y : Nat}
    (hy : y ∈ olds ∨ y ∈ want) : y ∈ l.map (·.2) := by
  have : y ∈ olds ++ want := List.mem_append.2 hy
  rw [h] at this
  obtain ⟨e, he, rfl⟩ := List.mem_map.1 this
  exact List.mem_map.2 ⟨e, List.mem_of_mem_take he, rfl⟩

/-- A thread that need not wait has a step to take. -/
theorem step_of_free (h : Inv s) {t : Nat} (ht : t < s.nt) (hi : s.pcs t ≠ .idle) (hb : ¬ Blocked s t) :
    ∃ a s', (∀ o, a ≠ .call o) ∧ a ≠ .switchCp ∧ step s t a = some s' := by
  have hpok := h.pcs t ht
  have hl : ∀ x w, s.awaits (s.pcs t) = some (x, w) → s.canLock t x w := by
    intro x w ha
    by_cases hc : s.canLock t x w
    · exact hc
    · exact absurd (Or.inl ⟨x, w, ha, Or.inl hc⟩) hb
  cases hp : s.pcs t with
  | start o w =>
    have hl := hl s.root w (by rw [hp]; rfl)
    refine ⟨.lockRoot, ?_⟩
    by_cases hf : s.fits t s.root w
    · exact ⟨(s.take t s.root w).goto t (.on o s.root w), by simp, by simp, by simp only [step, if_pos ht, hp, if_pos hl, if_pos hf]⟩
    · exact ⟨{ s.goto t (.out o) with leaks := s.leaks + if o.isRemove = true then 1 else 0 }, by simp, by simp,
        by simp only [step, if_pos ht, hp, if_pos hl, if_neg hf]⟩
  | on o n w =>
    rw [hp] at hpok
    by_cases h0 : (s.nodes n).lev = 0
    · by_cases hc : w = true ∨ o.writes = false ∨ (o.isRemove = true ∧ (s.nodes n).es = [])
      · have hc' := And.intro h0 hc
        exact ⟨.leaf, s.atLeaf t n o, by simp, by simp, by simp only [step, if_pos ht, hp, if_pos hc']⟩
      · have hw : w = false := by cases w <;> simp_all
        have hwr : o.writes = true := by cases ho : o.writes <;> simp_all
        have hc' : o.writes = true ∧ w = false ∧ n = s.root ∧ (s.nodes n).lev = 0 := ⟨hwr, hw, hpok.2.2 hwr hw h0, h0⟩
        exact ⟨.lockAgain, s.goto t (.start o true), by simp, by simp, by simp only [step, if_pos ht, hp, if_pos hc']⟩
    · obtain ⟨c, hc⟩ := h.tree.at hpok.1 h0 hpok.2.1
      have hl := hl c (o.writes && (s.nodes c).lev == 0) (by rw [hp]; simp only [St.awaits, if_neg h0, hc.kid, Option.map_some])
      refine ⟨.child, ?_⟩
      by_cases hf : s.fits t c (o.writes && (s.nodes c).lev == 0)
      · exact ⟨(s.take t c (o.writes && (s.nodes c).lev == 0)).goto t (.both o n w c (o.writes && (s.nodes c).lev == 0)), by simp, by simp,
          by simp only [step, if_pos ht, hp, if_neg h0, hc.kid, if_pos hl, if_pos hf]⟩
      · exact ⟨s.goto t (.out o), by simp, by simp, by simp only [step, if_pos ht, hp, if_neg h0, hc.kid, if_pos hl, if_neg hf]⟩
  | up1 o n c gn gc =>
    have hl := hl n true (by rw [hp]; rfl)
    refine ⟨.lockParent, ?_⟩
    by_cases hf : s.fits t n true
    · exact ⟨(s.take t n true).goto t (.up2 o n c gn gc), by simp, by simp, by simp only [step, if_pos ht, hp, if_pos hl, if_pos hf]⟩
    · exact ⟨s.goto t (.out o), by simp, by simp, by simp only [step, if_pos ht, hp, if_pos hl, if_neg hf]⟩
  | up2 o n c gn gc =>
    have hl := hl c true (by rw [hp]; rfl)
    refine ⟨.lockChild, ?_⟩
    by_cases hf : s.fits t c true
    · by_cases hb : (s.nodes n).del = true ∨ (s.nodes n).gen ≠ gn ∨ (s.nodes c).del = true ∨ (s.nodes c).gen ≠ gc
      · exact ⟨(s.take t c true).goto t (.start o false), by simp, by simp, by simp only [step, if_pos ht, hp, if_pos hl, if_pos hf, if_pos hb]⟩
      · exact ⟨(s.take t c true).goto t (.upd o n c), by simp, by simp, by simp only [step, if_pos ht, hp, if_pos hl, if_pos hf, if_neg hb]⟩
    · exact ⟨s.goto t (.out o), by simp, by simp, by simp only [step, if_pos ht, hp, if_pos hl, if_neg hf]⟩
  | mrg o n c olds want =>
    cases want with
    | nil => exact ⟨.notNeeded, s.goto t (.both o n true c true), by simp, by simp, by simp only [step, if_pos ht, hp]⟩
    | cons y want =>
      have hl := hl y true (by rw [hp]; rfl)
      refine ⟨.lockSibling, ?_⟩
      by_cases hf : s.fits t y true
      · exact ⟨(s.take t y true).goto t (.mrg o n c (olds ++ [y]) want), by simp, by simp,
          by simp only [step, if_pos ht, hp, if_pos hl, if_pos hf]⟩
      · exact ⟨s.goto t (.out o), by simp, by simp, by simp only [step, if_pos ht, hp, if_pos hl, if_neg hf]⟩
  | both o n w c wc => exact ⟨.descend, s.goto t (.on o c wc), by simp, by simp, by simp only [step, if_pos ht, hp]⟩
  | upd o n c => exact ⟨.fail, (s.emit (.point t o .err)).goto t (.fin .err), by simp, by simp, by simp only [step, if_pos ht, hp]⟩
  | idle => exact absurd hp hi
  | excl o =>
    have hx : s.canExcl t := by
      by_cases hx : s.canExcl t
      · exact hx
      · exact absurd (Or.inr (Or.inl ⟨o, hp, hx⟩)) hb
    refine ⟨.rootKeep, ?_⟩
    by_cases hf : s.fits t s.root true
    · exact ⟨(s.take t s.root true).goto t (.again o), by simp, by simp, by simp only [step, if_pos ht, hp, if_pos hx, if_pos hf]⟩
    · exact ⟨s.goto t (.out o), by simp, by simp, by simp only [step, if_pos ht, hp, if_pos hx, if_neg hf]⟩
  | again o => exact ⟨.reenter false, s.goto t (.start o false), by simp, by simp, by simp only [step, if_pos ht, hp]⟩
  | out o =>
    exact ⟨.attempt, { s.goto t (.start o false) with tcp := fun x => if x = t then s.cp else s.tcp x }, by simp, by simp,
      by simp only [step, if_pos ht, hp]⟩
  | fin r => exact ⟨.ret, (s.emit (.ret t r)).goto t .idle, by simp, by simp, by simp only [step, if_pos ht, hp]⟩

/-- What is awaited by a thread that holds a node: a node below, or a sibling. -/
theorem below (h : Inv s) {t : Nat} (ht : t < s.nt) {x y : Nat} {w w' : Bool} (hx : (x, w) ∈ (s.pcs t).locks)
    (ha : s.awaits (s.pcs t) = some (y, w')) :
    (s.nodes y).lev < (s.nodes x).lev ∨
      ((s.nodes y).lev = (s.nodes x).lev ∧ ∃ n, (n, true) ∈ (s.pcs t).locks ∧ Live s.nodes s.fresh n ∧ (s.nodes n).lev = (s.nodes x).lev + 1 ∧
        (∃ e ∈ (s.nodes n).es, e.2 = x) ∧ ∃ e ∈ (s.nodes n).es, e.2 = y) := by
  have hpok := h.pcs t ht
  cases hp : s.pcs t with
  | on o n w1 =>
    rw [hp] at hpok hx ha
    simp only [Pc.locks, List.mem_cons, Prod.mk.injEq, List.not_mem_nil, or_false] at hx
    obtain ⟨rfl, rfl⟩ := hx
    simp only [St.awaits] at ha
    split at ha
    · cases ha
    · next h0 =>
      obtain ⟨c, hc⟩ := h.tree.at hpok.1 h0 hpok.2.1
      rw [hc.kid] at ha
      simp only [Option.map_some, Option.some.injEq, Prod.mk.injEq] at ha
      obtain ⟨rfl, _⟩ := ha
      have := (hc.child h.tree).2.1
      left
      omega
  | up2 o n c gn gc =>
    rw [hp] at hpok hx ha
    simp only [Pc.locks, List.mem_cons, Prod.mk.injEq, List.not_mem_nil, or_false] at hx
    obtain ⟨rfl, rfl⟩ := hx
    simp only [St.awaits, Option.some.injEq, Prod.mk.injEq] at ha
    obtain ⟨rfl, _⟩ := ha
    have := hpok.2.lev
    left
    omega
  | mrg o n c olds want =>
    cases want with
    | nil => rw [hp] at ha; cases ha
    | cons z want =>
      rw [hp] at hpok hx ha
      simp only [St.awaits, Option.some.injEq, Prod.mk.injEq] at ha
      obtain ⟨rfl, _⟩ := ha
      obtain ⟨_, hat, hw⟩ := hpok
      obtain ⟨ey, hy1, hy2, hy3⟩ := kid_of h hat (Or.inr (mem_want hw (Or.inr (List.mem_cons_self ..))))
      simp only [Pc.locks, List.mem_cons, Prod.mk.injEq, List.mem_map] at hx
      rcases hx with ⟨rfl, _⟩ | hx
      · left; omega
      · right
        have hx' : x = c ∨ x ∈ ((rest o.key (s.nodes n).es).drop 1).map (·.2) := by
          rcases hx with ⟨rfl, _⟩ | ⟨u, hu, hu', _⟩
          · exact Or.inl rfl
          · subst hu'
            exact Or.inr (mem_want hw (Or.inl hu))
        obtain ⟨ex, hx1, hx2, hx3⟩ := kid_of h hat hx'
        exact ⟨by omega, n, by simp [Pc.locks], hat.live, by omega, ⟨ex, hx1, hx2⟩, ey, hy1, hy2⟩
  | idle => rw [hp] at ha; cases ha
  | start o w => rw [hp] at hx; cases hx
  | both o n w c wc => rw [hp] at ha; cases ha
  | up1 o n c gn gc => rw [hp] at hx; cases hx
  | upd o n c => rw [hp] at ha; cases ha
  | excl o => rw [hp] at ha; cases ha
  | again o => rw [hp] at ha; cases ha
  | out o => rw [hp] at ha; cases ha
  | fin r => rw [hp] at ha; cases ha

theorem awaits_shared {p : Pc} {x} (h : s.awaits p = some x) : p.shared = true := by
  cases p with
  | mrg o n c olds want => rfl
  | _ => first | rfl | cases h

theorem locks_shared {p : Pc} {x} (h : x ∈ p.locks) : p.shared = true := by
  cases p <;> first | rfl | cases h

theorem not_idle_of_shared {p : Pc} (h : p.shared = true) : p ≠ .idle := by
  rintro rfl
  cases h

/-- A least element among the threads that satisfy a predicate. -/
theorem least (P : Nat → Prop) (f : Nat → Nat) (t : Nat) (ht : P t) : ∃ u, P u ∧ ∀ v, P v → f u ≤ f v := by
  generalize hm : f t = m
  induction m using Nat.strongRecOn generalizing t with
  | ind m ih =>
    by_cases h : ∃ v, P v ∧ f v < m
    · obtain ⟨v, hv, hlt⟩ := h
      exact ih (f v) hlt v hv rfl
    · refine ⟨t, ht, fun v hv => ?_⟩
      by_cases hlt : f v < m
      · exact absurd ⟨v, hv, hlt⟩ h
      · omega

/-- Some thread need not wait. -/
theorem some_free (h : Inv s) (hlk : s.leaks = 0) (hex : ∃ t < s.nt, s.pcs t ≠ .idle) : ∃ t < s.nt, s.pcs t ≠ .idle ∧ ¬ Blocked s t := by
  apply Classical.byContradiction
  intro hno
  have hall : ∀ t < s.nt, s.pcs t ≠ .idle → Blocked s t := by
    intro t ht hi
    apply Classical.byContradiction
    exact fun hb => hno ⟨t, ht, hi, hb⟩
  have haw : ∀ t < s.nt, (s.pcs t).shared = true → ∃ x w, s.awaits (s.pcs t) = some (x, w) ∧
      (¬ s.canLock t x w ∨ (w = false ∧ ∃ t' < s.nt, t' ≠ t ∧ s.awaits (s.pcs t') = some (x, true))) := by
    intro t ht hsh
    rcases hall t ht (not_idle_of_shared hsh) with h1 | ⟨o, h1, _⟩ | ⟨o, h1, _⟩
    · exact h1
    · rw [h1] at hsh; cases hsh
    · rcases h1 with h1 | h1 <;> rw [h1] at hsh <;> cases hsh
  have hexcl : ∀ t < s.nt, ∀ o, s.pcs t = .excl o → ∃ u < s.nt, (s.pcs u).shared = true := by
    intro t ht o ho
    rcases hall t ht (by rw [ho]; simp) with ⟨x, w, h1, _⟩ | ⟨_, _, h1⟩ | ⟨o', h1, _⟩
    · rw [ho] at h1; cases h1
    · apply Classical.byContradiction
      intro hn
      refine h1 ⟨hlk, fun u hu _ => ?_⟩
      cases hs : (s.pcs u).shared with
      | false => rfl
      | true => exact absurd ⟨u, hu, hs⟩ hn
    · rcases h1 with h1 | h1 <;> rw [ho] at h1 <;> cases h1
  -- some thread waits for a node
  have hw : ∃ t, t < s.nt ∧ (s.pcs t).shared = true := by
    obtain ⟨t, ht, hi⟩ := hex
    rcases hall t ht hi with ⟨x, w, h1, _⟩ | ⟨o, h1, _⟩ | ⟨o, _, t', ht', _, o', h1⟩
    · exact ⟨t, ht, awaits_shared h1⟩
    · exact hexcl t ht o h1
    · exact hexcl t' ht' o' h1
  -- one whose node is as low as any
  obtain ⟨t0, ht0⟩ := hw
  obtain ⟨t, ⟨ht, hsh⟩, hmin⟩ := least (fun t => t < s.nt ∧ (s.pcs t).shared = true)
    (fun t => match s.awaits (s.pcs t) with | some (x, _) => (s.nodes x).lev | none => 0) t0 ht0
  -- the node is held by a thread that waits itself
  have hheld : ∀ t < s.nt, ∀ x w, s.awaits (s.pcs t) = some (x, w) → ¬ s.canLock t x w → ∃ u < s.nt, u ≠ t ∧ ∃ w', (x, w') ∈ (s.pcs u).locks := by
    intro t ht x w _ hc
    apply Classical.byContradiction
    intro hn
    exact hc fun u hu hne w' hm => absurd ⟨u, hu, hne, w', hm⟩ hn
  have key : ∀ x, (∀ u < s.nt, ∀ y w, s.awaits (s.pcs u) = some (y, w) → (s.nodes x).lev ≤ (s.nodes y).lev) →
      ∀ u < s.nt, ∀ w, (x, w) ∈ (s.pcs u).locks → ∃ y, s.awaits (s.pcs u) = some (y, true) ∧ ¬ s.canLock u y true ∧ (s.nodes y).lev = (s.nodes x).lev ∧
        ∃ n, (n, true) ∈ (s.pcs u).locks ∧ Live s.nodes s.fresh n ∧ (s.nodes n).lev = (s.nodes x).lev + 1 ∧
          (∃ e ∈ (s.nodes n).es, e.2 = x) ∧ ∃ e ∈ (s.nodes n).es, e.2 = y := by
    intro x hx u hu w hm
    obtain ⟨y, w', ha, hb⟩ := haw u hu (locks_shared hm)
    rcases below h hu hm ha with hlt | ⟨heq, n, hn⟩
    · have := hx u hu y w' ha
      omega
    · have hw' : w' = true := by
        cases hp : s.pcs u with
        | mrg o n' c olds want =>
          cases want with
          | nil => rw [hp] at ha; cases ha
          | cons z want =>
            rw [hp] at ha
            simp only [St.awaits, Option.some.injEq, Prod.mk.injEq] at ha
            exact ha.2.symm
        | on o n' w1 =>
          have hpok := h.pcs u hu
          rw [hp] at ha hm hpok
          simp only [St.awaits] at ha
          split at ha
          · cases ha
          · next h0 =>
            obtain ⟨c, hc⟩ := h.tree.at hpok.1 h0 hpok.2.1
            rw [hc.kid] at ha
            simp only [Option.map_some, Option.some.injEq, Prod.mk.injEq] at ha
            obtain ⟨rfl, _⟩ := ha
            simp only [Pc.locks, List.mem_cons, Prod.mk.injEq, List.not_mem_nil, or_false] at hm
            obtain ⟨rfl, _⟩ := hm
            have := (hc.child h.tree).2.1
            omega
        | up2 o n' c gn gc =>
          rw [hp] at ha
          simp only [St.awaits, Option.some.injEq, Prod.mk.injEq] at ha
          exact ha.2.symm
        | up1 o n' c gn gc =>
          rw [hp] at ha
          simp only [St.awaits, Option.some.injEq, Prod.mk.injEq] at ha
          exact ha.2.symm
        | start o w1 => rw [hp] at hm; cases hm
        | idle => rw [hp] at hm; cases hm
        | both o n w c wc => rw [hp] at ha; cases ha
        | upd o n c => rw [hp] at ha; cases ha
        | excl o => rw [hp] at ha; cases ha
        | again o => rw [hp] at ha; cases ha
        | out o => rw [hp] at ha; cases ha
        | fin r => rw [hp] at ha; cases ha
      subst hw'
      rcases hb with hb | ⟨hb, _⟩
      · exact ⟨y, ha, hb, heq, n, hn⟩
      · cases hb
  -- so there is a holder of a node at the lowest level
  have hfirst : ∃ x u, u < s.nt ∧ (∃ w, (x, w) ∈ (s.pcs u).locks) ∧
      ∀ v < s.nt, ∀ y w, s.awaits (s.pcs v) = some (y, w) → (s.nodes x).lev ≤ (s.nodes y).lev := by
    obtain ⟨x, w, ha, hb⟩ := haw t ht hsh
    have hlow : ∀ v < s.nt, ∀ y w, s.awaits (s.pcs v) = some (y, w) → (s.nodes x).lev ≤ (s.nodes y).lev := by
      intro v hv y w' hy
      have := hmin v ⟨hv, awaits_shared hy⟩
      simpa only [ha, hy] using this
    rcases hb with hb | ⟨_, t', ht', _, ha'⟩
    · obtain ⟨u, hu, _, hm⟩ := hheld t ht x w ha hb
      exact ⟨x, u, hu, hm, hlow⟩
    · obtain ⟨x', w', ha'', hb'⟩ := haw t' ht' (awaits_shared ha')
      rw [ha'] at ha''
      simp only [Option.some.injEq, Prod.mk.injEq] at ha''
      obtain ⟨rfl, rfl⟩ := ha''
      rcases hb' with hb' | ⟨hb', _⟩
      · obtain ⟨u, hu, _, hm⟩ := hheld t' ht' x true ha' hb'
        exact ⟨x, u, hu, hm, hlow⟩
      · cases hb'
  obtain ⟨x, u, hu, ⟨w, hm⟩, hlow⟩ := hfirst
  obtain ⟨y, hy1, hy2, hy3, n, hn1, hn2, hn3, _, e, he, hey⟩ := key x hlow u hu w hm
  obtain ⟨v, hv, hvu, w', hm'⟩ := hheld u hu y true hy1 hy2
  obtain ⟨z, _, _, _, n', hn1', hn2', hn3', ⟨f, hf, hfy⟩, _⟩ := key y (by rw [hy3]; exact hlow) v hv w' hm'
  have hnn : n = n' := h.tree.parent hn2 hn2' (by omega) (by omega) he hf (by rw [hey, hfy])
  subst hnn
  have := h.mutex u v hu hv hvu n true true hn1 hn1'
  cases this.1

end HS.Conc
