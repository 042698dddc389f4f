import Verif.Prio.Model
/-!
# C123: the leader is the member of the highest priority, if members reconcile

Vocabulary: `Leads g l` — `l` is a member of the group and its leader; `Highest g l` — no member has a higher
priority; `Steps g g'` — any number of calls of `reconcile_leader` on members that are up, each with any outcome
that the contract of NuRaft allows; `g.after m` — one call on `m` when all members answer, vote and catch up.
-/
namespace HS.Prio

def Distinct (g : Grp) : Prop := ∀ a ∈ g.mems, ∀ b ∈ g.mems, a.id = b.id → a = b

def Leads (g : Grp) (l : Mem) : Prop := l ∈ g.mems ∧ g.leader = some l.id

def Highest (g : Grp) (l : Mem) : Prop := ∀ q ∈ g.mems, q.prio ≤ l.prio

/-- No other member has as high a priority. -/
def OnlyHighest (g : Grp) (l : Mem) : Prop := ∀ q ∈ g.mems, q.id ≠ l.id → q.prio < l.prio

theorem scan_spec (me : Nat) : ∀ (st : List Mem) (best : Nat × Int),
    best.2 ≤ (scan me st best).2 ∧ (∀ q ∈ st, q.id ≠ me → q.prio ≤ (scan me st best).2) ∧
    (scan me st best = best ∨ ∃ q ∈ st, q.id ≠ me ∧ scan me st best = (q.id, q.prio) ∧ best.2 < q.prio) := by
  intro st
  induction st with
  | nil => intro best; simp [scan]
  | cons p ps ih =>
    intro best
    by_cases hp : p.id = me
    · have e : scan me (p :: ps) best = scan me ps best := by simp [scan, hp]
      obtain ⟨h1, h2, h3⟩ := ih best
      rw [e]
      refine ⟨h1, ?_, ?_⟩
      · intro q hq hne
        rcases List.mem_cons.mp hq with rfl | hq
        · exact absurd hp hne
        · exact h2 q hq hne
      · rcases h3 with h3 | ⟨q, hq, h⟩
        · exact .inl h3
        · exact .inr ⟨q, List.mem_cons_of_mem _ hq, h⟩
    · by_cases hb : best.2 < p.prio
      · have e : scan me (p :: ps) best = scan me ps (p.id, p.prio) := by simp [scan, hp, hb]
        obtain ⟨h1, h2, h3⟩ := ih (p.id, p.prio)
        rw [e]
        simp only at h1 h3
        refine ⟨by omega, ?_, ?_⟩
        · intro q hq hne
          rcases List.mem_cons.mp hq with rfl | hq
          · exact h1
          · exact h2 q hq hne
        · rcases h3 with h3 | ⟨q, hq, h, h', h''⟩
          · exact .inr ⟨p, by simp, hp, h3, hb⟩
          · exact .inr ⟨q, List.mem_cons_of_mem _ hq, h, h', by omega⟩
      · have e : scan me (p :: ps) best = scan me ps best := by simp [scan, hp, hb]
        obtain ⟨h1, h2, h3⟩ := ih best
        rw [e]
        refine ⟨h1, ?_, ?_⟩
        · intro q hq hne
          rcases List.mem_cons.mp hq with rfl | hq
          · omega
          · exact h2 q hq hne
        · rcases h3 with h3 | ⟨q, hq, h⟩
          · exact .inl h3
          · exact .inr ⟨q, List.mem_cons_of_mem _ hq, h⟩

/-- **C123**, the choice of a leader, for every status: it does nothing exactly if no other member has a higher
priority, and otherwise yields to a member than which no other has a higher priority. -/
theorem C123_choice (me : Nat) (mine : Int) (status : List Mem) :
    (reconcile true me mine status = .nothing ↔ ∀ q ∈ status, q.id ≠ me → q.prio ≤ mine) ∧
    (∀ x, reconcile true me mine status = .yield x →
      ∃ p ∈ status, p.id = x ∧ x ≠ me ∧ mine < p.prio ∧ ∀ q ∈ status, q.id ≠ me → q.prio ≤ p.prio) ∧
    reconcile true me mine status ≠ .request := by
  obtain ⟨h1, h2, h3⟩ := scan_spec me status (me, mine)
  simp only at h1 h3
  have hr : reconcile true me mine status =
      if (scan me status (me, mine)).1 = me then .nothing else .yield (scan me status (me, mine)).1 := by
    simp [reconcile]
  rw [hr]
  rcases h3 with h3 | ⟨q, hq, hne, he, hlt⟩
  · rw [h3] at h2 ⊢
    rw [if_pos rfl]
    refine ⟨⟨fun _ => h2, fun _ => rfl⟩, ?_, ?_⟩
    · intro x hx; cases hx
    · intro hx; cases hx
  · rw [he] at h2 ⊢
    rw [if_neg hne]
    refine ⟨⟨?_, ?_⟩, ?_, ?_⟩
    · intro h; cases h
    · intro h; have := h q hq hne; omega
    · intro x hx
      cases hx
      exact ⟨q, hq, rfl, hne, hlt, h2⟩
    · intro h; cases h

theorem call_leader {g : Grp} {l : Mem} (hl : g.leader = some l.id) :
    g.call l = reconcile true l.id l.prio g.mems := by simp [Grp.call, hl]

theorem call_other {g : Grp} {m : Mem} (hm : g.leader ≠ some m.id) :
    g.call m = if m.prio = leaderPriority then .request else .nothing := by simp [Grp.call, reconcile, hm]

/-- **C123**, quiet groups: in a group with leader `l` no call does anything, on whichever member, exactly if no
other member has a higher priority and none has the priority 100. -/
theorem C123_quiet {g : Grp} {l : Mem} (hd : Distinct g) (hl : Leads g l) :
    (∀ m ∈ g.mems, g.call m = .nothing) ↔
      ∀ q ∈ g.mems, q.id ≠ l.id → q.prio ≤ l.prio ∧ q.prio ≠ 100 := by
  have hc := (C123_choice l.id l.prio g.mems).1
  constructor
  · intro h q hq hne
    have h1 := h l hl.1
    rw [call_leader hl.2] at h1
    refine ⟨hc.mp h1 q hq hne, fun h100 => ?_⟩
    have h2 := h q hq
    rw [call_other (by rw [hl.2]; simp only [ne_eq, Option.some.injEq]; exact fun h => hne h.symm),
      if_pos (by simpa [leaderPriority] using h100)] at h2
    cases h2
  · intro h m hm
    by_cases hne : m.id = l.id
    · have := hd m hm l hl.1 hne
      subst this
      rw [call_leader hl.2]
      exact hc.mpr fun q hq hq' => (h q hq hq').1
    · rw [call_other (by rw [hl.2]; simp only [ne_eq, Option.some.injEq]; exact fun h => hne h.symm),
        if_neg (by simpa [leaderPriority] using (h m hm hne).2)]

theorem step_mono {g g' : Grp} {l : Mem} (hd : Distinct g) (hp : ∀ q ∈ g.mems, q.prio ≤ 100) (hl : Leads g l)
    (hs : Step g g') : g'.mems = g.mems ∧ ∃ l', Leads g' l' ∧ l.prio ≤ l'.prio := by
  obtain ⟨m, hm, _, he⟩ := hs
  generalize ha : g.call m = a at he
  cases he with
  | nothing => exact ⟨rfl, l, hl, Int.le_refl _⟩
  | refused => exact ⟨rfl, l, hl, Int.le_refl _⟩
  | request h1 h2 =>
    refine ⟨rfl, m, ⟨hm, rfl⟩, ?_⟩
    by_cases hme : g.leader = some m.id
    · rw [call_leader hme] at ha
      exact absurd ha (C123_choice m.id m.prio g.mems).2.2
    · rw [call_other hme] at ha
      split at ha
      · rename_i h; rw [h]; exact hp l hl.1
      · cases ha
  | yield x hx hab =>
    refine ⟨rfl, x, ⟨hx, rfl⟩, ?_⟩
    by_cases hme : g.leader = some m.id
    · rw [call_leader hme] at ha
      obtain ⟨p, hpm, hpe, _, hlt, _⟩ := (C123_choice m.id m.prio g.mems).2.1 _ ha
      have := hd p hpm x hx hpe
      subst this
      have h3 : m.id = l.id := by
        have := hme.symm.trans hl.2
        simpa using this
      have := hd m hm l hl.1 h3
      subst this
      omega
    · rw [call_other hme] at ha
      split at ha <;> cases ha

/-- **C123**, partial: in a group without priorities above 100, whatever the number and order of calls and whatever becomes of
them, the group keeps a leader, of a priority that is never lower than before.  Missing: priorities above 100,
see `C123_above_violated`. -/
theorem C123_never_lower_partial {g g' : Grp} {l : Mem} (hd : Distinct g) (hp : ∀ q ∈ g.mems, q.prio ≤ 100)
    (hl : Leads g l) (hs : Steps g g') : g'.mems = g.mems ∧ ∃ l', Leads g' l' ∧ l.prio ≤ l'.prio := by
  induction hs with
  | refl => exact ⟨rfl, l, hl, Int.le_refl _⟩
  | step _ hstep ih =>
    obtain ⟨h1, l1, hl1, hle⟩ := ih
    obtain ⟨h2, l2, hl2, hle2⟩ := step_mono (by unfold Distinct; rw [h1]; exact hd) (by rw [h1]; exact hp) hl1 hstep
    exact ⟨h2.trans h1, l2, hl2, Int.le_trans hle hle2⟩

/-- **C123**, partial: when all members answer, vote and catch up, one call on the leader makes a member of
the highest priority the leader.  Missing: groups in which a member does not answer, see `C123_unable_violated`. -/
theorem C123_reached_partial {g : Grp} {l : Mem} (hd : Distinct g) (hl : Leads g l) :
    ∃ l', Leads (g.after l) l' ∧ Highest (g.after l) l' := by
  obtain ⟨h1, h2, h3⟩ := C123_choice l.id l.prio g.mems
  have hself : ∀ q ∈ g.mems, q.id = l.id → q.prio = l.prio := fun q hq h => by rw [hd q hq l hl.1 h]
  unfold Grp.after
  rw [call_leader hl.2]
  cases ha : reconcile true l.id l.prio g.mems with
  | nothing =>
    refine ⟨l, hl, fun q hq => ?_⟩
    by_cases hq' : q.id = l.id
    · exact Int.le_of_eq (hself q hq hq')
    · exact h1.mp ha q hq hq'
  | request => exact absurd ha h3
  | yield x =>
    obtain ⟨p, hp, hpx, _, hlt, hmax⟩ := h2 x ha
    refine ⟨p, ⟨hp, by simp [hpx]⟩, fun q hq => ?_⟩
    by_cases hq' : q.id = l.id
    · have := hself q hq hq'; omega
    · exact hmax q hq hq'

/-- **C123**, partial: in a group without priorities above 100, if one member has the highest priority and leads,
no number of calls changes anything.  Missing: several members of the highest priority, see
`C123_tie_violated`. -/
theorem C123_stable_partial {g g' : Grp} {l : Mem} (hd : Distinct g) (hp : l.prio ≤ 100) (hl : Leads g l)
    (hh : OnlyHighest g l) (hs : Steps g g') : g' = g := by
  have hq : ∀ m ∈ g.mems, g.call m = .nothing := (C123_quiet hd hl).mpr fun q hq hne => by
    have := hh q hq hne
    exact ⟨by omega, by omega⟩
  induction hs with
  | refl => rfl
  | step _ hstep ih =>
    subst ih
    obtain ⟨m, hm, _, he⟩ := hstep
    rw [hq m hm] at he
    cases he <;> rfl

/-- **C123**: a member of priority 100 becomes leader by its own call, whoever leads, when all members answer. -/
theorem C123_request {g : Grp} {m : Mem} (hm : m ∈ g.mems) (h100 : m.prio = 100) (hl : g.leader ≠ none)
    (hn : g.leader ≠ some m.id) : Leads (g.after m) m := by
  unfold Grp.after
  rw [call_other hn, if_pos (by simpa [leaderPriority] using h100)]
  simp only [if_neg hl]
  exact ⟨hm, rfl⟩

/-- **C123** is violated: a member of priority 100 takes the leadership from one of the same priority, so two such
members that reconcile take it from each other for ever: after the calls of both the group is where it was. -/
theorem C123_tie_violated {g : Grp} {a b : Mem} (hb : b ∈ g.mems) (hl : Leads g a) (hne : a.id ≠ b.id)
    (ha100 : a.prio = 100) (hb100 : b.prio = 100) :
    Leads (g.after b) b ∧ (g.after b).after a = g := by
  have h1 : g.after b = { g with leader := some b.id } := by
    unfold Grp.after
    rw [call_other (by rw [hl.2]; simpa using hne), if_pos (by simpa [leaderPriority] using hb100)]
    simp [hl.2]
  rw [h1]
  refine ⟨⟨hb, rfl⟩, ?_⟩
  unfold Grp.after
  rw [call_other (by simpa using fun h => hne h.symm), if_pos (by simpa [leaderPriority] using ha100)]
  simp only [reduceCtorEq, if_false]
  rw [← hl.2]

/-- **C123** is violated: a member of priority 100 takes the leadership from one of a higher priority. -/
theorem C123_above_violated {g : Grp} {l m : Mem} (hl : Leads g l) (hm : m ∈ g.mems) (h : 100 < l.prio)
    (h100 : m.prio = 100) (hne : l.id ≠ m.id) : Leads (g.after m) m ∧ ¬ Highest (g.after m) m := by
  have h1 : g.after m = { g with leader := some m.id } := by
    unfold Grp.after
    rw [call_other (by rw [hl.2]; simpa using hne), if_pos (by simpa [leaderPriority] using h100)]
    simp [hl.2]
  rw [h1]
  refine ⟨⟨hm, rfl⟩, fun hh => ?_⟩
  have := hh l hl.1
  omega

/-- **C123** is violated: the member that should lead does not ask for it if its priority is not 100: its calls do
nothing, in every group. -/
theorem C123_silent_violated {g : Grp} {l m : Mem} (hl : Leads g l) (hne : m.id ≠ l.id) (h : m.prio ≠ 100) :
    g.call m = .nothing ∧ g.after m = g := by
  have : g.call m = .nothing := by
    rw [call_other (by rw [hl.2]; simpa using fun h => hne h.symm), if_neg (by simpa [leaderPriority] using h)]
  exact ⟨this, by unfold Grp.after; rw [this]⟩

/-- **C123** is violated when the member of the highest priority does not answer or has no vote: the leader yields to it
all the same, and to no other, so that no number of calls on any members moves the leadership, whatever
better members there are. -/
theorem C123_unable_violated {g g' : Grp} {l t : Mem} (hd : Distinct g) (hl : Leads g l) (ht : t ∈ g.mems)
    (hp : t.prio ≤ 100) (hh : OnlyHighest g t) (hna : ¬ t.able) (hne : l.id ≠ t.id) :
    g.call l = .yield t.id ∧ (Steps g g' → g' = g) := by
  obtain ⟨h1, h2, h3⟩ := C123_choice l.id l.prio g.mems
  have hlt := hh l hl.1 hne
  have hcall : g.call l = .yield t.id := by
    rw [call_leader hl.2]
    cases ha : reconcile true l.id l.prio g.mems with
    | nothing =>
      have := h1.mp ha t ht (fun h => hne h.symm); omega
    | request => exact absurd ha h3
    | yield x =>
      obtain ⟨p, hpm, hpx, _, _, hmax⟩ := h2 x ha
      by_cases hpt : p.id = t.id
      · rw [← hpx, hpt]
      · have h4 := hh p hpm hpt
        have h5 := hmax t ht (fun h => hne h.symm)
        omega
  refine ⟨hcall, fun hs => ?_⟩
  induction hs with
  | refl => rfl
  | step _ hstep ih =>
    subst ih
    obtain ⟨m, hm, _, he⟩ := hstep
    by_cases hml : m.id = l.id
    · have := hd m hm l hl.1 hml
      subst this
      rw [hcall] at he
      generalize ha : Act.yield t.id = a at he
      cases he with
      | nothing => rfl
      | refused => rfl
      | request => cases ha
      | yield x hx hab =>
        simp only [Act.yield.injEq] at ha
        have := hd t ht x hx ha
        subst this
        exact absurd hab hna
    · rw [call_other (by rw [hl.2]; simpa using fun h => hml h.symm)] at he
      split at he
      · rename_i h100
        unfold leaderPriority at h100
        by_cases hmt : m.id = t.id
        · have := hd m hm t ht hmt
          subst this
          generalize ha : Act.request = a at he
          cases he with
          | nothing => rfl
          | refused => rfl
          | request _ hab => exact absurd hab hna
          | yield => cases ha
        · have := hh m hm hmt
          omega
      · cases he <;> rfl

/-! ## The priorities of a new group -/

theorem follower_lt {rounds err : Nat} (hr : 0 < rounds) (he : err ≤ 1) :
    0 < followerPriority rounds err ∧ followerPriority rounds err < 100 := by
  have h : min 5 rounds = 1 ∨ min 5 rounds = 2 ∨ min 5 rounds = 3 ∨ min 5 rounds = 4 ∨ min 5 rounds = 5 := by omega
  have h2 : err = 0 ∨ err = 1 := by omega
  unfold followerPriority
  rcases h with h | h | h | h | h <;> rcases h2 with rfl | rfl <;> rw [h] <;> decide

/-- **C123**, new groups: for every setting but 0, whichever member has come to lead a group that was created: one call
on it or on the creator makes the creator the leader when all members answer, and then no number of calls changes
anything. -/
theorem C123_created {rounds err me : Nat} {others : List Nat} (hr : 0 < rounds) (he : err ≤ 1)
    (hme : me ∉ others) {g : Grp} (hg : g.mems = (created rounds err me others).mems)
    {l m : Mem} (hl : Leads g l) (hm : m ∈ g.mems) (hml : m.id = l.id ∨ m.id = me) :
    (g.after m).leader = some me ∧ ∀ g', Steps (g.after m) g' → g' = g.after m := by
  obtain ⟨hf0, hf⟩ := follower_lt hr he
  let c : Mem := ⟨me, leaderPriority, false, true⟩
  have hcm : c ∈ g.mems := by rw [hg]; simp [created, c]
  have hmem : ∀ q ∈ g.mems, q = c ∨ (q.id ≠ me ∧ q = ⟨q.id, followerPriority rounds err, false, true⟩) := by
    intro q hq
    rw [hg] at hq
    simp only [created, List.mem_cons, List.mem_map] at hq
    rcases hq with rfl | ⟨i, hi, rfl⟩
    · exact .inl rfl
    · exact .inr ⟨fun h => hme (by simp only at h; rw [← h]; exact hi), rfl⟩
  have hd : Distinct g := by
    intro a ha b hb hab
    rcases hmem a ha with h | ⟨h, h'⟩ <;> rcases hmem b hb with k | ⟨k, k'⟩
    · rw [h, k]
    · exact absurd (by rw [← hab, h]) k
    · exact absurd (by rw [hab, k]) h
    · rw [h', k', hab]
  have hh : OnlyHighest g c := by
    intro q hq hne
    rcases hmem q hq with h | ⟨_, h⟩
    · exact absurd (by rw [h]) hne
    · rw [h]; simpa [c, leaderPriority] using hf
  have hmems : (g.after m).mems = g.mems := by
    unfold Grp.after
    split
    · rfl
    · split <;> rfl
    · rfl
  have hlead : (g.after m).leader = some me := by
    rcases hml with hml | hml
    · have := hd m hm l hl.1 hml
      subst this
      obtain ⟨l', hl', hhi⟩ := C123_reached_partial hd hl
      have : l'.id = c.id := by
        apply Classical.byContradiction; intro hne
        have h1 := hh l' (by rw [← hmems]; exact hl'.1) hne
        have h2 := hhi c (by rw [hmems]; exact hcm)
        omega
      rw [hl'.2, this]
    · have := hd m hm c hcm hml
      subst this
      by_cases hlm : g.leader = some me
      · have hq := (C123_quiet hd ⟨hcm, hlm⟩).mpr fun q hq hne => by
          have h1 := hh q hq hne
          simp only [c, leaderPriority] at h1 ⊢
          exact ⟨by omega, by omega⟩
        unfold Grp.after
        rw [hq c hcm]
        exact hlm
      · exact (C123_request (m := c) hcm rfl (by rw [hl.2]; simp) hlm).2
  refine ⟨hlead, fun g' hs => ?_⟩
  exact C123_stable_partial (l := c) (by unfold Distinct; rw [hmems]; exact hd) (by simp [c, leaderPriority])
    ⟨by rw [hmems]; exact hcm, hlead⟩ (by unfold OnlyHighest; rw [hmems]; exact hh) hs

/-- **C123** is violated for the setting 0, which gives all members the same priority: in every group so created,
each other member takes the leadership from the creator by its call, and the creator takes it back. -/
theorem C123_zero_rounds_violated {err me i : Nat} {others : List Nat} (hi : i ∈ others) (hme : i ≠ me) :
    let g := created 0 err me others
    let a : Mem := ⟨me, 100, false, true⟩
    let b : Mem := ⟨i, 100, false, true⟩
    Leads g a ∧ Leads (g.after b) b ∧ (g.after b).after a = g := by
  intro g a b
  have hl : Leads g a := ⟨by simp [g, a, created, leaderPriority], rfl⟩
  have hb : b ∈ g.mems := by
    simp only [g, b, created, List.mem_cons, List.mem_map]
    right
    exact ⟨i, hi, by simp [followerPriority, leaderPriority]⟩
  exact ⟨hl, C123_tie_violated hb hl (fun h => hme h.symm) rfl rfl⟩

/-- **C123**, elections: for every setting, when the target priority of an election has decayed from 100 for as many
rounds as the setting allows, it is no higher than the priority of a follower, which may then stand. -/
theorem C123_rounds (rounds err : Nat) : (target 100 rounds : Int) ≤ followerPriority rounds err := by
  have hmono : ∀ n k, target 100 (n + k) ≤ target 100 n := by
    intro n k
    induction k with
    | zero => exact Nat.le_refl _
    | succ k ih =>
      show target 100 (n + k) * 4 / 5 ≤ _
      omega
  have h1 : target 100 rounds ≤ target 100 (min 5 rounds) := by
    have := hmono (min 5 rounds) (rounds - min 5 rounds)
    rwa [show min 5 rounds + (rounds - min 5 rounds) = rounds by omega] at this
  have h : min 5 rounds = 0 ∨ min 5 rounds = 1 ∨ min 5 rounds = 2 ∨ min 5 rounds = 3 ∨ min 5 rounds = 4 ∨
      min 5 rounds = 5 := by omega
  have h2 : (target 100 (min 5 rounds) : Int) ≤ followerPriority rounds err := by
    unfold followerPriority
    rcases h with h | h | h | h | h | h <;> rw [h] <;> simp [target, decayed, leaderPriority] <;> omega
  omega

/-! ## Concrete cases -/

-- the default setting, with the error of the floating-point product: the creator has 100, the others 66
example : created 2 1 7 [8, 9] = ⟨[⟨7, 100, false, true⟩, ⟨8, 66, false, true⟩, ⟨9, 66, false, true⟩], some 7⟩ := by
  decide

/-- The same group with another leader. -/
def g8 : Grp := { created 2 1 7 [8, 9] with leader := some 8 }

example : g8.mems = (created 2 1 7 [8, 9]).mems ∧ Leads g8 ⟨8, 66, false, true⟩ ∧
    g8.call ⟨8, 66, false, true⟩ = .yield 7 ∧ g8.call ⟨7, 100, false, true⟩ = .request ∧
    g8.call ⟨9, 66, false, true⟩ = .nothing ∧ (g8.after ⟨8, 66, false, true⟩).leader = some 7 := by
  refine ⟨rfl, ⟨by decide, rfl⟩, ?_⟩; decide

-- the best member is down: the leader of priority 34 yields to it in vain, though one of 66 is up
def gDown : Grp := ⟨[⟨7, 100, false, false⟩, ⟨8, 66, false, true⟩, ⟨9, 34, false, true⟩], some 9⟩

example : Distinct gDown ∧ Leads gDown ⟨9, 34, false, true⟩ ∧ OnlyHighest gDown ⟨7, 100, false, false⟩ ∧
    ¬ (⟨7, 100, false, false⟩ : Mem).able ∧ (⟨8, 66, false, true⟩ : Mem).able ∧ (34 : Int) < 66 := by
  refine ⟨by unfold Distinct; decide, ⟨by decide, rfl⟩, by unfold OnlyHighest; decide, ?_, ?_, by decide⟩ <;> simp [Mem.able]

-- the member of the highest priority, 66, does not ask for the leadership
example : Highest ⟨[⟨8, 66, false, true⟩, ⟨9, 34, false, true⟩], some 9⟩ ⟨8, 66, false, true⟩ ∧
    (⟨[⟨8, 66, false, true⟩, ⟨9, 34, false, true⟩], some 9⟩ : Grp).call ⟨8, 66, false, true⟩ = .nothing := by
  unfold Highest; decide

-- a priority above 100
example : Leads ⟨[⟨7, 120, false, true⟩, ⟨8, 100, false, true⟩], some 7⟩ ⟨7, 120, false, true⟩ := ⟨by decide, rfl⟩

-- a step that changes the leader
example : ∃ g', Step g8 g' ∧ g'.leader = some 7 :=
  ⟨_, ⟨⟨8, 66, false, true⟩, by decide, rfl, Effect.yield ⟨7, 100, false, true⟩ (by decide) ⟨rfl, rfl⟩⟩, rfl⟩

end HS.Prio
