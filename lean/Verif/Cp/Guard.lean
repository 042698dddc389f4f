import Verif.Cp.Model
/-!
# C46: CPGuard reference counting, and C27: the watchdog

Models `CPGuard` of /repo/src/lib/checkpoint/cp_mgr.cpp:382-428.  Guards, threads and checkpoints are numbers;
`cnt` is `m_enter_cnt` of each checkpoint (the flush triggered by the last exit is in `Model.lean`); `cur` is the current
checkpoint, which other threads may advance at any time.
-/
namespace HS.Cp

/-- A `CPGuard` object: `m_cp`, `m_pushed`. -/
structure G where
  cp : Nat
  pushed : Bool
deriving DecidableEq, Repr

structure GSt where
  guards : Nat → Option G          -- live guard objects
  stack : Nat → List (Nat × Nat)   -- `t_cp_stack` of each thread: checkpoint, and (bookkeeping) the guard that pushed it
  cnt : Nat → Int                  -- `m_enter_cnt`
  cur : Nat
  live : List Nat                  -- bookkeeping: ids of the live guards

inductive GOp
  | create (t g : Nat)             -- `CPGuard(CPManager*)` on thread t, lines 383-395
  | copy (g h : Nat)               -- new guard h copied from g, lines 405-409
  | get (t g : Nat)                -- `get`, lines 421-428
  | destroy (t g : Nat)            -- destructor on thread t, lines 397-403
  | assign (g h : Nat)             -- `g = h`, lines 411-416
  | advance                        -- another thread switches to the next checkpoint
deriving DecidableEq

def guardStep (s : GSt) : GOp → Option GSt
  | .create t g =>
    match s.guards g with
    | some _ => none
    | none =>
      let c := match s.stack t with
        | [] => s.cur              -- first section of this thread
        | (c, _) :: _ => c         -- nested section
      some { s with guards := upd s.guards g (some ⟨c, true⟩), cnt := upd s.cnt c (s.cnt c + 1),
                    stack := upd s.stack t ((c, g) :: s.stack t), live := g :: s.live }
  | .copy g h =>
    match s.guards g, s.guards h with
    | some x, none => some { s with guards := upd s.guards h (some ⟨x.cp, false⟩), cnt := upd s.cnt x.cp (s.cnt x.cp + 1),
                                    live := h :: s.live }
    | _, _ => none
  | .get t g =>
    match s.guards g with
    | none => none
    | some x => if x.pushed then some s
                else some { s with guards := upd s.guards g (some ⟨x.cp, true⟩), stack := upd s.stack t ((x.cp, g) :: s.stack t) }
  | .destroy t g =>
    match s.guards g with
    | none => none
    | some x => some { s with guards := upd s.guards g none, cnt := upd s.cnt x.cp (s.cnt x.cp - 1),
                              stack := if x.pushed then upd s.stack t (s.stack t).tail else s.stack, live := s.live.erase g }
  /- the value returned by `operator=` is a copy that dies at once: one more increment and decrement -/
  | .assign g h =>
    match s.guards g, s.guards h with
    | some _, some y => some { s with guards := upd s.guards g (some ⟨y.cp, false⟩), cnt := upd s.cnt y.cp (s.cnt y.cp + 1) }
    | _, _ => none
  | .advance => some { s with cur := s.cur + 1 }

def gInit : GSt := ⟨fun _ => none, fun _ => [], fun _ => 0, 0, []⟩

/-- Number of live guards on checkpoint `c`. -/
def held (s : GSt) (c : Nat) : Nat := s.live.countP fun g => (s.guards g).map G.cp == some c

/-- Programs that do not assign guards. -/
def NoAssign : GOp → Prop
  | .assign _ _ => False
  | _ => True

instance (o : GOp) : Decidable (NoAssign o) := by cases o <;> unfold NoAssign <;> infer_instance

/-- Programs that destroy guards in reverse order of their use on each thread, on the thread that used them last. -/
def Lifo (s : GSt) : GOp → Prop
  | .destroy t g => ∀ x, s.guards g = some x → x.pushed = true → (s.stack t).head? = some (x.cp, g)
  | _ => True

structure GInv (s : GSt) : Prop where
  nd : s.live.Nodup
  lv : ∀ g, g ∈ s.live ↔ (s.guards g).isSome
  cnt : ∀ c, s.cnt c = held s c

theorem countP_congr' {l : List Nat} {p q : Nat → Bool} (h : ∀ x ∈ l, p x = q x) : l.countP p = l.countP q := by
  induction l with
  | nil => rfl
  | cons a l ih =>
    simp only [List.countP_cons]
    rw [ih (fun x hx => h x (by simp [hx])), h a (by simp)]

theorem held_cons {s : GSt} {g c : Nat} {x : G} {k} (hg : s.guards g = none) (hl : ∀ g, g ∈ s.live ↔ (s.guards g).isSome) :
    held { s with guards := upd s.guards g (some x), live := g :: s.live, cnt := k } c =
      held s c + if x.cp = c then 1 else 0 := by
  simp only [held, List.countP_cons]
  have hn : g ∉ s.live := by rw [hl]; simp [hg]
  have : s.live.countP (fun a => (upd s.guards g (some x) a).map G.cp == some c) =
      s.live.countP (fun a => (s.guards a).map G.cp == some c) := by
    apply countP_congr'
    intro a ha
    have : a ≠ g := fun e => hn (e ▸ ha)
    simp [upd, this]
  rw [this]
  simp [upd]

theorem ginv_step {s o s'} (h : GInv s) (ha : NoAssign o) (hs : guardStep s o = some s') : GInv s' := by
  obtain ⟨nd, lv, cn⟩ := h
  cases o with
  | create t g =>
    simp only [guardStep] at hs
    split at hs
    · simp at hs
    rename_i hg
    simp only [Option.some.injEq] at hs; subst hs
    generalize hc : (match s.stack t with | [] => s.cur | (c, _) :: _ => c) = c
    refine ⟨?_, ?_, ?_⟩
    · simp only [List.nodup_cons]; exact ⟨by rw [lv]; simp [hg], nd⟩
    · intro x; simp only [List.mem_cons, upd]; have := lv x; split <;> simp_all
    · intro d
      have := held_cons (c := d) (x := ⟨c, true⟩) (k := s.cnt) hg lv
      have e : held ⟨upd s.guards g (some ⟨c, true⟩), upd s.stack t ((c, g) :: s.stack t), upd s.cnt c (s.cnt c + 1), s.cur, g :: s.live⟩ d =
          held s d + if c = d then 1 else 0 := this
      rw [e]
      have := cn d
      simp only [upd]
      split <;> split <;> first | omega | (exfalso; omega) | (rename_i e1 e2; subst e1; omega)
  | copy g h =>
    simp only [guardStep] at hs
    split at hs
    rotate_left
    · simp at hs
    rename_i x hg hh
    simp only [Option.some.injEq] at hs; subst hs
    refine ⟨?_, ?_, ?_⟩
    · simp only [List.nodup_cons]; exact ⟨by rw [lv]; simp [hh], nd⟩
    · intro y; simp only [List.mem_cons, upd]; have := lv y; split <;> simp_all
    · intro d
      have e := held_cons (c := d) (x := ⟨x.cp, false⟩) (k := upd s.cnt x.cp (s.cnt x.cp + 1)) hh lv
      rw [e]
      have := cn d
      simp only [upd]
      split <;> split <;> first | omega | (exfalso; omega) | (rename_i e1 e2; subst e1; omega)
  | get t g =>
    simp only [guardStep] at hs
    split at hs
    · simp at hs
    rename_i x hg
    split at hs
    · simp only [Option.some.injEq] at hs; subst hs; exact ⟨nd, lv, cn⟩
    · simp only [Option.some.injEq] at hs; subst hs
      refine ⟨nd, ?_, ?_⟩
      · intro y; have := lv y; simp only [upd]; split <;> simp_all
      · intro d
        rw [show held { s with guards := upd s.guards g (some ⟨x.cp, true⟩), stack := upd s.stack t ((x.cp, g) :: s.stack t) } d = held s d from ?_]
        · exact cn d
        · simp only [held]
          apply countP_congr'
          intro a _
          by_cases e : a = g
          · subst e; simp [upd, hg]
          · simp [upd, e]
  | destroy t g =>
    simp only [guardStep] at hs
    split at hs
    · simp at hs
    rename_i x hg
    simp only [Option.some.injEq] at hs; subst hs
    have hin : g ∈ s.live := by rw [lv]; simp [hg]
    refine ⟨nd.erase g, ?_, ?_⟩
    · intro y
      rw [List.Nodup.mem_erase_iff nd]
      have := lv y
      simp only [upd]; split <;> simp_all
    · intro d
      have e : s.live.countP (fun a => (s.guards a).map G.cp == some d) =
          (s.live.erase g).countP (fun a => (upd s.guards g none a).map G.cp == some d) + if x.cp = d then 1 else 0 := by
        rw [(List.perm_cons_erase hin).countP_eq, List.countP_cons]
        congr 1
        · apply countP_congr'
          intro a ha
          have : a ≠ g := by
            rw [List.Nodup.mem_erase_iff nd] at ha; exact ha.1
          simp [upd, this]
        · simp [hg]
      have := cn d
      simp only [held] at this ⊢
      rw [e] at this
      simp only [upd] at this ⊢
      split <;> split at this <;> first | omega | (exfalso; omega) | (rename_i e1 e2; subst e1; omega)
  | assign g h => exact absurd ha (by simp [NoAssign])
  | advance =>
    simp only [guardStep, Option.some.injEq] at hs; subst hs
    exact ⟨nd, lv, cn⟩

/-- Executions of guard operations all of which satisfy `ok`. -/
inductive GReach (ok : GSt → GOp → Prop) : GSt → Prop
  | init : GReach ok gInit
  | step {s o s'} : GReach ok s → ok s o → guardStep s o = some s' → GReach ok s'

/-- **C46** (partial: programs that never assign one guard to another; see `C46_assign_violated`).  In every
reachable state the entry count of each checkpoint is exactly the number of live guards on it; in particular when the
last guard on a checkpoint is destroyed its count is zero. -/
theorem C46_count_partial {s} (h : GReach (fun _ o => NoAssign o) s) (c : Nat) : s.cnt c = held s c := by
  have : GInv s := by
    induction h with
    | init => exact ⟨by simp [gInit], by simp [gInit], by simp [gInit, held]⟩
    | step _ ho hs ih => exact ginv_step ih ho hs
  exact this.cnt c

/-- **C46** is violated by assignment: after `g := h` and the destruction of both guards, checkpoint 0 keeps an entry
count of one for ever, so its flush never starts. -/
theorem C46_assign_violated : ∃ s, GReach (fun _ _ => True) s ∧ (∀ c, held s c = 0) ∧ s.cnt 0 = 1 := by
  refine ⟨_, .step (o := .destroy 2 2) (.step (o := .destroy 1 1) (.step (o := .assign 1 2) (.step (o := .create 2 2) (.step (o := .advance)
    (.step (o := .create 1 1) .init trivial rfl) trivial rfl) trivial rfl) trivial rfl) trivial rfl) trivial rfl, ?_, ?_⟩
  · intro c; simp [held, gInit]
  · rfl

/-- Thread stacks when destruction is last-in-first-out. -/
structure LInv (s : GSt) : Prop where
  ent : ∀ t e, e ∈ s.stack t → s.guards e.2 = some ⟨e.1, true⟩
  uniq : ∀ t, ((s.stack t).map (·.2)).Nodup
  sep : ∀ t t' e e', e ∈ s.stack t → e' ∈ s.stack t' → e.2 = e'.2 → t = t'

theorem linv_step {s o s'} (h : LInv s) (ha : NoAssign o) (hl : Lifo s o) (hs : guardStep s o = some s') : LInv s' := by
  obtain ⟨en, un, se⟩ := h
  have fresh : ∀ g, s.guards g = none → ∀ t e, e ∈ s.stack t → e.2 ≠ g := by
    intro g hg t e he e2
    have := en t e he
    rw [e2, hg] at this; simp at this
  have freshp : ∀ g x, s.guards g = some x → x.pushed = false → ∀ t e, e ∈ s.stack t → e.2 ≠ g := by
    intro g x hg hx t e he e2
    have := en t e he
    rw [e2, hg] at this
    simp at this; rw [this] at hx; simp at hx
  have push : ∀ (g c t : Nat), (∀ t e, e ∈ s.stack t → e.2 ≠ g) → ∀ cnt cur live,
      LInv ⟨upd s.guards g (some ⟨c, true⟩), upd s.stack t ((c, g) :: s.stack t), cnt, cur, live⟩ := by
    intro g c t hf cnt cur live
    refine ⟨?_, ?_, ?_⟩
    · intro t' e he
      simp only [upd] at he ⊢
      split at he
      · rename_i ht; subst ht
        rcases List.mem_cons.1 he with rfl | he
        · simp
        · rw [if_neg (hf _ e he)]; exact en _ e he
      · rw [if_neg (hf _ e he)]; exact en _ e he
    · intro t'
      simp only [upd]
      split
      · rename_i ht; subst ht
        simp only [List.map_cons, List.nodup_cons]
        refine ⟨?_, un _⟩
        intro hm
        obtain ⟨e, he, e2⟩ := List.mem_map.1 hm
        exact hf _ e he e2
      · exact un t'
    · intro t1 t2 e e' h1 h2 he
      simp only [upd] at h1 h2
      have m1 : e ∈ s.stack t1 ∨ (t1 = t ∧ e = (c, g)) := by
        split at h1
        · rename_i ht; subst ht
          rcases List.mem_cons.1 h1 with h | h
          · exact .inr ⟨rfl, h⟩
          · exact .inl h
        · exact .inl h1
      have m2 : e' ∈ s.stack t2 ∨ (t2 = t ∧ e' = (c, g)) := by
        split at h2
        · rename_i ht; subst ht
          rcases List.mem_cons.1 h2 with h | h
          · exact .inr ⟨rfl, h⟩
          · exact .inl h
        · exact .inl h2
      rcases m1 with m1 | ⟨m1, q1⟩ <;> rcases m2 with m2 | ⟨m2, q2⟩
      · exact se t1 t2 e e' m1 m2 he
      · exact absurd (he.trans (by rw [q2])) (hf _ e m1)
      · exact absurd (he.symm.trans (by rw [q1])) (hf _ e' m2)
      · rw [m1, m2]
  cases o with
  | create t g =>
    simp only [guardStep] at hs
    split at hs
    · simp at hs
    rename_i hg
    simp only [Option.some.injEq] at hs; subst hs
    exact push g _ t (fresh g hg) _ _ _
  | copy g h =>
    simp only [guardStep] at hs
    split at hs
    rotate_left
    · simp at hs
    rename_i x hg hh
    simp only [Option.some.injEq] at hs; subst hs
    refine ⟨?_, un, se⟩
    intro t e he
    have := fresh h hh t e he
    simp only [upd, if_neg this]; exact en t e he
  | get t g =>
    simp only [guardStep] at hs
    split at hs
    · simp at hs
    rename_i x hg
    split at hs
    · simp only [Option.some.injEq] at hs; subst hs; exact ⟨en, un, se⟩
    · rename_i hx
      simp only [Option.some.injEq] at hs; subst hs
      exact push g _ t (freshp g x hg (by simpa using hx)) _ _ _
  | destroy t g =>
    simp only [guardStep] at hs
    split at hs
    · simp at hs
    rename_i x hg
    simp only [Option.some.injEq] at hs; subst hs
    cases hx : x.pushed with
    | false =>
      simp only [Bool.false_eq_true, if_false]
      refine ⟨?_, un, se⟩
      intro t' e he
      have := freshp g x hg hx t' e he
      simp only [upd, if_neg this]; exact en t' e he
    | true =>
      have hd := hl x hg hx
      simp only [if_true]
      obtain ⟨rest, hst⟩ : ∃ rest, s.stack t = (x.cp, g) :: rest := by
        cases hh : s.stack t with
        | nil => rw [hh] at hd; simp at hd
        | cons a l => rw [hh] at hd; simp at hd; exact ⟨l, by rw [hd]⟩
      have hun := un t
      rw [hst] at hun
      simp only [List.map_cons, List.nodup_cons] at hun
      have sub : ∀ t' e, e ∈ upd s.stack t (s.stack t).tail t' → e ∈ s.stack t' ∧ e.2 ≠ g := by
        intro t' e he
        simp only [upd] at he
        split at he
        · rename_i ht; subst ht
          rw [hst] at he ⊢
          simp only [List.tail_cons] at he
          exact ⟨by simp [he], fun e2 => hun.1 (List.mem_map.2 ⟨e, he, e2⟩)⟩
        · rename_i ht
          refine ⟨he, fun e2 => ht ?_⟩
          exact se t' t e (x.cp, g) he (by rw [hst]; simp) e2
      refine ⟨?_, ?_, ?_⟩
      · intro t' e he
        obtain ⟨h1, h2⟩ := sub t' e he
        simp only [upd, if_neg h2]; exact en t' e h1
      · intro t'
        simp only [upd]
        split
        · rw [hst]; exact hun.2
        · exact un t'
      · intro t1 t2 e e' h1 h2 he
        exact se t1 t2 e e' (sub _ _ h1).1 (sub _ _ h2).1 he
  | assign g h => exact absurd ha (by simp [NoAssign])
  | advance =>
    simp only [guardStep, Option.some.injEq] at hs; subst hs
    exact ⟨en, un, se⟩

/-- **C46**, nesting (partial: no assignment, last-in-first-out use; see `C46_order_violated`).  A nested guard is
placed on a checkpoint that some live guard already holds (so it cannot have been flushed), and a first guard on
the current checkpoint. -/
theorem C46_nest_partial {s t g s'} (h : GReach (fun s o => NoAssign o ∧ Lifo s o) s) (hs : guardStep s (.create t g) = some s') :
    ∃ x, s'.guards g = some x ∧ (x.cp = s.cur ∨ 1 ≤ held s x.cp) := by
  have hi : GInv s ∧ LInv s := by
    clear hs
    induction h with
    | init => exact ⟨⟨by simp [gInit], by simp [gInit], by simp [gInit, held]⟩, ⟨by simp [gInit], by simp [gInit], by simp [gInit]⟩⟩
    | step _ ho hs ih => exact ⟨ginv_step ih.1 ho.1 hs, linv_step ih.2 ho.1 ho.2 hs⟩
  simp only [guardStep] at hs
  split at hs
  · simp at hs
  simp only [Option.some.injEq] at hs; subst hs
  refine ⟨_, by simp only [upd, if_true]; rfl, ?_⟩
  cases hst : s.stack t with
  | nil => exact .inl rfl
  | cons e l =>
    right
    simp only
    have := hi.2.ent t e (by rw [hst]; simp)
    have hlive := (hi.1.lv e.2).2 (by simp [this])
    exact List.countP_pos_iff.2 ⟨e.2, hlive, by simp [this]⟩

/-- **C46** is violated if guards are not destroyed in reverse order: thread 1 takes guard 1 (checkpoint 0), uses a
copy (guard 3) of another thread's guard 2 on checkpoint 1, and destroys guard 1 before guard 3.  The entry popped is
guard 3's, the entry of guard 1 stays on the stack, so the next guard of the thread enters checkpoint 0, which no guard
holds and which is no longer current. -/
theorem C46_order_violated : ∃ s s' x, GReach (fun _ o => NoAssign o) s ∧ guardStep s (.create 1 4) = some s' ∧
    s'.guards 4 = some x ∧ x.cp ≠ s.cur ∧ held s x.cp = 0 := by
  refine ⟨_, _, ⟨0, true⟩, .step (o := .destroy 1 1) (.step (o := .get 1 3) (.step (o := .copy 2 3) (.step (o := .create 2 2)
    (.step (o := .advance) (.step (o := .create 1 1) .init trivial rfl) trivial rfl) trivial rfl) trivial rfl) trivial rfl) trivial rfl,
    rfl, by decide, by decide, by decide⟩

/-- The hypotheses are met by a nested use: outer guard, copy handed to thread 2, used and destroyed there. -/
example : ∃ s, GReach (fun s o => NoAssign o ∧ Lifo s o) s ∧ s.cnt 0 = 1 ∧ s.live = [1] := by
  refine ⟨_, .step (o := .destroy 2 2) (.step (o := .get 2 2) (.step (o := .copy 1 2) (.step (o := .advance)
    (.step (o := .create 1 1) .init ⟨by decide, trivial⟩ rfl) ⟨by decide, trivial⟩ rfl) ⟨by decide, trivial⟩ rfl) ⟨by decide, trivial⟩ rfl)
    ⟨by decide, ?_⟩ rfl, rfl, rfl⟩
  intro x hx _
  simp [upd, gInit] at hx
  subst hx
  simp [upd, gInit]

/-! ## Watchdog -/

/-- What the watchdog's timer does. -/
inductive Reaction | nothing | repair | abort
deriving DecidableEq, Repr

/-- `CPWatchdog::cp_watchdog_timer`, cp_mgr.cpp:460-505.  `status` = status of the watched checkpoint, if any;
`pcts` = progress reported by the consumers; `progress` = `m_progress_pct`; `elapsed`, `timer` in ms and s.
The second component is the new `m_progress_pct`. -/
def watchdog (status : Option Status) (pcts : List Nat) (progress elapsed timer : Nat) : Reaction × Nat :=
  match status with
  | none => (.nothing, progress)
  | some st =>
    if st ≠ .prepare ∨ st ≠ .flushing then (.nothing, progress)      -- line 466
    else
      let avg := pcts.sum / pcts.length
      if progress > avg then (.nothing, avg)
      else if elapsed < 12 * timer * 1000 then
        if pcts.any (· ≠ 100) then (.repair, progress) else (.abort, progress)
      else (.nothing, progress)

/-- **C27** is violated: the watchdog never reacts, whatever the status, the progress and the time elapsed (the
condition of line 466 is always true). -/
theorem C27_violated (status : Option Status) (pcts : List Nat) (progress elapsed timer : Nat) :
    (watchdog status pcts progress elapsed timer).1 = .nothing := by
  unfold watchdog
  cases status with
  | none => rfl
  | some st =>
    have : st ≠ .prepare ∨ st ≠ .flushing := by cases st <;> simp
    simp [this]

end HS.Cp
