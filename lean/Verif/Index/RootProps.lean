import Verif.Index.Root
/-!
# C73: the superblock names the right root
-/
namespace HS.Index.Root

structure Inv (s : St) : Prop where
  cp1 : 1 ≤ s.cp
  md : s.mdirty ≤ s.cp
  lt : s.live = s.tree
  disk : ∀ r, s.disk = some r → s.stored r = true ∨ s.pend = some r
  pend : s.stage ≠ .recovering → s.pend = none
  cur : ∀ r, s.bufCur = some r → s.live = some r ∧ s.mdirty = s.cp
  idle : s.stage = .idle → s.bufPrev = none ∧ s.disk = s.base ∧ (s.bufCur = none → s.tree = s.base)
  drain : s.stage = .drain → 2 ≤ s.cp ∧ s.disk = s.base ∧ (s.bufPrev = none → s.rootPrev = s.base) ∧
    (∀ r, s.bufPrev = some r → s.rootPrev = some r) ∧ (s.bufCur = none → s.tree = s.rootPrev) ∧
    (s.zero = true → s.bufCur = none)
  flush : s.stage = .flush → 2 ≤ s.cp ∧ (s.bufPrev = none → s.disk = s.rootPrev) ∧
    (∀ r, s.bufPrev = some r → s.rootPrev = some r ∧ s.disk = s.base) ∧ (s.bufCur = none → s.tree = s.rootPrev) ∧
    (s.zero = true → s.bufCur = none)
  recov : s.stage = .recovering → s.bufCur = none ∧ s.bufPrev = none ∧ s.disk = s.base ∧ s.tree = s.base ∧
    (s.mdirty = 0 ∨ s.mdirty = s.cp)

theorem inv_init (zero : Bool) : Inv (St.init zero) := by
  constructor <;> simp [St.init]

theorem inv_step {s s' : St} (h : Inv s) {op : Op} (hg : Good s op) (hs : s.step op = some s') : Inv s' := by
  cases op with
  | rootChange p n =>
    cases p with
    | false =>
      simp only [St.step] at hs
      split at hs
      · cases hs
      rename_i hst
      injection hs with hs
      subst hs
      obtain ⟨hg1, hg2⟩ := hg
      have hb : (s.rootCur n).bufCur = some n := by
        show (if s.mdirty = s.cp then (if s.bufCur.isSome then some n else none) else some n) = some n
        by_cases e : s.mdirty = s.cp
        · rw [if_pos e, if_pos]
          have := hg2 e
          rcases e2 : s.bufCur with _ | x
          · exact absurd e2 this
          · rfl
        · rw [if_neg e]
      refine ⟨h.cp1, Nat.le_refl _, rfl, h.disk, h.pend, ?_, ?_, ?_, ?_, ?_⟩
      · intro r hr
        rw [hb] at hr
        injection hr with hr
        subst hr
        exact ⟨rfl, rfl⟩
      · intro hi
        obtain ⟨h1, h2, -⟩ := h.idle hi
        exact ⟨h1, h2, fun e => by rw [hb] at e; cases e⟩
      · intro hi
        obtain ⟨h1, h2, h3, h4, h5, h6⟩ := h.drain hi
        refine ⟨h1, h2, h3, h4, (fun e => by rw [hb] at e; cases e), fun hz => ?_⟩
        have : s.stage = .idle := hg1 hz
        have hi' : s.stage = .drain := hi
        rw [this] at hi'; cases hi'
      · intro hi
        obtain ⟨h1, h2, h3, h5, h6⟩ := h.flush hi
        refine ⟨h1, h2, h3, (fun e => by rw [hb] at e; cases e), fun hz => ?_⟩
        have : s.stage = .idle := hg1 hz
        have hi' : s.stage = .flush := hi
        rw [this] at hi'; cases hi'
      · intro hi
        exact absurd hi hst
    | true =>
      simp only [St.step] at hs
      split at hs
      rotate_left
      · cases hs
      rename_i hh
      obtain ⟨hst, hmd⟩ := hh
      injection hs with hs
      subst hs
      obtain ⟨h1, h2, h3, h4, h5, h6⟩ := h.drain hst
      have hcn : s.bufCur = none := by
        rcases e : s.bufCur with _ | r
        · rfl
        · have := (h.cur r e).2; omega
      have hb : (s.rootOld n).bufPrev = some n := by
        show (if s.mdirty = s.cp - 1 then (if s.bufPrev.isSome then some n else none) else some n) = some n
        by_cases e : s.mdirty = s.cp - 1
        · rw [if_pos e, if_pos]
          have := hg e
          rcases e2 : s.bufPrev with _ | x
          · exact absurd e2 this
          · rfl
        · rw [if_neg e]
      refine ⟨h.cp1, ?_, rfl, h.disk, h.pend, ?_, ?_, ?_, ?_, ?_⟩
      · show s.cp - 1 ≤ s.cp; omega
      · intro r hr
        have hr' : s.bufCur = some r := hr
        rw [hcn] at hr'; cases hr'
      · intro hi
        have hi' : s.stage = .idle := hi
        rw [hst] at hi'; cases hi'
      · intro _
        refine ⟨h1, h2, (fun e => by rw [hb] at e; cases e), ?_, (fun _ => rfl), h6⟩
        intro r hr
        rw [hb] at hr
        exact hr
      · intro hi
        have hi' : s.stage = .flush := hi
        rw [hst] at hi'; cases hi'
      · intro hi
        have hi' : s.stage = .recovering := hi
        rw [hst] at hi'; cases hi'
  | switchover =>
    simp only [St.step] at hs
    split at hs
    rotate_left
    · cases hs
    rename_i hst
    injection hs with hs
    subst hs
    obtain ⟨h1, h2, h3⟩ := h.idle hst
    have hcp := h.cp1
    have hmd := h.md
    refine ⟨?_, ?_, h.lt, h.disk, ?_, ?_, ?_, ?_, ?_, ?_⟩
    · show 1 ≤ s.cp + 1; omega
    · show s.mdirty ≤ s.cp + 1; omega
    · intro _; exact h.pend (by rw [hst]; decide)
    · intro r hr; cases hr
    · intro hi; cases hi
    · intro _
      refine ⟨?_, h2, h3, ?_, (fun _ => rfl), (fun _ => rfl)⟩
      · show 2 ≤ s.cp + 1; omega
      · intro r hr
        have := (h.cur r hr).1
        rw [h.lt] at this
        exact this
    · intro hi; cases hi
    · intro hi; cases hi
  | startFlush =>
    simp only [St.step] at hs
    split at hs
    rotate_left
    · cases hs
    rename_i hst
    injection hs with hs
    subst hs
    obtain ⟨h1, h2, h3, h4, h5, h6⟩ := h.drain hst
    refine ⟨h.cp1, h.md, h.lt, h.disk, ?_, h.cur, ?_, ?_, ?_, ?_⟩
    · intro _; exact h.pend (by rw [hst]; decide)
    · intro hi; cases hi
    · intro hi; cases hi
    · intro _
      exact ⟨h1, fun e => by rw [h3 e]; exact h2, fun r e => ⟨h4 r e, h2⟩, h5, h6⟩
    · intro hi; cases hi
  | store n =>
    simp only [St.step] at hs
    split at hs
    rotate_left
    · cases hs
    rename_i hst
    injection hs with hs
    subst hs
    refine ⟨h.cp1, h.md, h.lt, ?_, h.pend, h.cur, h.idle, h.drain, h.flush, h.recov⟩
    intro r hr
    rcases h.disk r hr with e | e
    · left; show (r == n || s.stored r) = true; rw [e]; simp
    · exact Or.inr e
  | writeMeta =>
    simp only [St.step] at hs
    split at hs
    · cases hs
    rename_i r hr
    split at hs
    rotate_left
    · cases hs
    rename_i hh
    obtain ⟨hst, hsto⟩ := hh
    injection hs with hs
    subst hs
    obtain ⟨h1, h2, h3, h5, h6⟩ := h.flush hst
    refine ⟨h.cp1, h.md, h.lt, ?_, h.pend, h.cur, ?_, ?_, ?_, ?_⟩
    · intro r' hr'
      injection hr' with hr'
      subst hr'
      exact Or.inl hsto
    · intro hi
      have hi' : s.stage = .idle := hi
      rw [hst] at hi'; cases hi'
    · intro hi
      have hi' : s.stage = .drain := hi
      rw [hst] at hi'; cases hi'
    · intro _
      refine ⟨h1, fun _ => (h3 r hr).1.symm, ?_, h5, h6⟩
      intro r' hr'; cases hr'
    · intro hi
      have hi' : s.stage = .recovering := hi
      rw [hst] at hi'; cases hi'
  | finish =>
    simp only [St.step] at hs
    split at hs
    rotate_left
    · cases hs
    rename_i hh
    obtain ⟨hst, hbp⟩ := hh
    injection hs with hs
    subst hs
    obtain ⟨h1, h2, h3, h5, h6⟩ := h.flush hst
    have hd : (if s.zero then s.live else s.disk) = s.rootPrev := by
      by_cases hz : s.zero = true
      · rw [if_pos hz, h.lt]; exact h5 (h6 hz)
      · rw [if_neg hz]; exact h2 hbp
    refine ⟨h.cp1, h.md, h.lt, ?_, ?_, h.cur, ?_, ?_, ?_, ?_⟩
    · intro r hr
      have hr' : (if s.zero then s.live else s.disk) = some r := hr
      rw [hd, ← h2 hbp] at hr'
      exact h.disk r hr'
    · intro _; exact h.pend (by rw [hst]; decide)
    · intro _; exact ⟨hbp, hd, h5⟩
    · intro hi; cases hi
    · intro hi; cases hi
    · intro hi; cases hi
  | skip =>
    simp only [St.step] at hs
    split at hs
    rotate_left
    · cases hs
    rename_i hh
    obtain ⟨hst, hbp⟩ := hh
    injection hs with hs
    subst hs
    obtain ⟨h1, h2, h3, h5, h6⟩ := h.flush hst
    refine ⟨h.cp1, h.md, h.lt, h.disk, ?_, h.cur, ?_, ?_, ?_, ?_⟩
    · intro _; exact h.pend (by rw [hst]; decide)
    · intro _; exact ⟨hbp, h2 hbp, h5⟩
    · intro hi; cases hi
    · intro hi; cases hi
    · intro hi; cases hi
  | crash =>
    simp only [St.step, Option.some.injEq] at hs
    subst hs
    have hg' : s.pend = none := hg
    have hcp : 1 ≤ (if s.stage = .drain ∨ s.stage = .flush then s.cp - 1 else s.cp) := by
      split
      · rename_i e
        rcases e with e | e
        · have := (h.drain e).1; omega
        · have := (h.flush e).1; omega
      · exact h.cp1
    refine ⟨hcp, Nat.zero_le _, rfl, ?_, ?_, ?_, ?_, ?_, ?_, ?_⟩
    · intro r hr
      rcases h.disk r hr with e | e
      · exact Or.inl e
      · rw [hg'] at e; cases e
    · intro e; exact absurd rfl e
    · intro r hr; cases hr
    · intro hi; cases hi
    · intro hi; cases hi
    · intro hi; cases hi
    · intro _; exact ⟨rfl, rfl, rfl, rfl, Or.inl rfl⟩
  | recUpdateRoot n =>
    simp only [St.step] at hs
    split at hs
    rotate_left
    · cases hs
    rename_i hh
    obtain ⟨hst, hp⟩ := hh
    injection hs with hs
    subst hs
    have hg' : s.mdirty ≠ s.cp := hg
    obtain ⟨h1, h2, h3, h4, h5⟩ := h.recov hst
    have hd : (s.rootRec n).disk = some n := if_neg hg'
    have hb : (s.rootRec n).base = some n := if_neg hg'
    refine ⟨h.cp1, Nat.le_refl _, rfl, ?_, ?_, ?_, ?_, ?_, ?_, ?_⟩
    · intro r hr
      have hr' : (s.rootRec n).disk = some r := hr
      rw [hd] at hr'
      exact Or.inr hr'
    · intro e; exact absurd hst e
    · intro r hr
      have hr' : s.bufCur = some r := hr
      rw [h1] at hr'; cases hr'
    · intro hi
      have hi' : s.stage = .idle := hi
      rw [hst] at hi'; cases hi'
    · intro hi
      have hi' : s.stage = .drain := hi
      rw [hst] at hi'; cases hi'
    · intro hi
      have hi' : s.stage = .flush := hi
      rw [hst] at hi'; cases hi'
    · intro _
      exact ⟨h1, h2, hd.trans hb.symm, hb.symm, Or.inr rfl⟩
  | recStore =>
    simp only [St.step] at hs
    split at hs
    · cases hs
    rename_i n hn
    split at hs
    rotate_left
    · cases hs
    rename_i hst
    injection hs with hs
    subst hs
    refine ⟨h.cp1, h.md, h.lt, ?_, (fun _ => rfl), h.cur, h.idle, h.drain, h.flush, h.recov⟩
    intro r hr
    left
    show (r == n || s.stored r) = true
    rcases h.disk r hr with e | e
    · rw [e]; simp
    · rw [hn] at e; injection e with e; simp [e]
  | recRepaired n =>
    simp only [St.step] at hs
    split at hs
    rotate_left
    · cases hs
    rename_i hh
    obtain ⟨hst, hp, hsto⟩ := hh
    injection hs with hs
    subst hs
    have hg' : s.live = some n := hg
    obtain ⟨h1, h2, h3, h4, h5⟩ := h.recov hst
    have htn : s.tree = some n := by rw [← h.lt]; exact hg'
    have hbn : s.base = some n := by rw [← h4]; exact htn
    have hdn : s.disk = some n := by rw [h3]; exact hbn
    have hd : (s.rootRec n).disk = some n := by
      show (if s.mdirty = s.cp then s.disk else some n) = some n
      split
      · exact hdn
      · rfl
    have hb : (s.rootRec n).base = some n := by
      show (if s.mdirty = s.cp then s.base else some n) = some n
      split
      · exact hbn
      · rfl
    refine ⟨h.cp1, Nat.le_refl _, htn.symm, ?_, h.pend, ?_, ?_, ?_, ?_, ?_⟩
    · intro r hr
      rw [hd] at hr
      injection hr with hr
      subst hr
      exact Or.inl hsto
    · intro r hr
      have hr' : s.bufCur = some r := hr
      rw [h1] at hr'; cases hr'
    · intro hi
      have hi' : s.stage = .idle := hi
      rw [hst] at hi'; cases hi'
    · intro hi
      have hi' : s.stage = .drain := hi
      rw [hst] at hi'; cases hi'
    · intro hi
      have hi' : s.stage = .flush := hi
      rw [hst] at hi'; cases hi'
    · intro _
      exact ⟨h1, h2, hd.trans hb.symm, htn.trans hb.symm, Or.inr rfl⟩
  | recDone =>
    simp only [St.step] at hs
    split at hs
    rotate_left
    · cases hs
    rename_i hh
    obtain ⟨hst, hp⟩ := hh
    injection hs with hs
    subst hs
    obtain ⟨h1, h2, h3, h4, h5⟩ := h.recov hst
    refine ⟨h.cp1, h.md, h.lt, h.disk, (fun _ => hp), h.cur, ?_, ?_, ?_, ?_⟩
    · intro _; exact ⟨h2, h3, fun _ => h4⟩
    · intro hi; cases hi
    · intro hi; cases hi
    · intro hi; cases hi

theorem inv_run : ∀ (ops : List Op) {s s' : St}, Inv s → AllGood s ops → s.run ops = some s' → Inv s'
  | [], s, s', h, _, hr => by simp only [St.run, Option.some.injEq] at hr; subst hr; exact h
  | op :: ops, s, s', h, hn, hr => by
    simp only [St.run] at hr
    cases e : s.step op with
    | none => rw [e] at hr; cases hr
    | some s1 =>
      rw [e, Option.bind_some] at hr
      exact inv_run ops (inv_step h hn.1 e) (hn.2 s1 e) hr

/-- **C73**.  After every history of root changes, checkpoints, crashes and recoveries, except the steps that `Good`
excludes: outside recovery the superblock on disk names a root that is on disk; between checkpoints it names the
root that the tree had at the end of the last checkpoint, during one that root or the one at the end of the checkpoint
being taken; and the superblock in memory names the root that operations use. -/
theorem C73_superblock_root_partial {zero : Bool} {ops : List Op} {s : St} (hg : AllGood (St.init zero) ops)
    (hr : (St.init zero).run ops = some s) :
    (s.stage ≠ .recovering → RootOnDisk s) ∧
    (s.stage = .idle → s.disk = s.base) ∧
    (s.stage = .drain → s.disk = s.base) ∧
    (s.stage = .flush → s.disk = s.base ∨ s.disk = s.rootPrev) ∧
    s.live = s.tree := by
  have h := inv_run ops (inv_init zero) hg hr
  refine ⟨?_, fun e => (h.idle e).2.1, fun e => (h.drain e).2.1, ?_, h.lt⟩
  · intro hst r hd
    rcases h.disk r hd with e | e
    · exact e
    · rw [h.pend hst] at e; cases e
  · intro e
    obtain ⟨-, h2, h3, -⟩ := h.flush e
    rcases e : s.bufPrev with _ | r
    · exact Or.inr (h2 e)
    · exact Or.inl (h3 r e).2

/-! ## Violations -/

/-- A first root, on disk. -/
def first : List Op := [.rootChange false 1, .switchover, .startFlush, .store 1, .writeMeta, .finish]

/-- **C73 is violated** for the table with ordinal 0: the root is split by the next checkpoint while one is being
flushed; at its end the superblock is written with the new root, which is not on disk; a crash now leaves the
table without a root. -/
theorem C73_late_root_violated :
    ∃ s s', (St.init true).run (first ++ [.switchover, .startFlush, .rootChange false 2, .finish]) = some s ∧
      s.disk = some 2 ∧ s.stored 2 = false ∧
      s.run [.crash, .recDone] = some s' ∧ s'.tree = some 2 ∧ s'.stored 2 = false :=
  ⟨_, _, rfl, rfl, rfl, rfl, rfl, rfl⟩

/-- **C73 is violated** by a crash in recovery: the superblock is written with the new root before the root. -/
theorem C73_recovery_crash_violated :
    ∃ s, (St.init false).run (first ++ [.crash, .recUpdateRoot 2, .crash, .recDone]) = some s ∧
      s.disk = some 2 ∧ s.stored 2 = false :=
  ⟨_, rfl, rfl, rfl⟩

/-- **C73 is violated** when recovery makes a new root because the repaired old root is too full: afterwards it
names the old root again in the superblock in memory; for the table with ordinal 0 the end of the next checkpoint
writes that to disk, and after the next restart the tree starts at the old root, without the nodes beside it. -/
theorem C73_old_root_again_violated :
    ∃ s s', (St.init true).run (first ++ [.crash, .recUpdateRoot 2, .recStore, .recRepaired 1, .recDone]) = some s ∧
      s.tree = some 2 ∧ s.live = some 1 ∧ s.disk = some 2 ∧
      s.run [.switchover, .startFlush, .finish, .crash, .recDone] = some s' ∧ s'.tree = some 1 :=
  ⟨_, _, rfl, rfl, rfl, rfl, rfl, rfl⟩

/-- **C73 is violated** when the root changes again in the checkpoint in which recovery changed it: the buffer is
not on the dirty list, the new root is not written to the superblock, and after a restart the tree starts at the
previous one. -/
theorem C73_lost_root_violated :
    ∃ s s', (St.init false).run (first ++ [.crash, .recRepaired 1, .recDone, .rootChange false 2, .switchover, .startFlush,
        .store 2, .finish]) = some s ∧
      s.tree = some 2 ∧ s.stored 2 = true ∧ s.disk = some 1 ∧ s.run [.crash, .recDone] = some s' ∧ s'.tree = some 1 :=
  ⟨_, _, rfl, rfl, rfl, rfl, rfl, rfl⟩

/-! ## Non-vacuity -/

/-- A decidable version of `Good`. -/
def good (s : St) : Op → Bool
  | .rootChange false _ => (!s.zero || s.stage == .idle) && (s.mdirty != s.cp || s.bufCur != none)
  | .rootChange true _ => s.mdirty != s.cp - 1 || s.bufPrev != none
  | .recUpdateRoot _ => s.mdirty != s.cp
  | .crash => s.pend == none
  | .recRepaired n => s.live == some n
  | _ => true

def allGood (s : St) : List Op → Bool
  | [] => true
  | op :: ops => good s op && (match s.step op with | some s' => allGood s' ops | none => true)

theorem good_sound (s : St) (op : Op) (h : good s op = true) : Good s op := by
  cases op with
  | rootChange p n =>
    cases p with
    | false =>
      simp only [good, Bool.and_eq_true, Bool.or_eq_true, Bool.not_eq_true', beq_iff_eq, bne_iff_ne] at h
      refine ⟨fun e => ?_, fun e => ?_⟩
      · rcases h.1 with h1 | h1
        · rw [h1] at e; cases e
        · exact h1
      · rcases h.2 with h1 | h1
        · exact absurd e h1
        · exact h1
    | true =>
      simp only [good, Bool.or_eq_true, bne_iff_ne] at h
      intro e
      rcases h with h1 | h1
      · exact absurd e h1
      · exact h1
  | recUpdateRoot n => simpa [good, Good] using h
  | crash => simpa [good, Good] using h
  | recRepaired n => simpa [good, Good] using h
  | _ => trivial

theorem allGood_sound : ∀ (ops : List Op) (s : St), allGood s ops = true → AllGood s ops
  | [], _, _ => trivial
  | op :: ops, s, h => by
    simp only [allGood, Bool.and_eq_true] at h
    refine ⟨good_sound s op h.1, fun s' hs' => allGood_sound ops s' ?_⟩
    have := h.2; rw [hs'] at this; exact this

/-- A root changed twice, by both checkpoints at a switchover, a crash between the two superblock writes, and a
recovery that makes a new root. -/
def hist : List Op := first ++ [.rootChange false 2, .switchover, .rootChange true 3, .rootChange false 4, .startFlush,
  .store 3, .writeMeta, .crash, .recUpdateRoot 5, .recStore, .recRepaired 5, .recDone, .switchover, .rootChange false 6,
  .startFlush, .finish, .switchover, .startFlush, .store 6]

example : ∃ s, AllGood (St.init false) hist ∧ (St.init false).run hist = some s ∧ s.disk = some 5 ∧ s.tree = some 6 :=
  ⟨_, allGood_sound _ _ rfl, rfl, rfl, rfl⟩

end HS.Index.Root
