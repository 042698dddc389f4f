import Verif.Append.Model
/-! Helper lemmas for the append allocator. -/
namespace HS.Append

/-- Fresh allocator for a chunk of `total` blocks (constructor with `need_format`,
append_blk_allocator.cpp:33-37). -/
def init (total : Nat) : St := { total := total }

/-- Callers only pass block ids that lie inside the chunk. -/
def OpOk (total : Nat) : Op → Prop
  | .commit b => b.num + b.cnt ≤ total
  | .reserveCache b => b.num + b.cnt ≤ total
  | _ => True

instance (total : Nat) (op : Op) : Decidable (OpOk total op) := by
  cases op <;> simp only [OpOk] <;> infer_instance

structure Inv (total : Nat) (s : St) : Prop where
  tot : s.total = total
  last : s.last ≤ total
  commit : s.commit ≤ total
  disk : ∀ sb, s.disk = some sb → sb.commitOffset ≤ s.commit

theorem init_inv (total : Nat) : Inv total (init total) := by
  constructor <;> simp [init]

theorem available_eq {total : Nat} {s : St} (ht : total < u32) (h : Inv total s) :
    s.available = total - s.last := by
  have := h.last; have := h.tot
  simp only [St.available, u32] at *
  omega

theorem step_inv {total : Nat} (ht : total < u32) (s : St) (op : Op) (h : Inv total s)
    (hop : OpOk total op) : Inv total (step s op).1 := by
  have hav := available_eq ht h
  obtain ⟨h1, h2, h3, h4⟩ := h
  cases op with
  | alloc n r =>
    simp only [step, St.alloc]
    split
    · rename_i hs
      have hn : n ≤ total - s.last := by
        simp only [St.hasSpace, hav] at hs
        revert hs
        cases r with
        | none => simp
        | some r => simp; split <;> omega
      refine ⟨h1, ?_, h3, h4⟩
      simp only [u32] at *
      omega
    · exact ⟨h1, h2, h3, h4⟩
  | free b => exact ⟨h1, h2, h3, h4⟩
  | commit b =>
    simp only [OpOk] at hop
    simp only [step, St.reserveOnDisk]
    have hm : (b.num + b.cnt) % u32 = b.num + b.cnt := by simp only [u32] at *; omega
    rw [hm]
    split
    · exact ⟨h1, h2, h3, h4⟩
    · exact ⟨h1, h2, hop, fun sb hsb => by have := h4 sb hsb; simp; omega⟩
  | reserveCache b =>
    simp only [OpOk] at hop
    simp only [step, St.reserveOnCache]
    have hm : (b.num + b.cnt) % u32 = b.num + b.cnt := by simp only [u32] at *; omega
    rw [hm]
    split
    · exact ⟨h1, h2, h3, h4⟩
    · exact ⟨h1, hop, h3, h4⟩
  | cpFlush =>
    simp only [step, St.cpFlush]
    split
    · exact ⟨h1, h2, h3, by simp⟩
    · exact ⟨h1, h2, h3, h4⟩
  | crash =>
    simp only [step, St.restart]
    split
    · rename_i sb hsb
      have := h4 sb hsb
      refine ⟨h1, ?_, ?_, ?_⟩ <;> simp [hsb] <;> omega
    · refine ⟨h1, ?_, ?_, ?_⟩ <;> simp

theorem run_inv {total : Nat} (ht : total < u32) (s : St) (ops : List Op) (h : Inv total s)
    (hops : ∀ op ∈ ops, OpOk total op) : Inv total (runOut step s ops).1 := by
  induction ops generalizing s with
  | nil => exact h
  | cons op ops ih =>
    exact ih _ (step_inv ht s op h (hops op (by simp))) (fun o ho => hops o (by simp [ho]))

theorem alloc_ok {total : Nat} (ht : total < u32) {s : St} (h : Inv total s) {n : Nat}
    {r : Option Nat} {b : Bid} (hs : (s.alloc n r).2 = .ok b) :
    b = ⟨s.last, n⟩ ∧ s.last + n ≤ total ∧ (s.alloc n r).1.last = s.last + n := by
  have hav := available_eq ht h
  have := h.last
  simp only [St.alloc] at *
  by_cases hsp : s.hasSpace n r = true
  · rw [if_pos hsp] at *
    simp only [Out.ok.injEq] at hs
    have hn : n ≤ total - s.last := by
      simp only [St.hasSpace, hav] at hsp
      revert hsp
      cases r with
      | none => simp
      | some r => simp; split <;> omega
    refine ⟨hs.symm, by omega, ?_⟩
    simp only [u32] at *
    omega
  · rw [if_neg hsp] at hs
    exact absurd hs (by simp)

/-- In a crash free step the cursor does not move back, and a returned range lies between the
old and the new cursor. -/
theorem step_mono {total : Nat} (ht : total < u32) (s : St) (op : Op) (h : Inv total s)
    (hop : OpOk total op) (hc : op ≠ .crash) :
    s.last ≤ (step s op).1.last ∧
    (∀ b, (step s op).2 = .ok b → s.last = b.num ∧ b.num + b.cnt ≤ (step s op).1.last ∧
      b.num + b.cnt ≤ total) := by
  cases op with
  | crash => exact absurd rfl hc
  | alloc n r =>
    constructor
    · cases ho : (s.alloc n r).2 with
      | ok b => have := alloc_ok ht h ho; simp only [step]; omega
      | spaceFull =>
        simp only [step, St.alloc] at *
        split at ho
        · simp at ho
        · simp_all
      | done =>
        simp only [step, St.alloc] at *
        split at ho <;> simp at ho
    · intro b hb
      have := alloc_ok ht h hb
      simp only [step]
      obtain ⟨rfl, h2, h3⟩ := this
      simp [h3, h2]
  | free b => simp [step, St.free]
  | commit b =>
    simp only [step, St.reserveOnDisk]
    split <;> simp
  | reserveCache b =>
    simp only [step, St.reserveOnCache]
    split
    · simp
    · simp; omega
  | cpFlush =>
    simp only [step, St.cpFlush]
    split <;> simp

theorem outs_ge {total : Nat} (ht : total < u32) (s : St) (ops : List Op) (h : Inv total s)
    (hops : ∀ op ∈ ops, OpOk total op) (hc : ∀ op ∈ ops, op ≠ .crash) :
    (∀ b, Out.ok b ∈ (runOut step s ops).2 → s.last ≤ b.num ∧ b.num + b.cnt ≤ total) ∧
    (runOut step s ops).2.Pairwise (fun o o' => ∀ b b', o = .ok b → o' = .ok b' →
      b.num + b.cnt ≤ b'.num) := by
  induction ops generalizing s with
  | nil => simp [runOut]
  | cons op ops ih =>
    have hm := step_mono ht s op h (hops op (by simp)) (hc op (by simp))
    have hi := step_inv ht s op h (hops op (by simp))
    have := ih _ hi (fun o ho => hops o (by simp [ho])) (fun o ho => hc o (by simp [ho]))
    simp only [runOut, List.mem_cons, List.pairwise_cons]
    refine ⟨?_, ?_, this.2⟩
    · intro b hb
      rcases hb with hb | hb
      · have := hm.2 b hb.symm; omega
      · have := this.1 b hb; omega
    · intro o' ho' b b' hb hb'
      subst hb'
      have h1 := this.1 b' ho'
      have h2 := hm.2 b hb
      omega

/-- Persistence invariant: the offset `off` is covered either by the disk or by a dirty
in-memory commit offset, and the cursor is above it. -/
structure Cov (off : Nat) (s : St) : Prop where
  last : off ≤ s.last
  commit : off ≤ s.commit
  cov : s.dirty = true ∨ ∃ sb, s.disk = some sb ∧ off ≤ sb.commitOffset

structure OnDisk (off : Nat) (s : St) : Prop where
  last : off ≤ s.last
  commit : off ≤ s.commit
  disk : ∃ sb, s.disk = some sb ∧ off ≤ sb.commitOffset

theorem cov_step {total off : Nat} (ht : total < u32) (s : St) (op : Op) (h : Inv total s)
    (hop : OpOk total op) (hc : op ≠ .crash) (hcov : Cov off s) : Cov off (step s op).1 := by
  have hm := step_mono ht s op h hop hc
  obtain ⟨h1, h2, h3⟩ := hcov
  refine ⟨by omega, ?_, ?_⟩
  · cases op <;> simp only [step, St.alloc, St.free, St.reserveOnDisk, St.reserveOnCache, St.cpFlush]
    case crash => exact absurd rfl hc
    all_goals grind
  · cases op <;> simp only [step, St.alloc, St.free, St.reserveOnDisk, St.reserveOnCache, St.cpFlush]
    case crash => exact absurd rfl hc
    all_goals (try split) <;> simp_all

theorem onDisk_step {total off : Nat} (ht : total < u32) (s : St) (op : Op) (h : Inv total s)
    (hop : OpOk total op) (hd : OnDisk off s) : OnDisk off (step s op).1 := by
  obtain ⟨h1, h2, sb, h3, h4⟩ := hd
  by_cases hc : op = .crash
  · subst hc
    simp only [step, St.restart, h3]
    exact ⟨h4, h4, sb, rfl, h4⟩
  · have hm := step_mono ht s op h hop hc
    have hcv := cov_step ht s op h hop hc ⟨h1, h2, Or.inr ⟨sb, h3, h4⟩⟩
    refine ⟨hcv.last, hcv.commit, ?_⟩
    cases op <;> simp only [step, St.alloc, St.free, St.reserveOnDisk, St.reserveOnCache, St.cpFlush]
    case crash => exact absurd rfl hc
    all_goals (try split) <;> simp_all

theorem cov_run {total off : Nat} (ht : total < u32) (s : St) (ops : List Op) (h : Inv total s)
    (hops : ∀ op ∈ ops, OpOk total op) (hc : ∀ op ∈ ops, op ≠ .crash) (hcov : Cov off s) :
    Cov off (runOut step s ops).1 := by
  induction ops generalizing s with
  | nil => exact hcov
  | cons op ops ih =>
    exact ih _ (step_inv ht s op h (hops op (by simp))) (fun o ho => hops o (by simp [ho]))
      (fun o ho => hc o (by simp [ho]))
      (cov_step ht s op h (hops op (by simp)) (hc op (by simp)) hcov)

theorem onDisk_run {total off : Nat} (ht : total < u32) (s : St) (ops : List Op) (h : Inv total s)
    (hops : ∀ op ∈ ops, OpOk total op) (hcov : OnDisk off s) :
    OnDisk off (runOut step s ops).1 := by
  induction ops generalizing s with
  | nil => exact hcov
  | cons op ops ih =>
    exact ih _ (step_inv ht s op h (hops op (by simp))) (fun o ho => hops o (by simp [ho]))
      (onDisk_step ht s op h (hops op (by simp)) hcov)

/-! ### Concurrent part -/

/-- Invariant of the schedules in which at most one thread is between check and add. -/
structure SInv (s : CSt) : Prop where
  tot : s.total < u32
  last : s.last ≤ s.total
  outs : ∀ b ∈ s.outs, b.num + b.cnt ≤ s.last
  disj : s.outs.Pairwise (fun b b' => b'.num + b'.cnt ≤ b.num)
  single : ∀ t t' n n', s.pc t = .checked n → s.pc t' = .checked n' → t = t'
  room : ∀ t n, s.pc t = .checked n → s.last + n ≤ s.total

/-- The action does not start an allocation while another thread is inside one. -/
def SingleWriter (s : CSt) : CAct → Prop
  | .allocCheck _ _ => ∀ t n, s.pc t ≠ .checked n
  | _ => True

/-- Schedules respecting the single-writer rule all along. -/
def SingleWriterRun : CSt → List CAct → Prop
  | _, [] => True
  | s, a :: as => SingleWriter s a ∧ ∀ s', cstep s a = some s' → SingleWriterRun s' as

theorem setPc_pc (s : CSt) (t u : Nat) (p : PC) :
    (s.setPc t p).pc u = if u = t then p else s.pc u := rfl

theorem sinv_step (s s' : CSt) (a : CAct) (h : SInv s) (hw : SingleWriter s a)
    (hs : cstep s a = some s') : SInv s' ∧ s'.total = s.total := by
  obtain ⟨h1, h2, h3, h4, h5, h6⟩ := h
  cases a with
  | allocCheck t n =>
    simp only [cstep] at hs
    split at hs
    rotate_left
    · exact absurd hs (by simp)
    split at hs
    · simp only [Option.some.injEq] at hs; subst hs; exact ⟨⟨h1, h2, h3, h4, h5, h6⟩, rfl⟩
    · rename_i hp hr
      simp only [Option.some.injEq] at hs; subst hs
      simp only [SingleWriter] at hw
      refine ⟨⟨h1, h2, h3, h4, ?_, ?_⟩, rfl⟩
      · intro a b m m' ha hb
        rw [setPc_pc] at ha hb
        split at ha <;> split at hb <;> first | omega | exact absurd ‹_› (hw _ _)
      · intro a m ha
        rw [setPc_pc] at ha
        split at ha
        · simp only [PC.checked.injEq] at ha
          simp only [CSt.setPc, u32] at *
          omega
        · exact absurd ha (hw _ _)
  | allocAdd t =>
    simp only [cstep] at hs
    split at hs
    rotate_left
    · exact absurd hs (by simp)
    rename_i n hp
    simp only [Option.some.injEq] at hs; subst hs
    have hroom := h6 t n hp
    have e : (s.last + n) % u32 = s.last + n := by simp only [u32] at *; omega
    refine ⟨⟨h1, ?_, ?_, ?_, ?_, ?_⟩, rfl⟩
    · simp only [e]; exact hroom
    · simp only [e]
      intro b hb
      simp only [List.mem_cons] at hb
      rcases hb with rfl | hb
      · simp
      · have := h3 b hb; omega
    · simp only [List.pairwise_cons]
      exact ⟨fun b hb => h3 b hb, h4⟩
    · intro a b m m' ha hb
      simp only [CSt.setPc] at ha hb
      split at ha
      · simp at ha
      · split at hb
        · simp at hb
        · exact h5 a b m m' ha hb
    · intro a m ha
      simp only [CSt.setPc] at ha
      split at ha
      · simp at ha
      · rename_i hne; exact absurd (h5 a t m n ha hp) hne
  | commitCas t off =>
    simp only [cstep] at hs
    split at hs
    rotate_left
    · exact absurd hs (by simp)
    split at hs <;> simp only [Option.some.injEq] at hs <;> subst hs
    · exact ⟨⟨h1, h2, h3, h4, h5, h6⟩, rfl⟩
    · refine ⟨⟨h1, h2, h3, h4, ?_, ?_⟩, rfl⟩
      · intro a b m m' ha hb
        simp only [CSt.setPc] at ha hb
        split at ha
        · simp at ha
        · split at hb
          · simp at hb
          · exact h5 a b m m' ha hb
      · intro a m ha
        simp only [CSt.setPc] at ha
        split at ha
        · simp at ha
        · exact h6 a m ha
  | flushBegin t =>
    simp only [cstep] at hs
    split at hs
    rotate_left
    · exact absurd hs (by simp)
    split at hs <;> simp only [Option.some.injEq] at hs <;> subst hs
    · refine ⟨⟨h1, h2, h3, h4, ?_, ?_⟩, rfl⟩
      · intro a b m m' ha hb
        simp only [CSt.setPc] at ha hb
        split at ha
        · simp at ha
        · split at hb
          · simp at hb
          · exact h5 a b m m' ha hb
      · intro a m ha
        simp only [CSt.setPc] at ha
        split at ha
        · simp at ha
        · exact h6 a m ha
    · exact ⟨⟨h1, h2, h3, h4, h5, h6⟩, rfl⟩
  | commitDirty t | flushLoad t | flushWrite t =>
    simp only [cstep] at hs
    split at hs
    rotate_left
    · exact absurd hs (by simp)
    simp only [Option.some.injEq] at hs; subst hs
    refine ⟨⟨h1, h2, h3, h4, ?_, ?_⟩, rfl⟩
    · intro a b m m' ha hb
      simp only [CSt.setPc] at ha hb
      split at ha
      · simp at ha
      · split at hb
        · simp at hb
        · exact h5 a b m m' ha hb
    · intro a m ha
      simp only [CSt.setPc] at ha
      split at ha
      · simp at ha
      · exact h6 a m ha

theorem sinv_run (s s' : CSt) (as : List CAct) (h : SInv s) (hw : SingleWriterRun s as)
    (hs : runOpt cstep s as = some s') : SInv s' ∧ s'.total = s.total := by
  induction as generalizing s with
  | nil => simp only [runOpt, Option.some.injEq] at hs; subst hs; exact ⟨h, rfl⟩
  | cons a as ih =>
    simp only [runOpt] at hs
    cases hc : cstep s a with
    | none => simp [hc] at hs
    | some s1 =>
      rw [hc] at hs
      have h1 := sinv_step s s1 a h hw.1 hc
      have h2 := ih s1 h1.1 (hw.2 s1 hc) hs
      exact ⟨h2.1, h2.2.trans h1.2⟩

/-- No flush begins while some `reserve_on_disk` call is between its two atomic steps. -/
def QuiesceOk (s : CSt) : CAct → Prop
  | .flushBegin _ => ∀ t off, s.pc t ≠ .casDone off
  | _ => True

def QuiesceRun : CSt → List CAct → Prop
  | _, [] => True
  | s, a :: as => QuiesceOk s a ∧ ∀ s', cstep s a = some s' → QuiesceRun s' as

structure FInv (s : CSt) : Prop where
  j1 : ∀ off ∈ s.committed, off ≤ s.commit
  j2 : s.commit ≤ s.disk ∨ s.dirty = true ∨ (∃ t o, s.pc t = .casDone o) ∨
    (∃ t snap, s.pc t = .flushXchg snap) ∨ (∃ t snap c, s.pc t = .flushLoad snap c ∧ s.commit ≤ c)
  j3 : ∀ t snap, s.pc t = .flushXchg snap → s.mtx = some t ∧ (∀ off ∈ snap, off ≤ s.commit)
  j4 : ∀ t snap c, s.pc t = .flushLoad snap c →
    s.mtx = some t ∧ (∀ off ∈ snap, off ≤ c) ∧ s.disk ≤ c ∧ c ≤ s.commit
  j5 : ∀ off ∈ s.flushed, off ≤ s.disk
  j6 : s.disk ≤ s.commit
  j7 : ∀ t o, s.pc t = .casDone o → o ≤ s.commit

/-- The disjunction `j2` as a predicate on the parts of the state it uses. -/
def J2 (pc : Nat → PC) (commit disk : Nat) (dirty : Bool) : Prop :=
  commit ≤ disk ∨ dirty = true ∨ (∃ t o, pc t = .casDone o) ∨
    (∃ t snap, pc t = .flushXchg snap) ∨ (∃ t snap c, pc t = .flushLoad snap c ∧ commit ≤ c)

/-- `j2` survives a step of thread `t` that was not itself a witness. -/
theorem j2_frame {pc : Nat → PC} {t : Nat} {p : PC} {commit disk : Nat} {dirty : Bool}
    (h : J2 pc commit disk dirty) (h1 : ∀ o, pc t ≠ .casDone o) (h2 : ∀ sn, pc t ≠ .flushXchg sn)
    (h3 : ∀ sn c, pc t ≠ .flushLoad sn c) :
    J2 (fun u => if u = t then p else pc u) commit disk dirty := by
  rcases h with h | h | ⟨u, o, h⟩ | ⟨u, sn, h⟩ | ⟨u, sn, c, h, hc⟩
  · exact Or.inl h
  · exact Or.inr (Or.inl h)
  · exact Or.inr (Or.inr (Or.inl ⟨u, o, by grind⟩))
  · exact Or.inr (Or.inr (Or.inr (Or.inl ⟨u, sn, by grind⟩)))
  · exact Or.inr (Or.inr (Or.inr (Or.inr ⟨u, sn, c, by grind, hc⟩)))

theorem finv_step (s s' : CSt) (a : CAct) (h : FInv s) (hw : QuiesceOk s a)
    (hs : cstep s a = some s') : FInv s' := by
  obtain ⟨h1, h2, h3, h4, h5, h6, h7⟩ := h
  have h2' : J2 s.pc s.commit s.disk s.dirty := h2
  cases a with
  | allocCheck t n =>
    simp only [cstep] at hs
    refine ⟨?_, ?_, ?_, ?_, ?_, ?_, ?_⟩
    case refine_2 =>
      split at hs
      rotate_left
      · simp at hs
      split at hs
      · simp only [Option.some.injEq] at hs; subst hs; exact h2
      · simp only [Option.some.injEq] at hs; subst hs
        exact j2_frame h2' (by grind) (by grind) (by grind)
    all_goals grind [CSt.setPc]
  | allocAdd t =>
    simp only [cstep] at hs
    refine ⟨?_, ?_, ?_, ?_, ?_, ?_, ?_⟩
    case refine_2 =>
      split at hs
      rotate_left
      · simp at hs
      simp only [Option.some.injEq] at hs; subst hs
      exact j2_frame h2' (by grind) (by grind) (by grind)
    all_goals grind [CSt.setPc]
  | commitCas t off =>
    simp only [cstep] at hs
    split at hs
    rotate_left
    · simp at hs
    split at hs
    · simp only [Option.some.injEq] at hs; subst hs
      exact ⟨by grind, h2, h3, h4, h5, h6, h7⟩
    · simp only [Option.some.injEq] at hs; subst hs
      refine ⟨by grind [CSt.setPc], Or.inr (Or.inr (Or.inl ⟨t, off, by simp [CSt.setPc]⟩)), ?_, ?_, ?_, ?_, ?_⟩
      all_goals simp only [CSt.setPc]
      all_goals grind
  | commitDirty t =>
    simp only [cstep] at hs
    split at hs
    rotate_left
    · simp at hs
    simp only [Option.some.injEq] at hs; subst hs
    refine ⟨by grind [CSt.setPc], Or.inr (Or.inl rfl), ?_, ?_, ?_, ?_, ?_⟩
    all_goals simp only [CSt.setPc]
    all_goals grind
  | flushBegin t =>
    simp only [cstep] at hs
    simp only [QuiesceOk] at hw
    split at hs
    rotate_left
    · simp at hs
    split at hs
    · simp only [Option.some.injEq] at hs; subst hs
      refine ⟨h1, Or.inr (Or.inr (Or.inr (Or.inl ⟨t, s.committed, by simp [CSt.setPc]⟩))), ?_, ?_, ?_, ?_, ?_⟩
      all_goals simp only [CSt.setPc]
      all_goals grind
    · simp only [Option.some.injEq] at hs; subst hs
      refine ⟨h1, h2, h3, h4, ?_, h6, h7⟩
      intro off hoff
      have := h1 off hoff
      rcases h2 with h | h | ⟨u, o, h⟩ | ⟨u, sn, h⟩ | ⟨u, sn, c, h, hc⟩
      · simp; omega
      · grind
      · exact absurd h (hw u o)
      · have := (h3 u sn h).1; grind
      · have := (h4 u sn c h).1; grind
  | flushLoad t =>
    simp only [cstep] at hs
    split at hs
    rotate_left
    · simp at hs
    rename_i sn hp
    simp only [Option.some.injEq] at hs; subst hs
    refine ⟨h1, Or.inr (Or.inr (Or.inr (Or.inr ⟨t, sn, s.commit, by simp [CSt.setPc]⟩))), ?_, ?_, ?_, ?_, ?_⟩
    all_goals simp only [CSt.setPc]
    all_goals grind
  | flushWrite t =>
    simp only [cstep] at hs
    split at hs
    rotate_left
    · simp at hs
    rename_i sn c hp
    simp only [Option.some.injEq] at hs; subst hs
    have h4' := h4 t sn c hp
    refine ⟨h1, ?_, ?_, ?_, ?_, ?_, ?_⟩
    · rcases h2 with h | h | ⟨u, o, h⟩ | ⟨u, sn', h⟩ | ⟨u, sn', c', h, hc⟩
      · left; simp [CSt.setPc]; omega
      · exact Or.inr (Or.inl h)
      · exact Or.inr (Or.inr (Or.inl ⟨u, o, by simp only [CSt.setPc]; grind⟩))
      · have := (h3 u sn' h).1; grind
      · have := (h4 u sn' c' h).1
        have : u = t := by grind
        subst this
        left; simp [CSt.setPc]; grind
    all_goals simp only [CSt.setPc]
    all_goals grind

theorem finv_run (s s' : CSt) (as : List CAct) (h : FInv s) (hw : QuiesceRun s as)
    (hs : runOpt cstep s as = some s') : FInv s' := by
  induction as generalizing s with
  | nil => simp only [runOpt, Option.some.injEq] at hs; subst hs; exact h
  | cons a as ih =>
    simp only [runOpt] at hs
    cases hc : cstep s a with
    | none => simp [hc] at hs
    | some s1 =>
      rw [hc] at hs
      exact ih s1 (finv_step s s1 a h hw.1 hc) (hw.2 s1 hc) hs

end HS.Append
