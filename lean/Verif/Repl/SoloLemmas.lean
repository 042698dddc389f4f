import Verif.Repl.Solo
/-! Invariants of the single-copy replicated device. -/
namespace HS.Repl.Solo

/-- The blocks of entry `lsn`. -/
abbrev Dev.blks (d : Dev) (lsn : Nat) : List Nat := d.log.getD lsn []

/-! ## Replay -/

theorem logFound_frame (d : Dev) (lsn : Nat) :
    (d.logFound lsn).log = d.log ∧ (d.logFound lsn).flushed = d.flushed ∧
    (d.logFound lsn).first = d.first ∧ (d.logFound lsn).next = d.next ∧
    (d.logFound lsn).work = d.work ∧ (d.logFound lsn).dataDisk = d.dataDisk ∧
    (d.logFound lsn).appDisk = d.appDisk ∧ (d.logFound lsn).sb = d.sb ∧
    (d.logFound lsn).phase = d.phase ∧ (d.logFound lsn).cps = d.cps := by
  unfold Dev.logFound
  split <;> simp

theorem replay_frame (d : Dev) (lsn k : Nat) :
    (d.replay lsn k).log = d.log ∧ (d.replay lsn k).flushed = d.flushed ∧
    (d.replay lsn k).first = d.first ∧ (d.replay lsn k).next = d.next ∧
    (d.replay lsn k).work = d.work ∧ (d.replay lsn k).dataDisk = d.dataDisk ∧
    (d.replay lsn k).appDisk = d.appDisk ∧ (d.replay lsn k).sb = d.sb ∧
    (d.replay lsn k).phase = d.phase ∧ (d.replay lsn k).cps = d.cps := by
  induction k generalizing d lsn with
  | zero => simp [Dev.replay]
  | succ k ih =>
    have h1 := logFound_frame d lsn
    have h2 := ih (d.logFound lsn) (lsn + 1)
    simp only [Dev.replay]
    simp_all

/-- The numbers above `u` among the `k` numbers from `lsn` on. -/
def above (u : Int) (lsn : Nat) : (k : Nat) → List Nat
  | 0 => []
  | k + 1 => if u ≥ lsn then above u (lsn + 1) k else lsn :: above u (lsn + 1) k

theorem mem_above (u : Int) (lsn k j : Nat) :
    j ∈ above u lsn k ↔ u < j ∧ lsn ≤ j ∧ j < lsn + k := by
  induction k generalizing lsn with
  | zero => simp [above]
  | succ k ih =>
    rw [above]
    split
    · rw [ih]; omega
    · rw [List.mem_cons, ih]; omega

/-- Above a number that is itself replayed, everything is. -/
theorem above_ge (u v : Int) (lsn k : Nat) (h : u < lsn) (hv : v < lsn) :
    above u lsn k = above v lsn k := by
  induction k generalizing lsn with
  | zero => rfl
  | succ k ih => rw [above, above, if_neg (by omega), if_neg (by omega), ih _ (by omega) (by omega)]

theorem replay_spec (d : Dev) (lsn k : Nat) :
    (d.replay lsn k).app = d.app ++ above d.upto lsn k ∧
    (d.replay lsn k).acked = d.acked ++ above d.upto lsn k ∧
    (d.replay lsn k).bits = d.bits ++ (above d.upto lsn k).flatMap d.blks ∧
    (d.replay lsn k).upto = if k = 0 then d.upto else max d.upto ((lsn + k : Nat) - 1 : Int) := by
  induction k generalizing d lsn with
  | zero => simp [Dev.replay, above]
  | succ k ih =>
    obtain ⟨a, b, c, e⟩ := ih (d.logFound lsn) (lsn + 1)
    rw [Dev.replay, a, b, c, e]
    by_cases hu : d.upto ≥ lsn
    · have h0 : d.logFound lsn = d := by simp [Dev.logFound, hu]
      rw [h0, above, if_pos hu]
      refine ⟨rfl, rfl, rfl, ?_⟩
      split <;> simp <;> omega
    · have h0 : d.logFound lsn = 
          { d with upto := lsn, bits := d.bits ++ d.log.getD lsn [],
                   app := d.app ++ [lsn], acked := d.acked ++ [lsn] } := by
        simp only [Dev.logFound]; rw [if_neg hu]
      have ha : above d.upto lsn (k + 1) = lsn :: above (lsn : Int) (lsn + 1) k := by
        rw [above, if_neg hu, above_ge d.upto lsn (lsn + 1) k (by omega) (by omega)]
      rw [h0, ha]
      refine ⟨by simp, by simp, ?_, ?_⟩
      · simp [Dev.blks]
      · simp only []
        split
        · rename_i hk; subst hk; simp; omega
        · simp; omega

/-! ## Invariants of every history -/

/-- Bounds, and what the journal still holds. -/
structure Bnd (d : Dev) : Prop where
  fl : d.flushed ≤ d.log.length
  nx : d.next ≤ d.flushed
  wk : d.work ≠ none → d.next < d.flushed
  fi : d.first ≤ d.flushed
  up : d.upto < d.flushed ∨ d.upto = 0
  cp : d.sb.cp ≤ d.sb.durable
  cpu : d.sb.cp ≤ d.upto
  c1 : d.sb.cp1 ≤ d.sb.cp
  c2 : d.sb.cp2 ≤ d.sb.cp1
  lo : -1 ≤ d.sb.cp2
  tr : (d.first : Int) ≤ d.sb.cp2 + 1
  du : d.sb.durable = if d.cps = [] then 0 else d.sb.cp
  h0 : d.sb.cp = d.cps.getD 0 (-1)
  h1 : d.sb.cp1 = d.cps.getD 1 (-1)
  h2 : d.sb.cp2 = d.cps.getD 2 (-1)
  ak : ∀ l ∈ d.acked, l < d.next

theorem bnd_create : Bnd Dev.create := by
  constructor <;> simp [Dev.create]

theorem restart_frame (d : Dev) :
    d.restart.log = d.log.take d.flushed ∧ d.restart.flushed = d.flushed ∧
    d.restart.first = d.first ∧ d.restart.next = d.flushed ∧ d.restart.work = none ∧
    d.restart.dataDisk = d.dataDisk ∧ d.restart.appDisk = d.appDisk ∧ d.restart.sb = d.sb ∧
    d.restart.phase = .idle ∧ d.restart.cps = d.cps := by
  have := replay_frame d.crash d.first (d.flushed - d.first)
  simpa [Dev.restart, Dev.crash] using this

theorem restart_spec (d : Dev) :
    d.restart.app = d.appDisk ++ above d.sb.durable d.first (d.flushed - d.first) ∧
    d.restart.acked = d.acked ++ above d.sb.durable d.first (d.flushed - d.first) ∧
    d.restart.bits = d.dataDisk ++
      (above d.sb.durable d.first (d.flushed - d.first)).flatMap d.crash.blks ∧
    d.restart.upto = if d.flushed - d.first = 0 then d.sb.durable
      else max d.sb.durable ((d.first + (d.flushed - d.first) : Nat) - 1 : Int) := by
  have := replay_spec d.crash d.first (d.flushed - d.first)
  exact this

theorem bnd_step (d d' : Dev) (op : Op) (h : Bnd d) (hs : d.step op = some d') : Bnd d' := by
  obtain ⟨fl, nx, wk, fi, up, cp, cpu, c1, c2, lo, tr, du, h0, h1, h2, ak⟩ := h
  cases op with
  | append b =>
    simp only [Dev.step, Option.some.injEq] at hs; subst hs
    constructor <;> simp_all <;> omega
  | flush =>
    simp only [Dev.step, Option.some.injEq] at hs; subst hs
    constructor <;> simp only [] <;> (try assumption) <;> (try omega)
    intro h; have := wk h; omega
  | advance =>
    simp only [Dev.step] at hs
    split at hs
    · rename_i hc
      simp only [Option.some.injEq] at hs; subst hs
      constructor <;> simp only [] <;> (try assumption) <;> (try split) <;> (try omega)
      all_goals first | exact fun _ => hc.2 | assumption
    · cases hs
  | commitBlk =>
    simp only [Dev.step] at hs
    split at hs
    · rename_i hw
      simp only [Option.some.injEq] at hs; subst hs
      constructor <;> simp only [] <;> (try assumption)
      · intro _; exact wk (by simp [hw])
    · cases hs
  | commit =>
    simp only [Dev.step] at hs
    split at hs
    · rename_i hw
      simp only [Option.some.injEq] at hs; subst hs
      have := wk (by simp [hw])
      constructor <;> simp only [] <;> (try assumption) <;> (try omega)
      · intro h; exact absurd rfl h
      · intro l hl
        rcases List.mem_append.1 hl with hl | hl
        · have := ak l hl; omega
        · simp at hl; omega
    · cases hs
  | cpStart =>
    simp only [Dev.step] at hs
    split at hs
    · simp only [Option.some.injEq] at hs; subst hs
      constructor <;> simp only [] <;> assumption
    · cases hs
  | cpData =>
    simp only [Dev.step] at hs
    split at hs
    · simp only [Option.some.injEq] at hs; subst hs
      constructor <;> simp only [] <;> assumption
    · cases hs
  | cpRepl =>
    simp only [Dev.step] at hs
    split at hs
    · simp only [Option.some.injEq] at hs; subst hs
      constructor <;> simp only [] <;> (try assumption) <;> (try omega)
      all_goals first | simp | simpa using h0 | simpa using h1
    · cases hs
  | cpDone =>
    simp only [Dev.step] at hs
    split at hs
    · simp only [Option.some.injEq] at hs; subst hs
      constructor <;> simp only [] <;> (try assumption) <;> (try split) <;> (try omega)
      all_goals assumption
    · cases hs
  | crash =>
    simp only [Dev.step, Option.some.injEq] at hs; subst hs
    obtain ⟨e1, e2, e3, e4, e5, e6, e7, e8, e9, e10⟩ := restart_frame d
    obtain ⟨s1, s2, s3, s4⟩ := restart_spec d
    have hd : d.sb.durable < d.flushed ∨ d.sb.durable = 0 := by
      rw [du]; split
      · exact Or.inr rfl
      · omega
    constructor
    · rw [e1, e2]; simp; omega
    · rw [e4, e2]; exact Nat.le_refl _
    · rw [e5]; simp
    · rw [e3, e2]; exact fi
    · rw [s4, e2]; split <;> omega
    · rw [e8]; exact cp
    · rw [e8, s4]; split <;> omega
    · rw [e8]; exact c1
    · rw [e8]; exact c2
    · rw [e8]; exact lo
    · rw [e3, e8]; exact tr
    · rw [e8, e10]; exact du
    · rw [e8, e10]; exact h0
    · rw [e8, e10]; exact h1
    · rw [e8, e10]; exact h2
    · intro l hl
      rw [s2] at hl
      rw [e4]
      rcases List.mem_append.1 hl with hl | hl
      · have := ak l hl; omega
      · rw [mem_above] at hl; omega

theorem bnd_run (d d' : Dev) (ops : List Op) (h : Bnd d) (hr : d.run ops = some d') : Bnd d' := by
  induction ops generalizing d with
  | nil => simp only [Dev.run, Option.some.injEq] at hr; exact hr ▸ h
  | cons op ops ih =>
    simp only [Dev.run, Option.bind_eq_some_iff] at hr
    obtain ⟨e, he, hr⟩ := hr
    exact ih e (bnd_step d e op h he) hr

/-! ## Invariants of histories in which checkpoints and commits do not overlap -/

/-- The quiet steps: no completion runs between the switchover of a checkpoint and the write of the
superblock, and a checkpoint starts when no completion is running. -/
def Quiet (d : Dev) : Op → Prop
  | .advance | .commitBlk | .commit => d.phase = .idle ∨ d.phase = .replDone
  | .cpStart => d.work = none
  | _ => True

/-- What the quiet steps keep, for every entry, entry 0 included if `z`. -/
structure Inv (z : Prop) (d : Dev) : Prop where
  done : ∀ l < d.next, (l = 0 → z) → l ∈ d.app ∧ ∀ b ∈ d.blks l, b ∈ d.bits
  work : ∀ bs, d.work = some bs → ∀ b ∈ d.blks d.next, b ∈ bs ∨ b ∈ d.bits
  upto : ∀ l : Nat, (l : Int) ≤ d.upto → (l = 0 → z) → l < d.next ∨ (d.work ≠ none ∧ l = d.next)
  dur : ∀ l : Nat, (l : Int) ≤ d.sb.durable → (l = 0 → z ∧ d.cps ≠ []) →
    l ∈ d.appDisk ∧ ∀ b ∈ d.blks l, b ∈ d.dataDisk
  le : ∀ l : Nat, (l : Int) ≤ d.sb.durable → (l = 0 → d.cps ≠ []) → (l : Int) ≤ d.upto
  start : ∀ snap, d.phase = .started snap → d.work = none ∧ ∀ l < d.next, (l = 0 → z) → l ∈ snap
  data : d.phase = .dataDone → d.work = none ∧ ∀ l < d.next, (l = 0 → z) →
    l ∈ d.appDisk ∧ ∀ b ∈ d.blks l, b ∈ d.dataDisk

theorem inv_create (z : Prop) : Inv z Dev.create := by
  constructor <;> simp [Dev.create]
  intro l h; omega

theorem inv_step (z : Prop) (d d' : Dev) (op : Op) (hb : Bnd d) (h : Inv z d) (hq : Quiet d op)
    (hc : op = .crash → z → d.cps ≠ []) (hs : d.step op = some d') : Inv z d' := by
  have hb' := bnd_step d d' op hb hs
  obtain ⟨done, work, upto, dur, le, start, data⟩ := h
  obtain ⟨fl, nx, wk, fi, up, cp, cpu, c1, c2, lo, tr, du, h0, h1, h2, ak⟩ := hb
  have hdle : d.sb.durable < d.flushed ∨ d.sb.durable = 0 := by
    rw [du]; split
    · exact Or.inr rfl
    · omega
  cases op with
  | append b =>
    simp only [Dev.step, Option.some.injEq] at hs; subst hs
    have hblk : ∀ l < d.log.length, (d.log ++ [b]).getD l [] = d.log.getD l [] := by
      intro l hl
      simp [List.getD, List.getElem?_append_left hl]
    refine ⟨?_, ?_, upto, ?_, le, start, ?_⟩
    · intro l hl hz
      have := done l hl hz
      simp only [Dev.blks]
      rw [hblk l (by simp only [] at hl; omega)]
      exact this
    · intro bs hw
      simp only [Dev.blks]
      rw [hblk d.next (by have := wk (by simp only [] at hw; simp [hw]); omega)]
      exact work bs hw
    · intro l hl hz
      simp only [Dev.blks]
      have hlt : l < d.log.length := by
        by_cases h0' : l = 0
        · have hz' := hz h0'
          have := upto l (le l hl (fun _ => hz'.2)) (fun _ => hz'.1)
          rcases this with h | ⟨h, h'⟩
          · omega
          · have := wk h; omega
        · simp only [] at hl; omega
      rw [hblk l hlt]
      exact dur l hl hz
    · intro hp
      refine ⟨(data hp).1, fun l hl hz => ?_⟩
      simp only [Dev.blks]
      rw [hblk l (by simp only [] at hl; omega)]
      exact (data hp).2 l hl hz
  | flush =>
    simp only [Dev.step, Option.some.injEq] at hs; subst hs
    exact ⟨done, work, upto, dur, le, start, data⟩
  | advance =>
    simp only [Dev.step] at hs
    split at hs
    · rename_i hcond
      simp only [Option.some.injEq] at hs; subst hs
      refine ⟨done, ?_, ?_, dur, ?_, ?_, ?_⟩
      · intro bs hw b hb
        simp only [Option.some.injEq] at hw
        subst hw
        exact Or.inl hb
      · intro l hl hz
        simp only [] at hl ⊢
        split at hl
        · by_cases hln : l < d.next
          · exact Or.inl hln
          · right; refine ⟨by simp, by omega⟩
        · rcases upto l hl hz with h | h
          · exact Or.inl h
          · exact absurd hcond.1 h.1
      · intro l hl hz
        have := le l hl hz
        simp only []
        split <;> omega
      · intro snap hp
        simp only [] at hp
        rcases hq with h | h <;> rw [h] at hp <;> cases hp
      · intro hp
        simp only [] at hp
        rcases hq with h | h <;> rw [h] at hp <;> cases hp
    · cases hs
  | commitBlk =>
    simp only [Dev.step] at hs
    split at hs
    · rename_i b bs hw
      simp only [Option.some.injEq] at hs; subst hs
      refine ⟨?_, ?_, ?_, dur, le, ?_, ?_⟩
      · intro l hl hz
        have := done l hl hz
        refine ⟨this.1, fun x hx => ?_⟩
        exact List.mem_append_left _ (this.2 x hx)
      · intro bs' hw' x hx
        simp only [Option.some.injEq] at hw'
        subst hw'
        rcases work _ hw x hx with h | h
        · rcases List.mem_cons.1 h with rfl | h
          · right; simp
          · exact Or.inl h
        · right; simp [h]
      · intro l hl hz
        rcases upto l hl hz with h | h
        · exact Or.inl h
        · exact Or.inr ⟨by simp, h.2⟩
      · intro snap hp
        simp only [] at hp
        rcases hq with h | h <;> rw [h] at hp <;> cases hp
      · intro hp
        simp only [] at hp
        rcases hq with h | h <;> rw [h] at hp <;> cases hp
    · cases hs
  | commit =>
    simp only [Dev.step] at hs
    split at hs
    · rename_i hw
      simp only [Option.some.injEq] at hs; subst hs
      refine ⟨?_, ?_, ?_, dur, le, ?_, ?_⟩
      · intro l hl hz
        simp only [] at hl
        by_cases hln : l < d.next
        · have := done l hln hz
          exact ⟨List.mem_append_left _ this.1, this.2⟩
        · have : l = d.next := by omega
          subst this
          refine ⟨by simp, fun x hx => ?_⟩
          rcases work _ hw x hx with h | h
          · cases h
          · exact h
      · intro bs hw'; cases hw'
      · intro l hl hz
        left
        simp only []
        rcases upto l hl hz with h | h <;> omega
      · intro snap hp
        simp only [] at hp
        rcases hq with h | h <;> rw [h] at hp <;> cases hp
      · intro hp
        simp only [] at hp
        rcases hq with h | h <;> rw [h] at hp <;> cases hp
    · cases hs
  | cpStart =>
    simp only [Dev.step] at hs
    split at hs
    · simp only [Option.some.injEq] at hs; subst hs
      refine ⟨done, work, upto, dur, le, ?_, ?_⟩
      · intro snap hp
        simp only [Phase.started.injEq] at hp
        subst hp
        exact ⟨hq, fun l hl hz => (done l hl hz).1⟩
      · intro hp; cases hp
    · cases hs
  | cpData =>
    simp only [Dev.step] at hs
    split at hs
    · rename_i snap hp
      simp only [Option.some.injEq] at hs; subst hs
      obtain ⟨hw, hsn⟩ := start snap hp
      refine ⟨done, work, upto, ?_, le, ?_, ?_⟩
      · intro l hl hz
        have hlt : l < d.next := by
          rcases upto l (le l hl (fun h => (hz h).2)) (fun h => (hz h).1) with h | h
          · exact h
          · exact absurd hw h.1
        exact ⟨hsn l hlt (fun h => (hz h).1), (done l hlt (fun h => (hz h).1)).2⟩
      · intro snap hp; cases hp
      · intro _
        exact ⟨hw, fun l hl hz => ⟨hsn l hl hz, (done l hl hz).2⟩⟩
    · cases hs
  | cpRepl =>
    simp only [Dev.step] at hs
    split at hs
    · rename_i hp
      simp only [Option.some.injEq] at hs; subst hs
      obtain ⟨hw, hd⟩ := data hp
      refine ⟨done, work, upto, ?_, ?_, ?_, ?_⟩
      · intro l hl hz
        have hlt : l < d.next := by
          rcases upto l hl (fun h => (hz h).1) with h | h
          · exact h
          · exact absurd hw h.1
        exact hd l hlt (fun h => (hz h).1)
      · intro l hl _; exact hl
      · intro snap hp; cases hp
      · intro hp; cases hp
    · cases hs
  | cpDone =>
    simp only [Dev.step] at hs
    split at hs
    · simp only [Option.some.injEq] at hs; subst hs
      refine ⟨done, work, upto, dur, le, ?_, ?_⟩
      · intro snap hp; cases hp
      · intro hp; cases hp
    · cases hs
  | crash =>
    simp only [Dev.step, Option.some.injEq] at hs; subst hs
    obtain ⟨e1, e2, e3, e4, e5, e6, e7, e8, e9, e10⟩ := restart_frame d
    obtain ⟨s1, s2, s3, s4⟩ := restart_spec d
    have hz0 : ∀ l : Nat, (l = 0 → z) → (l = 0 → z ∧ d.cps ≠ []) :=
      fun l hz h => ⟨hz h, hc rfl (hz h)⟩
    have hlt : ∀ l : Nat, (l : Int) ≤ d.sb.durable → (l = 0 → z) → l < d.flushed := by
      intro l hl hz
      rcases upto l (le l hl (fun h => (hz0 l hz h).2)) hz with h | ⟨h, h'⟩
      · omega
      · have := wk h; omega
    have hblk : ∀ l < d.flushed, d.restart.blks l = d.blks l := by
      intro l hl
      simp only [Dev.blks, e1, List.getD]
      rw [List.getElem?_take, if_pos hl]
    have hblk' : ∀ l < d.flushed, d.crash.blks l = d.blks l := by
      intro l hl
      simp only [Dev.blks, Dev.crash, List.getD]
      rw [List.getElem?_take, if_pos hl]
    refine ⟨?_, ?_, ?_, ?_, ?_, ?_, ?_⟩
    · intro l hl hz
      rw [e4] at hl
      rw [hblk l hl, s1, s3]
      by_cases hld : (l : Int) ≤ d.sb.durable
      · have := dur l hld (hz0 l hz)
        exact ⟨List.mem_append_left _ this.1, fun b hb => List.mem_append_left _ (this.2 b hb)⟩
      · have hm : l ∈ above d.sb.durable d.first (d.flushed - d.first) := by
          rw [mem_above]; omega
        refine ⟨List.mem_append_right _ hm, fun b hb => List.mem_append_right _ ?_⟩
        rw [List.mem_flatMap]
        exact ⟨l, hm, by rw [hblk' l hl]; exact hb⟩
    · intro bs hw; rw [e5] at hw; cases hw
    · intro l hl hz
      left
      rw [e4]
      rw [s4] at hl
      split at hl
      · exact hlt l hl hz
      · by_cases hld : (l : Int) ≤ d.sb.durable
        · exact hlt l hld hz
        · omega
    · intro l hl hz
      rw [e8] at hl
      rw [e10] at hz
      have := dur l hl hz
      rw [hblk l (hlt l hl (fun h => (hz h).1)), e6, e7]
      exact this
    · intro l hl hz
      rw [e8] at hl
      rw [s4]
      split <;> omega
    · intro snap hp; rw [e9] at hp; cases hp
    · intro hp; rw [e9] at hp; cases hp

end HS.Repl.Solo
