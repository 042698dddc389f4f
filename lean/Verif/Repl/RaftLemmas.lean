import Verif.Repl.Raft
/-! Invariants of the Raft replicated device. -/
namespace HS.Repl.Raft

/-- Entry `lsn` is an application entry with blocks `blks`. -/
def Dev.isApp (d : Dev) (lsn : Nat) (blks : List Nat) : Prop :=
  1 ≤ lsn ∧ d.log[lsn - 1]? = some (.app blks)

theorem isApp_le {d : Dev} {lsn : Nat} {blks : List Nat} (h : d.isApp lsn blks) :
    lsn ≤ d.log.length := by
  have := (List.getElem?_eq_some_iff.1 h.2).1
  have := h.1
  omega

/-! ## Replay -/

theorem logFound_frame (d : Dev) (lsn : Nat) :
    (d.logFound lsn).log = d.log ∧ (d.logFound lsn).flushed = d.flushed ∧
    (d.logFound lsn).first = d.first ∧ (d.logFound lsn).upto = d.upto ∧
    (d.logFound lsn).cidx = d.cidx ∧ (d.logFound lsn).work = d.work ∧
    (d.logFound lsn).dataDisk = d.dataDisk ∧ (d.logFound lsn).appDisk = d.appDisk ∧
    (d.logFound lsn).dc = d.dc ∧ (d.logFound lsn).cp = d.cp ∧
    (d.logFound lsn).lastCp = d.lastCp ∧ (d.logFound lsn).phase = d.phase ∧
    (d.logFound lsn).load = d.load ∧ (d.logFound lsn).limit = d.limit := by
  unfold Dev.logFound
  split
  · simp
  · split
    · split <;> simp
    · simp

theorem replay_frame (d : Dev) (lsn k : Nat) :
    (d.replay lsn k).log = d.log ∧ (d.replay lsn k).flushed = d.flushed ∧
    (d.replay lsn k).first = d.first ∧ (d.replay lsn k).upto = d.upto ∧
    (d.replay lsn k).cidx = d.cidx ∧ (d.replay lsn k).work = d.work ∧
    (d.replay lsn k).dataDisk = d.dataDisk ∧ (d.replay lsn k).appDisk = d.appDisk ∧
    (d.replay lsn k).dc = d.dc ∧ (d.replay lsn k).cp = d.cp ∧
    (d.replay lsn k).lastCp = d.lastCp ∧ (d.replay lsn k).phase = d.phase ∧
    (d.replay lsn k).load = d.load ∧ (d.replay lsn k).limit = d.limit := by
  induction k generalizing d lsn with
  | zero => simp [Dev.replay]
  | succ k ih =>
    have h1 := logFound_frame d lsn
    have h2 := ih (d.logFound lsn) (lsn + 1)
    simp only [Dev.replay]
    simp_all

/-- The application entries among the `k` entries from `lsn` on that lie in `(lo, hi]`. -/
def apps (log : List Ent) (lo hi lsn : Nat) : (k : Nat) → List Nat
  | 0 => []
  | k + 1 =>
    let rest := apps log lo hi (lsn + 1) k
    match log[lsn - 1]? with
    | some (.app _) => if lo < lsn ∧ lsn ≤ hi then lsn :: rest else rest
    | _ => rest

theorem mem_apps (log : List Ent) (lo hi lsn k j : Nat) :
    j ∈ apps log lo hi lsn k ↔
      (∃ b, log[j - 1]? = some (.app b)) ∧ lo < j ∧ j ≤ hi ∧ lsn ≤ j ∧ j < lsn + k := by
  induction k generalizing lsn with
  | zero => simp only [apps, List.not_mem_nil, false_iff]; omega
  | succ k ih =>
    rw [apps]
    by_cases hj : j = lsn
    · subst hj
      split
      · rename_i b hb
        split
        · simp_all
        · rw [ih]; simp_all; omega
      · rename_i hn
        rw [ih]
        constructor
        · rintro ⟨_, _, _, h, _⟩; omega
        · rintro ⟨⟨b, hb⟩, _⟩; exact absurd hb (hn b)
    · have : j ∈ apps log lo hi (lsn + 1) k ↔
          (∃ b, log[j - 1]? = some (.app b)) ∧ lo < j ∧ j ≤ hi ∧ lsn ≤ j ∧ j < lsn + (k + 1) := by
        rw [ih]
        constructor <;> rintro ⟨a, b, c, d, e⟩ <;> exact ⟨a, b, c, by omega, by omega⟩
      split
      · split
        · rw [List.mem_cons, this]; simp [hj]
        · exact this
      · exact this

/-- What replay adds to the listener's state. -/
theorem replay_app (d : Dev) (lsn k : Nat) :
    (d.replay lsn k).app = d.app ++ apps d.log d.cp d.dc lsn k ∧
    (d.replay lsn k).acked = d.acked ++ apps d.log d.cp d.dc lsn k := by
  induction k generalizing d lsn with
  | zero => simp [Dev.replay, apps]
  | succ k ih =>
    have hf := logFound_frame d lsn
    obtain ⟨a, b⟩ := ih (d.logFound lsn) (lsn + 1)
    rw [Dev.replay, a, b, hf.1, hf.2.2.2.2.2.2.2.2.1, hf.2.2.2.2.2.2.2.2.2.1]
    rw [apps]
    rcases hx : d.log[lsn - 1]? with _ | e
    · have h0 : d.logFound lsn = d := by simp [Dev.logFound, hx]
      rw [h0]; exact ⟨rfl, rfl⟩
    · cases e with
      | conf =>
        have h0 : d.logFound lsn = d := by simp [Dev.logFound, hx]
        rw [h0]; exact ⟨rfl, rfl⟩
      | app blks =>
        by_cases hcp : lsn ≤ d.cp
        · have h0 : d.logFound lsn = d := by simp [Dev.logFound, hcp]
          rw [h0]
          simp only []
          rw [if_neg (by omega)]; exact ⟨rfl, rfl⟩
        · by_cases hdc : lsn > d.dc
          · simp only [Dev.logFound, hx]
            rw [if_neg hcp, if_pos hdc, if_neg (by omega)]; exact ⟨rfl, rfl⟩
          · simp only [Dev.logFound, hx]
            rw [if_neg hcp, if_neg hdc, if_pos (by omega)]
            simp

/-- Replay keeps blocks and adds those of every application entry above the checkpoint. -/
theorem replay_bits (d : Dev) (lsn k : Nat) :
    (∀ b ∈ d.bits, b ∈ (d.replay lsn k).bits) ∧
    (∀ j blks, 1 ≤ lsn → lsn ≤ j → j < lsn + k → d.cp < j → d.log[j - 1]? = some (.app blks) →
      ∀ b ∈ blks, b ∈ (d.replay lsn k).bits) := by
  induction k generalizing d lsn with
  | zero => exact ⟨fun b hb => hb, fun j _ _ h1 h2 => by omega⟩
  | succ k ih =>
    have hf := logFound_frame d lsn
    obtain ⟨a, c⟩ := ih (d.logFound lsn) (lsn + 1)
    have hmono : ∀ b ∈ d.bits, b ∈ (d.logFound lsn).bits := by
      intro b hb
      unfold Dev.logFound
      split
      · exact hb
      · split
        · split <;> exact List.mem_append_left _ hb
        · exact hb
    rw [Dev.replay]
    refine ⟨fun b hb => a b (hmono b hb), fun j blks h0 h1 h2 h3 h4 b hb => ?_⟩
    by_cases hj : j = lsn
    · subst hj
      apply a
      unfold Dev.logFound
      rw [if_neg (by omega), h4]
      simp only []
      split <;> exact List.mem_append_right _ hb
    · exact c j blks (by omega) (by omega) (by omega) (by rw [hf.2.2.2.2.2.2.2.2.2.1]; exact h3)
        (by rw [hf.1]; exact h4) b hb

/-- Replay links every application entry above the durable commit number. -/
theorem replay_map (d : Dev) (lsn k : Nat) :
    (∀ j ∈ d.map, j ∈ (d.replay lsn k).map) ∧
    (∀ j blks, lsn ≤ j → j < lsn + k → d.cp < j → d.dc < j → d.log[j - 1]? = some (.app blks) →
      j ∈ (d.replay lsn k).map) := by
  induction k generalizing d lsn with
  | zero => exact ⟨fun b hb => hb, fun j _ h1 h2 => by omega⟩
  | succ k ih =>
    have hf := logFound_frame d lsn
    obtain ⟨a, c⟩ := ih (d.logFound lsn) (lsn + 1)
    have hmono : ∀ j ∈ d.map, j ∈ (d.logFound lsn).map := by
      intro b hb
      unfold Dev.logFound
      split
      · exact hb
      · split
        · split
          · exact List.mem_cons_of_mem _ hb
          · exact hb
        · exact hb
    rw [Dev.replay]
    refine ⟨fun b hb => a b (hmono b hb), fun j blks h1 h2 h3 h4 h5 => ?_⟩
    by_cases hj : j = lsn
    · subst hj
      apply a
      unfold Dev.logFound
      rw [if_neg (by omega), h5]
      simp only []
      rw [if_pos h4]
      exact List.mem_cons_self
    · exact c j blks (by omega) (by omega) (by rw [hf.2.2.2.2.2.2.2.2.2.1]; exact h3)
        (by rw [hf.2.2.2.2.2.2.2.2.1]; exact h4) (by rw [hf.1]; exact h5)

theorem restart_frame (d : Dev) :
    d.restart.log = d.log.take d.flushed ∧ d.restart.flushed = d.flushed ∧
    d.restart.first = d.first ∧ d.restart.upto = d.dc ∧
    d.restart.cidx = d.cidx ∧ d.restart.work = none ∧
    d.restart.dataDisk = d.dataDisk ∧ d.restart.appDisk = d.appDisk ∧
    d.restart.dc = d.dc ∧ d.restart.cp = d.cp ∧
    d.restart.lastCp = d.cp ∧ d.restart.phase = .idle ∧
    d.restart.load = none ∧ d.restart.limit = 0 := by
  have := replay_frame d.crash (d.first + 1) (d.flushed - d.first)
  simpa [Dev.restart, Dev.crash] using this

/-! ## The invariant -/

/-- The steps considered: the replication service does not write its superblock while
`flush_durable_commit_lsn` is between its read and its write. -/
def NoRace (d : Dev) : Op → Prop
  | .cpRepl _ => d.load = none
  | _ => True

/-- The number captured by the running checkpoint, if any. -/
def Phase.lsn? : Phase → Option Nat
  | .captured l | .swapped l _ | .dataDone l => some l
  | _ => none

structure Inv (d : Dev) : Prop where
  fl : d.flushed ≤ d.log.length
  fi : d.first ≤ d.cp
  li : d.limit ≤ d.cp
  cd : d.cp ≤ d.dc
  du : d.dc ≤ d.upto
  uc : d.upto ≤ d.cidx
  cf : d.cidx ≤ d.flushed
  lc : d.lastCp = d.cp
  ld : ∀ l, d.load = some l → d.cp ≤ l ∧ l ≤ d.upto
  ph : ∀ l, d.phase.lsn? = some l → d.cp ≤ l ∧ l ≤ d.upto
  wk : ∀ bs f, d.work = some (bs, f) → d.upto < d.cidx ∧ (f = true → bs = [] ∧ d.upto + 1 ∈ d.app) ∧
    ∃ blks, d.isApp (d.upto + 1) blks ∧ ∀ b ∈ blks, b ∈ bs ∨ b ∈ d.bits
  done : ∀ l blks, d.isApp l blks → l ≤ d.upto → l ∈ d.app ∧ ∀ b ∈ blks, b ∈ d.bits
  disk : ∀ l blks, d.isApp l blks → l ≤ d.cp → l ∈ d.appDisk ∧ ∀ b ∈ blks, b ∈ d.dataDisk
  map : ∀ l blks, d.isApp l blks → d.upto < l → l ∈ d.map
  swapped : ∀ l snap, d.phase = .swapped l snap → ∀ j blks, d.isApp j blks → j ≤ l → j ∈ snap
  data : ∀ l, d.phase = .dataDone l → ∀ j blks, d.isApp j blks → j ≤ l →
    j ∈ d.appDisk ∧ ∀ b ∈ blks, b ∈ d.dataDisk
  ak : ∀ l ∈ d.acked, l ≤ d.cidx ∧ ∃ blks, d.isApp l blks

theorem inv_create : Inv Dev.create := by
  constructor <;> simp [Dev.create, Dev.isApp, Phase.lsn?]

theorem inv_step (d d' : Dev) (op : Op) (h : Inv d) (hn : NoRace d op) (hs : d.step op = .ok d') :
    Inv d' := by
  obtain ⟨fl, fi, li, cd, du, uc, cf, lc, ld, ph, wk, done, disk, map, swapped, data, ak⟩ := h
  cases op with
  | append e =>
    simp only [Dev.step, Res.ok.injEq] at hs; subst hs
    have hold : ∀ l blks, l ≤ d.log.length →
        Dev.isApp { d with log := d.log ++ [e], map := match e with | .app _ => (d.log.length + 1) :: d.map | .conf => d.map } l blks → d.isApp l blks := by
      intro l blks hl h
      refine ⟨h.1, ?_⟩
      have h2 := h.2
      have h1 := h.1
      simp only [] at h2
      rwa [List.getElem?_append_left (by omega)] at h2
    have hnew : ∀ l blks, d.isApp l blks →
        Dev.isApp { d with log := d.log ++ [e], map := match e with | .app _ => (d.log.length + 1) :: d.map | .conf => d.map } l blks := by
      intro l blks h
      have hle := isApp_le h
      refine ⟨h.1, ?_⟩
      simp only []
      rw [List.getElem?_append_left (by have := h.1; omega)]
      exact h.2
    refine ⟨?_, fi, li, cd, du, uc, cf, lc, ld, ph, ?_, ?_, ?_, ?_, ?_, ?_, ?_⟩
    · simp; omega
    · intro bs f hw
      obtain ⟨a, b, blks, c, e'⟩ := wk bs f hw
      exact ⟨a, b, blks, hnew _ _ c, e'⟩
    · intro l blks ha hl
      exact done l blks (hold l blks (by simp only [] at hl; omega) ha) hl
    · intro l blks ha hl
      exact disk l blks (hold l blks (by simp only [] at hl; omega) ha) hl
    · intro l blks ha hl
      by_cases hle : l ≤ d.log.length
      · have := map l blks (hold l blks hle ha) hl
        simp only []
        cases e with
        | app _ => exact List.mem_cons_of_mem _ this
        | conf => exact this
      · have hl' := isApp_le ha
        simp only [List.length_append, List.length_singleton] at hl'
        have e1 : l = d.log.length + 1 := by omega
        subst e1
        have h2 := ha.2
        simp only [Nat.add_sub_cancel] at h2
        rw [List.getElem?_append_right (by omega)] at h2
        simp only [Nat.sub_self, List.getElem?_cons_zero, Option.some.injEq] at h2
        subst h2
        exact List.mem_cons_self
    · intro l snap hp j blks ha hj
      have := (ph l (by rw [show d.phase = .swapped l snap from hp]; rfl)).2
      exact swapped l snap hp j blks (hold j blks (by omega) ha) hj
    · intro l hp j blks ha hj
      have := (ph l (by rw [show d.phase = .dataDone l from hp]; rfl)).2
      exact data l hp j blks (hold j blks (by omega) ha) hj
    · intro l hl
      obtain ⟨a, blks, b⟩ := ak l hl
      exact ⟨a, blks, hnew _ _ b⟩
  | flush =>
    simp only [Dev.step, Res.ok.injEq] at hs; subst hs
    exact ⟨Nat.le_refl _, fi, li, cd, du, uc, by simp only []; omega, lc, ld, ph, wk, done, disk,
      map, swapped, data, ak⟩
  | rollback k =>
    simp only [Dev.step] at hs
    split at hs
    · rename_i hk
      simp only [Res.ok.injEq] at hs; subst hs
      have hold : ∀ l blks, Dev.isApp ({ d with log := d.log.take (k - 1), flushed := min d.flushed (k - 1), map := d.map.filter (fun x => decide (x < k)) } : Dev) l blks →
          d.isApp l blks ∧ l < k := by
        intro l blks h
        have h2 := h.2
        have h1 := h.1
        simp only [List.getElem?_take] at h2
        split at h2
        · exact ⟨⟨h1, h2⟩, by omega⟩
        · cases h2
      have hnew : ∀ l blks, d.isApp l blks → l ≤ d.cidx → Dev.isApp ({ d with log := d.log.take (k - 1), flushed := min d.flushed (k - 1), map := d.map.filter (fun x => decide (x < k)) } : Dev) l blks := by
        intro l blks h hl
        refine ⟨h.1, ?_⟩
        simp only [List.getElem?_take]
        rw [if_pos (by have := h.1; omega)]
        exact h.2
      refine ⟨?_, fi, li, cd, du, uc, ?_, lc, ld, ph, ?_, ?_, ?_, ?_, ?_, ?_, ?_⟩
      · simp; omega
      · simp only []; omega
      · intro bs f hw
        obtain ⟨a, b, blks, c, e'⟩ := wk bs f hw
        exact ⟨a, b, blks, hnew (d.upto + 1) blks c (Nat.succ_le_of_lt a), e'⟩
      · intro l blks ha hl; exact done l blks (hold l blks ha).1 hl
      · intro l blks ha hl; exact disk l blks (hold l blks ha).1 hl
      · intro l blks ha hl
        have := map l blks (hold l blks ha).1 hl
        simp only [List.mem_filter, decide_eq_true_eq]
        exact ⟨this, (hold l blks ha).2⟩
      · intro l snap hp j blks ha hj; exact swapped l snap hp j blks (hold j blks ha).1 hj
      · intro l hp j blks ha hj; exact data l hp j blks (hold j blks ha).1 hj
      · intro l hl
        obtain ⟨a, blks, b⟩ := ak l hl
        exact ⟨a, blks, hnew _ _ b a⟩
    · cases hs
  | commitBegin =>
    simp only [Dev.step] at hs
    split at hs
    · rename_i hc
      split at hs
      · rename_i blks hb
        split at hs
        · simp only [Res.ok.injEq] at hs; subst hs
          refine ⟨fl, fi, li, cd, du, by simp only []; omega, by simp only []; omega, lc, ld, ph, ?_,
            done, disk, map, swapped, data, ?_⟩
          · intro bs f hw
            simp only [Option.some.injEq, Prod.mk.injEq] at hw
            obtain ⟨rfl, rfl⟩ := hw
            refine ⟨by simp only []; omega, by simp, blks, ⟨by simp only []; omega, ?_⟩,
              fun b hb => Or.inl hb⟩
            simpa using hb
          · intro l hl
            obtain ⟨a, c⟩ := ak l hl
            exact ⟨by simp only []; omega, c⟩
        · cases hs
      · rename_i hb
        simp only [Res.ok.injEq] at hs; subst hs
        have hnot : ∀ blks, ¬ d.isApp (d.upto + 1) blks := by
          intro blks h
          have := h.2
          simp only [Nat.add_sub_cancel] at this
          rw [hb] at this
          cases this
        refine ⟨fl, fi, li, cd, by simp only []; omega, by simp only []; omega,
          by simp only []; omega, lc, ?_, ?_, ?_, ?_, disk, ?_, swapped, data, ?_⟩
        · intro l hl; have := ld l hl; simp only []; omega
        · intro l hl; have := ph l hl; simp only []; omega
        · intro bs f hw
          rw [show d.work = none from hc.1] at hw; cases hw
        · intro l blks ha hl
          simp only [] at hl
          by_cases he : l = d.upto + 1
          · subst he; exact absurd ha (hnot blks)
          · exact done l blks ha (by omega)
        · intro l blks ha hl
          exact map l blks ha (by simp only [] at hl; omega)
        · intro l hl
          obtain ⟨a, c⟩ := ak l hl
          exact ⟨by simp only []; omega, c⟩
      · cases hs
    · cases hs
  | commitBlk =>
    simp only [Dev.step] at hs
    split at hs
    · rename_i b bs hw
      simp only [Res.ok.injEq] at hs; subst hs
      refine ⟨fl, fi, li, cd, du, uc, cf, lc, ld, ph, ?_, ?_, disk, map, swapped, data, ak⟩
      · intro bs' f hw'
        simp only [Option.some.injEq, Prod.mk.injEq] at hw'
        obtain ⟨rfl, rfl⟩ := hw'
        obtain ⟨a, _, blks, c, e⟩ := wk _ _ hw
        refine ⟨a, by simp, blks, c, fun x hx => ?_⟩
        rcases e x hx with h | h
        · rcases List.mem_cons.1 h with rfl | h
          · right; simp
          · exact Or.inl h
        · right; simp [h]
      · intro l blks ha hl
        have := done l blks ha hl
        exact ⟨this.1, fun x hx => List.mem_append_left _ (this.2 x hx)⟩
    · cases hs
  | commitApp =>
    simp only [Dev.step] at hs
    split at hs
    · rename_i hw
      simp only [Res.ok.injEq] at hs; subst hs
      obtain ⟨a, b, blks, c, e⟩ := wk _ _ hw
      refine ⟨fl, fi, li, cd, du, uc, cf, lc, ld, ph, ?_, ?_, disk, map, swapped, data, ?_⟩
      · intro bs' f hw'
        simp only [Option.some.injEq, Prod.mk.injEq] at hw'
        obtain ⟨rfl, rfl⟩ := hw'
        exact ⟨a, fun _ => ⟨rfl, by simp⟩, blks, c, e⟩
      · intro l blks ha hl
        have := done l blks ha hl
        exact ⟨List.mem_append_left _ this.1, this.2⟩
      · intro l hl
        rcases List.mem_append.1 hl with hl | hl
        · exact ak l hl
        · simp only [List.mem_singleton] at hl
          subst hl
          exact ⟨by simp only []; omega, blks, c⟩
    · cases hs
  | commitEnd =>
    simp only [Dev.step] at hs
    split at hs
    · rename_i hw
      simp only [Res.ok.injEq] at hs; subst hs
      obtain ⟨a, b, blks, c, e⟩ := wk _ _ hw
      refine ⟨fl, fi, li, cd, by simp only []; omega, by simp only []; omega, cf, lc, ?_, ?_, ?_, ?_,
        disk, ?_, swapped, data, ak⟩
      · intro l hl; have := ld l hl; simp only []; omega
      · intro l hl; have := ph l hl; simp only []; omega
      · intro bs f hw'; cases hw'
      · intro l blks' ha hl
        simp only [] at hl
        by_cases he : l = d.upto + 1
        · subst he
          have : blks' = blks := by
            have h1 := ha.2
            have h2 := c.2
            simp only [] at h1
            rw [h2] at h1
            simpa using h1.symm
          subst this
          refine ⟨(b rfl).2, fun x hx => ?_⟩
          rcases e x hx with h | h
          · cases h
          · exact h
        · exact done l blks' ha (by omega)
      · intro l blks' ha hl
        simp only [] at hl
        have := map l blks' ha (by omega)
        simp only [List.mem_filter]
        refine ⟨this, ?_⟩
        have : l ≠ d.upto + 1 := by omega
        simpa using this
    · cases hs
  | cpCapture =>
    simp only [Dev.step] at hs
    split at hs
    · simp only [Res.ok.injEq] at hs; subst hs
      refine ⟨fl, fi, li, cd, du, uc, cf, lc, ld, ?_, wk, done, disk, map, ?_, ?_, ak⟩
      · intro l hl
        simp only [Phase.lsn?, Option.some.injEq] at hl
        subst hl
        simp only []; omega
      · intro l snap hp; cases hp
      · intro l hp; cases hp
    · cases hs
  | cpSwap =>
    simp only [Dev.step] at hs
    split at hs
    · rename_i lsn hp
      simp only [Res.ok.injEq] at hs; subst hs
      have hph := ph lsn (by rw [hp]; rfl)
      refine ⟨fl, fi, li, cd, du, uc, cf, lc, ld, ?_, wk, done, disk, map, ?_, ?_, ak⟩
      · intro l hl
        simp only [Phase.lsn?, Option.some.injEq] at hl
        subst hl
        exact hph
      · intro l snap hp' j blks ha hj
        simp only [Phase.swapped.injEq] at hp'
        obtain ⟨rfl, rfl⟩ := hp'
        exact (done j blks ha (by omega)).1
      · intro l hp; cases hp
    · cases hs
  | cpData =>
    simp only [Dev.step] at hs
    split at hs
    · rename_i lsn snap hp
      simp only [Res.ok.injEq] at hs; subst hs
      have hph := ph lsn (by rw [hp]; rfl)
      have hall : ∀ j blks, d.isApp j blks → j ≤ lsn → j ∈ snap ∧ ∀ b ∈ blks, b ∈ d.bits :=
        fun j blks ha hj => ⟨swapped lsn snap hp j blks ha hj, (done j blks ha (by omega)).2⟩
      refine ⟨fl, fi, li, cd, du, uc, cf, lc, ld, ?_, wk, done, ?_, map, ?_, ?_, ak⟩
      · intro l hl
        simp only [Phase.lsn?, Option.some.injEq] at hl
        subst hl
        exact hph
      · intro j blks ha hj
        exact hall j blks ha (by simp only [] at hj; omega)
      · intro l snap hp; cases hp
      · intro l hp' j blks ha hj
        simp only [Phase.dataDone.injEq] at hp'
        subst hp'
        exact hall j blks ha hj
    · cases hs
  | cpRepl dirty =>
    have hld : d.load = none := hn
    simp only [Dev.step] at hs
    split at hs
    · rename_i lsn hp
      have hph := ph lsn (by rw [hp]; rfl)
      split at hs
      · simp only [Res.ok.injEq] at hs; subst hs
        refine ⟨fl, fi, li, cd, du, uc, cf, lc, ld, ?_, wk, done, disk, map, ?_, ?_, ak⟩
        · intro l hl; cases hl
        · intro l snap hp; cases hp
        · intro l hp; cases hp
      · simp only [Res.ok.injEq] at hs; subst hs
        refine ⟨fl, by simp only []; omega, by simp only []; omega, by simp only []; omega,
          by simp only []; omega, uc, cf, rfl, ?_, ?_, wk, done, ?_, map, ?_, ?_, ak⟩
        · intro l hl; rw [show d.load = some l from hl] at hld; cases hld
        · intro l hl; cases hl
        · intro j blks ha hj; exact data lsn hp j blks ha hj
        · intro l snap hp; cases hp
        · intro l hp; cases hp
    · cases hs
  | cpDone =>
    simp only [Dev.step] at hs
    split at hs
    · simp only [Res.ok.injEq] at hs; subst hs
      refine ⟨fl, fi, li, cd, du, uc, cf, lc, ld, ?_, wk, done, disk, map, ?_, ?_, ak⟩
      · intro l hl; cases hl
      · intro l snap hp; cases hp
      · intro l hp; cases hp
    · cases hs
  | dcLoad =>
    simp only [Dev.step] at hs
    split at hs
    · simp only [Res.ok.injEq] at hs; subst hs
      refine ⟨fl, fi, li, cd, du, uc, cf, lc, ?_, ph, wk, done, disk, map, swapped, data, ak⟩
      intro l hl
      simp only [Option.some.injEq] at hl
      subst hl
      simp only []; omega
    · cases hs
  | dcStore =>
    simp only [Dev.step] at hs
    split at hs
    · rename_i lsn hl
      simp only [Res.ok.injEq] at hs; subst hs
      have := ld lsn hl
      refine ⟨fl, fi, li, this.1, this.2, uc, cf, lc, ?_, ph, wk, done, disk, map, swapped, data, ak⟩
      intro l hl; cases hl
    · cases hs
  | boundary limit =>
    simp only [Dev.step] at hs
    split at hs
    · simp only [Res.ok.injEq] at hs; subst hs
      exact ⟨fl, fi, li, cd, du, uc, cf, lc, ld, ph, wk, done, disk, map, swapped, data, ak⟩
    · simp only [Res.ok.injEq] at hs; subst hs
      exact ⟨fl, fi, by simp only []; omega, cd, du, uc, cf, lc, ld, ph, wk, done, disk, map, swapped,
        data, ak⟩
  | compact lsn =>
    simp only [Dev.step, Res.ok.injEq] at hs; subst hs
    exact ⟨fl, by simp only []; omega, li, cd, du, uc, cf, lc, ld, ph, wk, done, disk, map, swapped,
        data, ak⟩
  | crash =>
    simp only [Dev.step, Res.ok.injEq] at hs; subst hs
    obtain ⟨e1, e2, e3, e4, e5, e6, e7, e8, e9, e10, e11, e12, e13, e14⟩ := restart_frame d
    have hr := replay_app d.crash (d.first + 1) (d.flushed - d.first)
    have hbits := replay_bits d.crash (d.first + 1) (d.flushed - d.first)
    have hmap := replay_map d.crash (d.first + 1) (d.flushed - d.first)
    have hold : ∀ l blks, d.restart.isApp l blks → d.isApp l blks ∧ l ≤ d.flushed ∧
        d.crash.log[l - 1]? = some (.app blks) := by
      intro l blks h
      have h2 := h.2
      have h1 := h.1
      rw [e1] at h2
      have h3 := h2
      rw [List.getElem?_take] at h2
      split at h2
      · exact ⟨⟨h1, h2⟩, by omega, h3⟩
      · cases h2
    have hnew : ∀ l blks, d.isApp l blks → l ≤ d.flushed → d.restart.isApp l blks := by
      intro l blks h hl
      refine ⟨h.1, ?_⟩
      rw [e1, List.getElem?_take, if_pos (by have := h.1; omega)]
      exact h.2
    refine ⟨?_, ?_, ?_, ?_, ?_, ?_, ?_, ?_, ?_, ?_, ?_, ?_, ?_, ?_, ?_, ?_, ?_⟩
    · rw [e1, e2]; simp; omega
    · rw [e3, e10]; exact fi
    · rw [e14]; omega
    · rw [e10, e9]; exact cd
    · rw [e9, e4]; exact Nat.le_refl _
    · rw [e4, e5]; omega
    · rw [e5, e2]; exact cf
    · rw [e11, e10]
    · intro l hl; rw [e13] at hl; cases hl
    · intro l hl; rw [e12] at hl; cases hl
    · intro bs f hw; rw [e6] at hw; cases hw
    · intro l blks ha hl
      obtain ⟨h1, h2, h3⟩ := hold l blks ha
      rw [e4] at hl
      have hpos := h1.1
      by_cases hcp : l ≤ d.cp
      · have := disk l blks h1 hcp
        refine ⟨?_, fun b hb => hbits.1 b (this.2 b hb)⟩
        show l ∈ (d.crash.replay _ _).app
        rw [hr.1]
        exact List.mem_append_left _ this.1
      · refine ⟨?_, fun b hb => hbits.2 l blks (by omega) (by omega) (by omega)
          (show d.cp < l by omega) h3 b hb⟩
        show l ∈ (d.crash.replay _ _).app
        rw [hr.1]
        apply List.mem_append_right
        rw [mem_apps]
        exact ⟨⟨blks, h3⟩, show d.cp < l by omega, hl, by omega, by omega⟩
    · intro l blks ha hl
      rw [e10] at hl
      rw [e7, e8]
      exact disk l blks (hold l blks ha).1 hl
    · intro l blks ha hl
      obtain ⟨h1, h2, h3⟩ := hold l blks ha
      rw [e4] at hl
      have hpos := h1.1
      exact hmap.2 l blks (by omega) (by omega) (show d.cp < l by omega) hl h3
    · intro l snap hp; rw [e12] at hp; cases hp
    · intro l hp; rw [e12] at hp; cases hp
    · intro l hl
      have : d.restart.acked = d.acked ++ _ := hr.2
      rw [this] at hl
      rw [e5]
      rcases List.mem_append.1 hl with hl | hl
      · obtain ⟨a, blks, b⟩ := ak l hl
        exact ⟨a, blks, hnew l blks b (by omega)⟩
      · rw [mem_apps] at hl
        obtain ⟨⟨blks, hb⟩, h1, h2, h3, h4⟩ := hl
        have h2' : l ≤ d.dc := h2
        refine ⟨by omega, blks, ?_, ?_⟩
        · omega
        · rw [e1]; exact hb

/-- Committing the next entry never dereferences a null request. -/
theorem inv_nofault (d : Dev) (op : Op) (h : Inv d) : d.step op ≠ .fault := by
  intro hs
  cases op <;> simp only [Dev.step] at hs <;> (try split at hs) <;> (try cases hs) <;>
    (try split at hs) <;> (try cases hs) <;> (try split at hs) <;> (try cases hs)
  rename_i blks hb hm
  exact hm (h.map (d.upto + 1) blks ⟨by omega, by simpa using hb⟩ (by omega))

end HS.Repl.Raft
