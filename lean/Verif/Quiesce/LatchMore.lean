import Verif.Quiesce.LatchProps
/-!
# C104, C105: what the latch keeps out; blocks of entries and of the cleared chunk; witnesses
-/
namespace HS.Quiesce.Latch

/-! ## The latch -/

/-- **C104**.  A follower with no space for an entry of another member sets the latch to its lsn (and tells the application),
and takes neither this entry nor the rest of the batch. -/
theorem C104_told {s : St} {b : Batch} {k : Key} (hb : s.batch = some b) (hk : b.es[b.n]? = some k) (hc : b.lc < b.start + b.n)
    (hl : k.linked = true) (hs : k.server ≠ s.me) (hq : s.quiet = false) (hn : s.map k = none) :
    ∃ s', step s (.prep .noSpace) = .ok s' ∧ s'.latch = some (b.start + b.n) ∧ s'.batch = none ∧ s'.log = s.log := by
  have hp : (s.prepare k (b.start + b.n) .noSpace).2 = false ∧ (s.prepare k (b.start + b.n) .noSpace).1.latch = some (b.start + b.n) ∧
      (s.prepare k (b.start + b.n) .noSpace).1.log = s.log := by
    simp [St.prepare, St.create, St.old, hn, hq, Req.init, hl, hs]
  refine ⟨{ (s.prepare k (b.start + b.n) .noSpace).1 with batch := none }, ?_, hp.2.1, rfl, hp.2.2⟩
  simp only [step, hb, hk]
  rw [if_neg (by omega), hp.1]
  rfl

/-- The events that reset the latch: a rollback, a change of leader, `resume_accepting_reqs`. -/
def Ev.resets : Ev → Bool
  | .rollback _ | .configRollback | .becomeLeader | .resume => true
  | _ => false

/-- A latch at or before `l`, and a batch that ends before it. -/
structure Latched (l : Nat) (s : St) : Prop where
  latch : ∃ l', s.latch = some l' ∧ l' ≤ l ∧ ∀ b, s.batch = some b → b.start + b.es.length ≤ l'

theorem latched_created {s : St} {k : Key} {lsn : Option Nat} {r : St × Bool} {l : Nat} (h : Latched l s) (hc : Created s k lsn r)
    (hl : r.1.latch = s.latch) : Latched l r.1 := by
  obtain ⟨l', h1, h2, h3⟩ := h.latch
  exact ⟨⟨l', by rw [hl]; exact h1, h2, by intro b hb; rw [hc.batch] at hb; exact h3 b hb⟩⟩

theorem latched_step {l : Nat} {s s' : St} {e : Ev} (h : Latched l s) (hr : e.resets = false) (ha : ∀ k g, e ≠ .append k g)
    (hs : step s e = .ok s') : Latched l s' ∧ ∃ new, s'.log = s.log ++ new ∧ (new = [] ∨ s'.log.length < l) := by
  have same : ∀ {s1 : St}, s1.log = s.log → ∃ new, s1.log = s.log ++ new ∧ (new = [] ∨ s1.log.length < l) :=
    fun e => ⟨[], by rw [e]; simp, Or.inl rfl⟩
  obtain ⟨l', h1, h2, h3⟩ := h.latch
  cases e with
  | push k g =>
    simp only [step] at hs
    split at hs
    · injection hs with hs; subst hs
      have hc := created s k none g
      refine ⟨latched_created h hc ?_, same hc.log⟩
      rcases hc.latch with h | h
      · exact h
      · cases h.2.2
    · cases hs
  | batch start es =>
    simp only [step, h1] at hs
    split at hs
    · cases hs
    · split at hs
      · injection hs with hs; subst hs; exact ⟨h, same rfl⟩
      · rename_i hn hlt
        injection hs with hs; subst hs
        refine ⟨⟨l', rfl, h2, ?_⟩, same rfl⟩
        intro b hb; injection hb with hb; subst hb
        show start + es.length ≤ l'
        omega
  | prep g =>
    simp only [step] at hs
    split at hs
    · cases hs
    · rename_i b hb
      split at hs
      · cases hs
      · rename_i k hk
        have hlt : b.n < b.es.length := (List.getElem?_eq_some_iff.1 hk).1
        split at hs
        · injection hs with hs; subst hs
          refine ⟨⟨l', h1, h2, ?_⟩, same rfl⟩
          intro b' hb'; injection hb' with hb'; subst hb'; exact h3 b hb
        · have hp := (prepared s k (b.start + b.n) g).1
          split at hs
          · rename_i hr
            injection hs with hs; subst hs
            have hl : (s.prepare k (b.start + b.n) g).1.latch = s.latch := by
              rcases hp.latch with h | h
              · exact h
              · rw [hr] at h; cases h.1
            refine ⟨⟨l', hl.trans h1, h2, ?_⟩, same hp.log⟩
            intro b' hb'; injection hb' with hb'; subst hb'; exact h3 b hb
          · injection hs with hs; subst hs
            refine ⟨?_, same hp.log⟩
            rcases hp.latch with h | h
            · exact ⟨l', h.trans h1, h2, by intro b' hb'; cases hb'⟩
            · refine ⟨b.start + b.n, h.2.1, ?_, by intro b' hb'; cases hb'⟩
              have := h3 b hb
              omega
  | giveUp ks =>
    simp only [step] at hs
    split at hs
    · cases hs
    · split at hs
      · injection hs with hs; subst hs
        exact ⟨⟨l', h1, h2, by intro b hb; cases hb⟩, same rfl⟩
      · cases hs
  | have_ =>
    simp only [step] at hs
    split at hs
    · cases hs
    · rename_i b hb
      split at hs
      · injection hs with hs; subst hs
        refine ⟨⟨l', h1, h2, ?_⟩, same rfl⟩
        intro b' hb'; injection hb' with hb'; subst hb'; exact h3 b hb
      · cases hs
  | write g =>
    simp only [step] at hs
    split at hs
    · cases hs
    · rename_i b hb
      split at hs
      · cases hs
      · rename_i k hk
        have hlt : b.w < b.es.length := (List.getElem?_eq_some_iff.1 hk).1
        split at hs
        · rename_i hc
          split at hs
          · cases hs
          · rename_i s1 hfin
            injection hs with hs; subst hs
            have hs1 : s1.latch = s.latch ∧ s1.log = s.log := by
              rcases finished hfin with h | ⟨h, -⟩
              · subst h; exact ⟨rfl, rfl⟩
              · refine ⟨?_, h.log⟩
                rcases h.latch with h | h
                · exact h
                · cases h.1
            refine ⟨⟨l', hs1.1.trans h1, h2, ?_⟩, [k], ?_, Or.inr ?_⟩
            · intro b' hb'; injection hb' with hb'; subst hb'; exact h3 b hb
            · show s1.log ++ [k] = _
              rw [hs1.2]
            · show (s1.log ++ [k]).length < l
              have := h3 b hb
              rw [hs1.2]
              simp; omega
        · cases hs
  | done =>
    simp only [step] at hs
    split at hs
    · cases hs
    · split at hs
      · injection hs with hs; subst hs
        exact ⟨⟨l', h1, h2, by intro b hb; cases hb⟩, same rfl⟩
      · cases hs
  | rollback n => cases hr
  | configRollback => cases hr
  | becomeLeader => cases hr
  | resume => cases hr
  | append k g => exact absurd rfl (ha k g)
  | commit =>
    simp only [step] at hs
    split at hs
    · cases hs
    · injection hs with hs; subst hs; exact ⟨⟨l', h1, h2, h3⟩, same rfl⟩
  | begin k g =>
    simp only [step] at hs
    split at hs
    · cases hs
    · split at hs
      · injection hs with hs; subst hs; exact ⟨h, same rfl⟩
      · split at hs
        · injection hs with hs; subst hs; exact ⟨⟨l', h1, h2, h3⟩, same rfl⟩
        · injection hs with hs; subst hs; exact ⟨h, same rfl⟩
  | emplace k =>
    simp only [step] at hs
    split at hs
    · injection hs with hs; subst hs; exact ⟨⟨l', h1, h2, h3⟩, same rfl⟩
    · cases hs
  | control k =>
    simp only [step] at hs
    split at hs
    · cases hs
    · split at hs
      · injection hs with hs; subst hs; exact ⟨h, same rfl⟩
      · injection hs with hs; subst hs; exact ⟨⟨l', h1, h2, h3⟩, same rfl⟩
  | direct k =>
    simp only [step] at hs
    split at hs
    · cases hs
    · injection hs with hs; subst hs; exact ⟨⟨l', h1, h2, h3⟩, same rfl⟩
  | quiesce => injection hs with hs; subst hs; exact ⟨⟨l', h1, h2, h3⟩, same rfl⟩
  | clear c => injection hs with hs; subst hs; exact ⟨⟨l', h1, h2, h3⟩, same rfl⟩

/-- **C104**.  From "no space left" at an lsn until a rollback, a change of leader or `resume_accepting_reqs`, a member that
does not lead writes no entry with this lsn or a later one. -/
theorem C104_latched {l : Nat} {es : List Ev} : ∀ {s s' : St}, s.latch = some l → s.batch = none →
    (∀ e ∈ es, e.resets = false ∧ ∀ k g, e ≠ .append k g) → run s es = .ok s' →
    ∃ new, s'.log = s.log ++ new ∧ (new = [] ∨ s'.log.length < l) := by
  intro s s' hl hb
  have h : Latched l s := ⟨l, hl, Nat.le_refl _, by intro b h; rw [hb] at h; cases h⟩
  clear hl hb
  induction es generalizing s with
  | nil => intro _ hr; injection hr with hr; subst hr; exact ⟨[], by simp, Or.inl rfl⟩
  | cons e es ih =>
    intro he hr
    simp only [run] at hr
    split at hr
    · rename_i s1 hs
      have h1 := latched_step h (he e List.mem_cons_self).1 (he e List.mem_cons_self).2 hs
      obtain ⟨n1, e1, d1⟩ := h1.2
      obtain ⟨n2, e2, d2⟩ := ih h1.1 (fun e h => he e (List.mem_cons_of_mem _ h)) hr
      refine ⟨n1 ++ n2, by rw [e2, e1, List.append_assoc], ?_⟩
      rcases d2 with d2 | d2
      · rcases d1 with d1 | d1
        · left; rw [d1, d2]; rfl
        · right; rw [e2, d2, List.append_nil]; exact d1
      · exact Or.inr d2
    · cases hr
    · cases hr

/-! ## The blocks of a committed entry -/

/-- As `Fair`; besides, requests are cleared only when all entries of the log are committed, and raft writes no entry
twice. -/
def FairBlk (s : St) (e : Ev) : Prop :=
  Fair s e ∧ (∀ c, e = .clear c → s.log.length ≤ s.committed) ∧
    ∀ g, e = .write g → ∀ b k, s.batch = some b → b.es[b.w]? = some k → k ∉ s.log

def FairBlkRun (s : St) : List Ev → Prop
  | [] => True
  | e :: l => FairBlk s e ∧ ∀ s', step s e = .ok s' → FairBlkRun s' l

structure Kept (s : St) : Prop where
  map : ∀ k, HasBlk s.map k → k ∉ s.log → s.freed k = false
  log : ∀ i k, s.committed ≤ i → s.log[i]? = some k → k.linked = true → s.freed k = false
  begun : ∀ k q, (k, Stage.fresh q) ∈ s.begun → s.freed k = false

theorem kept_init (me : Nat) : Kept (St.init me) where
  map := by rintro k ⟨q, h, -⟩; cases h
  log := by intro i k _ h; simp [St.init] at h
  begun := by intro k q h; cases h

theorem freed_le {s : St} {k : Key} {lsn : Option Nat} {r : St × Bool} (hc : Created s k lsn r) {k' : Key} (h : s.freed k' = false) :
    r.1.freed k' = false := by
  by_cases e : k' = k
  · subst e
    cases hf : r.1.freed k' with
    | false => rfl
    | true => rw [hc.freedK hf] at h; cases h
  · rw [hc.freedO k' e]; exact h

theorem kept_created {s : St} {k : Key} {lsn : Option Nat} {r : St × Bool} (hk : Kept s) (hc : Created s k lsn r) : Kept r.1 where
  map := by
    rintro k' hb hn
    rw [hc.log] at hn
    by_cases e : k' = k
    · subst e
      cases hf : r.1.freed k' with
      | false => rfl
      | true =>
        rcases hc.freedN hb hf with h | ⟨h, h'⟩
        · exact absurd h hn
        · rw [hk.map k' h hn] at h'; cases h'
    · obtain ⟨q, h1, h2⟩ := hb
      rw [hc.others k' e] at h1
      exact freed_le hc (hk.map k' ⟨q, h1, h2⟩ hn)
  log := by
    intro i k' h1 h2 h3
    rw [hc.committed] at h1
    rw [hc.log] at h2
    exact freed_le hc (hk.log i k' h1 h2 h3)
  begun := by
    intro k' q h
    rw [hc.begun] at h
    exact freed_le hc (hk.begun k' q h)

/-- Nothing but the batch, the latch and the flag changed. -/
theorem kept_of {s s1 : St} (hk : Kept s) (e1 : s1.map = s.map) (e2 : s1.log = s.log) (e3 : s1.freed = s.freed)
    (e4 : s.committed ≤ s1.committed) (e5 : ∀ k q, (k, Stage.fresh q) ∈ s1.begun → (k, Stage.fresh q) ∈ s.begun) : Kept s1 where
  map := by intro k; rw [e1, e2, e3]; exact hk.map k
  log := by intro i k h; rw [e2, e3]; exact hk.log i k (Nat.le_trans e4 h)
  begun := by intro k q h; rw [e3]; exact hk.begun k q (e5 k q h)

theorem has_erase {m : Key → Option Req} {ks : List Key} {k : Key} (h : HasBlk (eraseAll m ks) k) : k ∉ ks ∧ HasBlk m k := by
  obtain ⟨q, h1, h2⟩ := h
  unfold eraseAll at h1
  split at h1
  · cases h1
  · rename_i hn; exact ⟨hn, q, h1, h2⟩

theorem has_upd_none {m : Key → Option Req} {k k' : Key} (h : HasBlk (upd m k none) k') : HasBlk m k' := by
  obtain ⟨q, h1, h2⟩ := h
  unfold upd at h1
  split at h1
  · cases h1
  · exact ⟨q, h1, h2⟩

theorem kept_written {s s1 : St} {k : Key} (hk : Kept s1) (hn : k.linked = true → s1.freed k = false)
    (e1 : s.map = s1.map) (e2 : s.log = s1.log ++ [k]) (e3 : s.freed = s1.freed) (e4 : s.committed = s1.committed)
    (e5 : ∀ k q, (k, Stage.fresh q) ∈ s.begun → (k, Stage.fresh q) ∈ s1.begun) : Kept s where
  map := by
    intro k' hb hn'
    rw [e1] at hb
    rw [e3]
    rw [e2] at hn'
    exact hk.map k' hb (fun h => hn' (List.mem_append_left _ h))
  log := by
    intro i k' h1 h2 h3
    rw [e2] at h2
    rw [e3]
    rw [e4] at h1
    by_cases hi : i < s1.log.length
    · rw [List.getElem?_append_left hi] at h2
      exact hk.log i k' h1 h2 h3
    · have := List.mem_of_getElem? h2
      rw [List.getElem?_append_right (by omega)] at h2
      have : k' = k := by
        have := List.mem_of_getElem? h2
        simpa using this
      subst this
      exact hn h3
  begun := by intro k' q h; rw [e3]; exact hk.begun k' q (e5 k' q h)

theorem kept_step {s s' : St} {e : Ev} (hg : Good s) (hk : Kept s) (hf : FairBlk s e) (hs : step s e = .ok s') : Kept s' := by
  cases e with
  | push k g =>
    simp only [step] at hs
    split at hs
    · injection hs with hs; subst hs
      exact kept_created hk (created s k none g)
    · cases hs
  | batch start es =>
    simp only [step] at hs
    split at hs
    · cases hs
    · split at hs
      · split at hs
        · injection hs with hs; subst hs; exact hk
        · injection hs with hs; subst hs; exact kept_of hk rfl rfl rfl (Nat.le_refl _) (fun _ _ h => h)
      · injection hs with hs; subst hs; exact kept_of hk rfl rfl rfl (Nat.le_refl _) (fun _ _ h => h)
  | prep g =>
    simp only [step] at hs
    split at hs
    · cases hs
    · rename_i b hb
      split at hs
      · cases hs
      · rename_i k hk'
        have hp := kept_created hk (prepared s k (b.start + b.n) g).1
        split at hs
        · injection hs with hs; subst hs; exact kept_of hk rfl rfl rfl (Nat.le_refl _) (fun _ _ h => h)
        · split at hs
          · injection hs with hs; subst hs
            exact kept_of hp rfl rfl rfl (Nat.le_refl _) (fun _ _ h => h)
          · injection hs with hs; subst hs
            exact kept_of hp rfl rfl rfl (Nat.le_refl _) (fun _ _ h => h)
  | giveUp ks =>
    simp only [step] at hs
    split at hs
    · cases hs
    · split at hs
      · injection hs with hs; subst hs
        exact ⟨fun k hb => hk.map k (has_erase hb).2, hk.log, hk.begun⟩
      · cases hs
  | have_ =>
    simp only [step] at hs
    split at hs
    · cases hs
    · split at hs
      · injection hs with hs; subst hs; exact kept_of hk rfl rfl rfl (Nat.le_refl _) (fun _ _ h => h)
      · cases hs
  | write g =>
    simp only [step] at hs
    split at hs
    · cases hs
    · rename_i b hb
      split at hs
      · cases hs
      · rename_i k hk'
        split at hs
        · rename_i hc
          have hi := hg.idx b hb
          have hlt : b.w < b.es.length := (List.getElem?_eq_some_iff.1 hk').1
          have hlen := hg.len
          have hr : ReadyIn s.map k := hg.ready b hb b.w k (Nat.le_refl _) (by omega) (by omega) hk'
          rw [finish_ready g hr] at hs
          injection hs with hs; subst hs
          refine kept_written hk ?_ rfl rfl rfl rfl (fun _ _ h => h)
          intro hl
          obtain ⟨q, h1, -, h3⟩ := hr
          exact hk.map k ⟨q, h1, h3 hl⟩ (hf.2.2 g rfl b k hb hk')
        · cases hs
  | done =>
    simp only [step] at hs
    split at hs
    · cases hs
    · split at hs
      · injection hs with hs; subst hs; exact kept_of hk rfl rfl rfl (Nat.le_refl _) (fun _ _ h => h)
      · cases hs
  | rollback n =>
    simp only [step] at hs
    split at hs
    · injection hs with hs; subst hs
      refine ⟨?_, ?_, hk.begun⟩
      · intro k hb hn
        obtain ⟨h1, h2⟩ := has_erase hb
        refine hk.map k h2 ?_
        intro hm
        rw [← List.take_append_drop n s.log] at hm
        rcases List.mem_append.1 hm with h | h
        · exact hn h
        · exact h1 h
      · intro i k h1 h2 h3
        refine hk.log i k h1 ?_ h3
        change (s.log.take n)[i]? = _ at h2
        rw [List.getElem?_take] at h2
        split at h2
        · exact h2
        · cases h2
    · cases hs
  | configRollback => injection hs with hs; subst hs; exact kept_of hk rfl rfl rfl (Nat.le_refl _) (fun _ _ h => h)
  | becomeLeader => injection hs with hs; subst hs; exact kept_of hk rfl rfl rfl (Nat.le_refl _) (fun _ _ h => h)
  | commit =>
    simp only [step] at hs
    split at hs
    · cases hs
    · injection hs with hs; subst hs
      exact ⟨fun k hb => hk.map k (has_upd_none hb), fun i k h => hk.log i k (Nat.le_of_succ_le h), hk.begun⟩
  | begin k g =>
    simp only [step] at hs
    split at hs
    · cases hs
    · split at hs
      · injection hs with hs; subst hs; exact hk
      · split at hs
        · injection hs with hs; subst hs
          have hle : ∀ {k' : Key}, s.freed k' = false → upd s.freed k (s.freed k && decide (k ∈ s.log)) k' = false := by
            intro k' h
            by_cases e : k' = k
            · subst e; rw [upd_same, h]; rfl
            · rw [upd_other e]; exact h
          refine ⟨fun k' h1 h2 => hle (hk.map k' h1 h2), fun i k' h1 h2 h3 => hle (hk.log i k' h1 h2 h3), ?_⟩
          intro k' q h
          rcases List.mem_append.1 h with h | h
          · exact hle (hk.begun k' q h)
          · have h := List.mem_singleton.1 h
            injection h with h _
            subst h
            show upd s.freed k' _ k' = false
            rw [upd_same]
            have : k' ∉ s.log := hf.1.1
            simp [this]
        · injection hs with hs; subst hs; exact hk
  | emplace k =>
    have hmap : s.map k = none := hf.1
    simp only [step] at hs
    split at hs
    · rename_i k' q hfind
      obtain ⟨hm, hkk⟩ := find_key hfind
      change k' = k at hkk
      subst hkk
      injection hs with hs; subst hs
      simp only [hmap]
      refine ⟨?_, hk.log, ?_⟩
      · rintro k2 ⟨q2, h1, h2⟩ hn
        by_cases e : k2 = k'
        · subst e; exact hk.begun k2 q hm
        · change upd s.map k' _ k2 = _ at h1
          rw [upd_other e] at h1
          exact hk.map k2 ⟨q2, h1, h2⟩ hn
      · intro k2 q2 h
        obtain ⟨p, h1, h2⟩ := List.mem_map.1 h
        split at h2
        · injection h2 with _ h2; cases h2
        · subst h2; exact hk.begun k2 q2 h1
    · cases hs
  | control k =>
    simp only [step] at hs
    split at hs
    · cases hs
    · split at hs
      · injection hs with hs; subst hs; exact hk
      · injection hs with hs; subst hs
        refine kept_of hk rfl rfl rfl (Nat.le_refl _) ?_
        intro k' q h
        rcases List.mem_append.1 h with h | h
        · exact h
        · have h := List.mem_singleton.1 h
          injection h with _ h; cases h
  | direct k =>
    simp only [step] at hs
    split at hs
    · cases hs
    · injection hs with hs; subst hs
      refine kept_of hk rfl rfl rfl (Nat.le_refl _) ?_
      intro k' q h
      rcases List.mem_append.1 h with h | h
      · exact h
      · have h := List.mem_singleton.1 h
        injection h with _ h; cases h
  | append k g =>
    simp only [step] at hs
    split at hs
    · cases hs
    · split at hs
      · cases hs
      · cases hs
      · rename_i k' g' hnf hfind
        obtain ⟨hm, hkk⟩ := find_key hfind
        have hq := hg.own _ hm
        change k' = k at hkk
        subst hkk
        have hfil : ∀ {bs : List (Key × Stage)} k q, (k, Stage.fresh q) ∈ bs.filter (fun p => p.1 ≠ k') → (k, Stage.fresh q) ∈ bs :=
          fun k q h => (List.mem_filter.1 h).1
        split at hs
        · cases hs
        · rename_i s1 hfin
          injection hs with hs; subst hs
          cases g' with
          | fresh q => exact absurd rfl (hnf q)
          | mapped =>
            rw [finish_ready g hq] at hfin
            injection hfin with hfin; subst hfin
            refine kept_written hk ?_ rfl rfl rfl rfl (fun k q h => hfil k q h)
            intro hl
            obtain ⟨q, h1, -, h3⟩ := hq
            exact hk.map k' ⟨q, h1, h3 hl⟩ (hg.news _ hm)
          | control =>
            have hk1 : Kept s1 := by
              rcases finished hfin with h | ⟨h, -⟩
              · subst h; exact hk
              · exact kept_created hk h
            refine kept_written hk1 ?_ rfl rfl rfl rfl (fun k q h => hfil k q h)
            intro hl
            rw [hq.2] at hl; cases hl
  | quiesce => injection hs with hs; subst hs; exact kept_of hk rfl rfl rfl (Nat.le_refl _) (fun _ _ h => h)
  | clear c =>
    have hlen := hf.2.1 c rfl
    have hown := hf.1.2
    injection hs with hs; subst hs
    refine ⟨?_, ?_, ?_⟩
    · rintro k ⟨q, h1, h2⟩ hn
      change (match s.map k with | some q => if q.blk = some c then none else some q | none => none) = some q at h1
      show ((match s.map k with | some q => decide (q.blk = some c) | none => false) || s.freed k) = false
      cases hm : s.map k with
      | none => simp [hm] at h1
      | some q0 =>
        simp only [hm] at h1 ⊢
        split at h1
        · cases h1
        · rename_i hne
          injection h1 with h1; subst h1
          simp [hne, hk.map k ⟨q0, hm, h2⟩ hn]
    · intro i k h1 h2
      have := (List.getElem?_eq_some_iff.1 h2).1
      change s.committed ≤ i at h1
      change i < s.log.length at this
      omega
    · intro k q h
      show ((match s.map k with | some q => decide (q.blk = some c) | none => false) || s.freed k) = false
      rw [hk.begun k q h]
      cases hm : s.map k with
      | none => rfl
      | some q0 => simp [hown _ h q0 hm]
  | resume => injection hs with hs; subst hs; exact kept_of hk rfl rfl rfl (Nat.le_refl _) (fun _ _ h => h)

theorem kept_run {l : List Ev} : ∀ {s s' : St}, Good s → Kept s → FairBlkRun s l → run s l = .ok s' → Good s' ∧ Kept s' := by
  induction l with
  | nil => intro s s' hg hk _ h; injection h with h; subst h; exact ⟨hg, hk⟩
  | cons e l ih =>
    intro s s' hg hk hf h
    simp only [run] at h
    split at h
    · rename_i s1 hs
      exact ih ((good_step hg hf.1.1).2 s1 hs) (kept_step hg hk hf.1 hs) (hf.2 s1 hs) h
    · cases h
    · cases h

/-- **C105**.  The entry that is committed next, if it has data, still has the blocks it was written with: clearing requests for
lack of space did not free them. -/
theorem C105_commit_keeps_blocks_partial {me : Nat} {l : List Ev} {s : St} {k : Key} (hf : FairBlkRun (St.init me) l)
    (h : run (St.init me) l = .ok s) (hk : s.log[s.committed]? = some k) (hl : k.linked = true) : s.freed k = false :=
  (kept_run (good_init me) (kept_init me) hf h).2.log s.committed k (Nat.le_refl _) hk hl

/-! ## The chunk that was cleared -/

/-- Requests are refused, and none has blocks on the chunk. -/
structure Off (c : Nat) (s : St) : Prop where
  quiet : s.quiet = true
  map : ∀ k q, s.map k = some q → q.blk ≠ some c
  begun : ∀ k q, (k, Stage.fresh q) ∈ s.begun → q.blk ≠ some c

theorem off_created {c : Nat} {s : St} {k : Key} {lsn : Option Nat} {r : St × Bool} (h : Off c s) (hc : Created s k lsn r) : Off c r.1 where
  quiet := by rw [hc.quiet]; exact h.quiet
  map := by
    intro k' q h1 h2
    by_cases e : k' = k
    · subst e
      obtain ⟨q', h3, h4⟩ := hc.noBlk h.quiet c q h1 h2
      exact h.map k' q' h3 h4
    · rw [hc.others k' e] at h1
      exact h.map k' q h1 h2
  begun := by intro k' q h'; rw [hc.begun] at h'; exact h.begun k' q h'

theorem off_step {c : Nat} {s s' : St} {e : Ev} (h : Off c s) (hr : e ≠ .resume) (hs : step s e = .ok s') : Off c s' := by
  cases e with
  | push k g =>
    simp only [step] at hs
    split at hs
    · injection hs with hs; subst hs; exact off_created h (created s k none g)
    · cases hs
  | batch start es =>
    simp only [step] at hs
    split at hs
    · cases hs
    · split at hs
      · split at hs
        · injection hs with hs; subst hs; exact h
        · injection hs with hs; subst hs; exact ⟨h.quiet, h.map, h.begun⟩
      · injection hs with hs; subst hs; exact ⟨h.quiet, h.map, h.begun⟩
  | prep g =>
    simp only [step] at hs
    split at hs
    · cases hs
    · rename_i b hb
      split at hs
      · cases hs
      · rename_i k hk'
        have hp := off_created h (prepared s k (b.start + b.n) g).1
        split at hs
        · injection hs with hs; subst hs; exact ⟨h.quiet, h.map, h.begun⟩
        · split at hs
          · injection hs with hs; subst hs; exact ⟨hp.quiet, hp.map, hp.begun⟩
          · injection hs with hs; subst hs; exact ⟨hp.quiet, hp.map, hp.begun⟩
  | giveUp ks =>
    simp only [step] at hs
    split at hs
    · cases hs
    · split at hs
      · injection hs with hs; subst hs
        refine ⟨h.quiet, ?_, h.begun⟩
        intro k q hm
        change eraseAll s.map ks k = some q at hm
        unfold eraseAll at hm
        split at hm
        · cases hm
        · exact h.map k q hm
      · cases hs
  | have_ =>
    simp only [step] at hs
    split at hs
    · cases hs
    · split at hs
      · injection hs with hs; subst hs; exact ⟨h.quiet, h.map, h.begun⟩
      · cases hs
  | write g =>
    simp only [step] at hs
    split at hs
    · cases hs
    · split at hs
      · cases hs
      · split at hs
        · split at hs
          · cases hs
          · rename_i s1 hfin
            injection hs with hs; subst hs
            have h1 : Off c s1 := by
              rcases finished hfin with h' | ⟨h', -⟩
              · subst h'; exact h
              · exact off_created h h'
            exact ⟨h1.quiet, h1.map, h1.begun⟩
        · cases hs
  | done =>
    simp only [step] at hs
    split at hs
    · cases hs
    · split at hs
      · injection hs with hs; subst hs; exact ⟨h.quiet, h.map, h.begun⟩
      · cases hs
  | rollback n =>
    simp only [step] at hs
    split at hs
    · injection hs with hs; subst hs
      refine ⟨h.quiet, ?_, h.begun⟩
      intro k q hm
      change eraseAll s.map _ k = some q at hm
      unfold eraseAll at hm
      split at hm
      · cases hm
      · exact h.map k q hm
    · cases hs
  | configRollback => injection hs with hs; subst hs; exact ⟨h.quiet, h.map, h.begun⟩
  | becomeLeader => injection hs with hs; subst hs; exact ⟨h.quiet, h.map, h.begun⟩
  | commit =>
    simp only [step] at hs
    split at hs
    · cases hs
    · injection hs with hs; subst hs
      refine ⟨h.quiet, ?_, h.begun⟩
      intro k q hm
      change upd s.map _ none k = some q at hm
      unfold upd at hm
      split at hm
      · cases hm
      · exact h.map k q hm
  | begin k g =>
    simp only [step, h.quiet] at hs
    split at hs
    · cases hs
    · injection hs with hs; subst hs; exact h
  | emplace k =>
    simp only [step] at hs
    split at hs
    · rename_i k' q hfind
      obtain ⟨hm, hkk⟩ := find_key hfind
      injection hs with hs; subst hs
      refine ⟨h.quiet, ?_, ?_⟩
      · intro k2 q2 h2
        change (match s.map k with | none => upd s.map k (some q) | some _ => s.map) k2 = some q2 at h2
        cases hmk : s.map k with
        | none =>
          simp only [hmk] at h2
          by_cases e : k2 = k
          · subst e
            rw [upd_same] at h2
            injection h2 with h2; subst h2
            exact h.begun _ q hm
          · rw [upd_other e] at h2; exact h.map k2 q2 h2
        | some q0 =>
          simp only [hmk] at h2
          exact h.map k2 q2 h2
      · intro k2 q2 h2
        obtain ⟨p, h3, h4⟩ := List.mem_map.1 h2
        split at h4
        · injection h4 with _ h4; cases h4
        · subst h4; exact h.begun k2 q2 h3
    · cases hs
  | control k =>
    simp only [step, h.quiet] at hs
    split at hs
    · cases hs
    · injection hs with hs; subst hs; exact h
  | direct k =>
    simp only [step] at hs
    split at hs
    · cases hs
    · injection hs with hs; subst hs
      refine ⟨h.quiet, h.map, ?_⟩
      intro k' q h'
      rcases List.mem_append.1 h' with h' | h'
      · exact h.begun k' q h'
      · have h' := List.mem_singleton.1 h'
        injection h' with _ h'; cases h'
  | append k g =>
    simp only [step] at hs
    split at hs
    · cases hs
    · split at hs
      · cases hs
      · cases hs
      · split at hs
        · cases hs
        · rename_i s1 hfin
          injection hs with hs; subst hs
          have h1 : Off c s1 := by
            rcases finished hfin with h' | ⟨h', -⟩
            · subst h'; exact h
            · exact off_created h h'
          exact ⟨h1.quiet, h1.map, fun k q h' => h1.begun k q (List.mem_filter.1 h').1⟩
  | quiesce => injection hs with hs; subst hs; exact ⟨rfl, h.map, h.begun⟩
  | clear c' =>
    injection hs with hs; subst hs
    refine ⟨h.quiet, ?_, h.begun⟩
    intro k q hm
    change (match s.map k with | some q => if q.blk = some c' then none else some q | none => none) = some q at hm
    split at hm
    · rename_i q0 hq0
      split at hm
      · cases hm
      · injection hm with hm; subst hm; exact h.map k q0 hq0
    · cases hm
  | resume => exact absurd rfl hr

/-- **C105**.  Requests are refused and cleared from a chunk, when no write of this member is between allocating its blocks and
being put in the map.  From then on, until requests are accepted again, no request of the member has blocks on this chunk. -/
theorem C105_cleared_partial {s s1 s2 : St} {c : Nat} {es : List Ev} (hq : s.quiet = true)
    (hb : ∀ k q, (k, Stage.fresh q) ∈ s.begun → q.blk ≠ some c) (hs : step s (.clear c) = .ok s1)
    (he : Ev.resume ∉ es) (hr : run s1 es = .ok s2) : ∀ k q, s2.map k = some q → q.blk ≠ some c := by
  have h1 : Off c s1 := by
    injection hs with hs; subst hs
    refine ⟨hq, ?_, hb⟩
    intro k q hm
    change (match s.map k with | some q => if q.blk = some c then none else some q | none => none) = some q at hm
    split at hm
    · rename_i q0 hq0
      split at hm
      · cases hm
      · rename_i hne
        injection hm with hm; subst hm; exact hne
    · cases hm
  clear hs hb
  have : ∀ {es : List Ev} {s1 : St}, Off c s1 → Ev.resume ∉ es → run s1 es = .ok s2 → Off c s2 := by
    intro es
    induction es with
    | nil => intro s1 h _ hr; injection hr with hr; subst hr; exact h
    | cons e es ih =>
      intro s1 h he hr
      simp only [run] at hr
      split at hr
      · rename_i s3 hs3
        refine ih (off_step h ?_ hs3) (fun h => he (List.mem_cons_of_mem _ h)) hr
        intro e'; exact he (e' ▸ List.mem_cons_self)
      · cases hr
      · cases hr
  exact (this h1 he hr).map

/-! ## What goes wrong otherwise -/

def kA : Key := ⟨1, 1, true⟩
def kB : Key := ⟨1, 2, true⟩
def kX : Key := ⟨2, 1, true⟩
def kOwn : Key := ⟨0, 1, true⟩
def kCtl : Key := ⟨0, 2, false⟩

/-- **C104 (violated)**.  A control request (replacing or removing a member, destroying the group, a truncation boundary) that was
initialized before requests are refused, and is appended to the leader's own log afterwards, aborts the leader. -/
theorem C104_control_aborts_violated : run (St.init 0) [.control kCtl, .quiesce, .append kCtl .err] = .abort := rfl

/-- **C104 (violated)**.  Removing a member while requests are refused aborts the leader: the request is initialized without
asking. -/
theorem C104_remove_member_aborts_violated : run (St.init 0) [.quiesce, .direct kCtl, .append kCtl .err] = .abort := rfl

/-- **C104 (violated)**.  A write of the leader that is cleared before raft appends it aborts the leader. -/
theorem C104_write_cleared_aborts_violated :
    run (St.init 0) [.begin kOwn (.chunk 0), .emplace kOwn, .quiesce, .clear 0, .append kOwn .err] = .abort := rfl

/-- **C104 (violated)**.  A follower that is asked to become leader after "no space left" forgets the latch: the next batch has the
entry whose data it got before, the entries before it are committed, the application clears the chunk, and the process
aborts - the case the latch is for. -/
theorem C104_latch_reset_aborts_violated :
    run (St.init 0) [.batch 1 [kA], .prep (.chunk 0), .write .err, .done, .push kB (.chunk 0), .batch 2 [kX], .prep .noSpace, .quiesce,
      .becomeLeader, .batch 2 [kB], .prep .err, .commit, .clear 0, .write .err] = .abort := rfl

/-- The same with the latch as it was: the batch is refused. -/
example : ∃ s, run (St.init 0) [.batch 1 [kA], .prep (.chunk 0), .write .err, .done, .push kB (.chunk 0), .batch 2 [kX], .prep .noSpace,
    .quiesce, .batch 2 [kB], .commit, .clear 0, .resume] = .ok s ∧ s.batch = none ∧ s.log = [kA] :=
  ⟨_, rfl, rfl, rfl⟩

/-- **C105 (violated)**.  An entry of the log that is not committed when the application clears the chunk - its lsn is the one with
no space, where a new leader sent another entry - loses its blocks.  If the new leader fails and the old entry is committed
after all, it is committed with blocks that were freed. -/
theorem C105_commits_freed_blocks_violated :
    ∃ s, run (St.init 0) [.batch 1 [kA, kB], .prep (.chunk 0), .prep (.chunk 0), .write .err, .write .err, .done, .batch 2 [kX], .prep .noSpace,
        .quiesce, .commit, .clear 0, .resume, .batch 2 [kB], .prep (.chunk 1), .have_, .done] = .ok s ∧
      s.log[s.committed]? = some kB ∧ s.freed kB = true :=
  ⟨_, rfl, rfl, rfl⟩

/-- **C105 (violated)**.  A write whose blocks are allocated, but which is not yet in the map, is missed by `clear_chunk_req`, though
`quiesce_reqs` has returned. -/
theorem C105_clear_misses_write_violated :
    ∃ s, run (St.init 0) [.begin kOwn (.chunk 0), .quiesce, .clear 0, .emplace kOwn] = .ok s ∧ s.map kOwn = some { blk := some 0 } :=
  ⟨_, rfl, rfl⟩

/-! ## A run that meets the hypotheses: "no space left", the entries before it committed, cleared, resumed, the entry taken -/

def exRun : List Ev :=
  [.batch 1 [kA], .prep (.chunk 0), .write .err, .done, .push kB (.chunk 0), .batch 2 [kX], .prep .noSpace, .quiesce, .batch 2 [kX], .commit,
   .clear 0, .resume, .batch 2 [kX], .prep (.chunk 0), .write .err, .done]

/-- The events that need nothing. -/
theorem fair_blk_of {s : St} {e : Ev} (h : Fair s e) (hc : ∀ c, e ≠ .clear c) (hw : ∀ g, e ≠ .write g) : FairBlk s e :=
  ⟨h, fun c e' => absurd e' (hc c), fun g e' => absurd e' (hw g)⟩

theorem exRun_fair : FairBlkRun (St.init 0) exRun := by
  have nb : ∀ {es : List Key}, ∀ k ∈ es, ∀ p ∈ ([] : List (Key × Stage)), p.1 ≠ k := by
    intro es k _ p hp; cases hp
  refine ⟨fair_blk_of nb (by simp) (by simp), ?_⟩; rintro _ ⟨⟩
  refine ⟨fair_blk_of trivial (by simp) (by simp), ?_⟩; rintro _ ⟨⟩
  refine ⟨⟨trivial, by simp, ?_⟩, ?_⟩
  · rintro g - b k hb hk; injection hb with hb; subst hb; injection hk with hk; subst hk
    decide
  rintro _ ⟨⟩
  refine ⟨fair_blk_of trivial (by simp) (by simp), ?_⟩; rintro _ ⟨⟩
  refine ⟨fair_blk_of trivial (by simp) (by simp), ?_⟩; rintro _ ⟨⟩
  refine ⟨fair_blk_of nb (by simp) (by simp), ?_⟩; rintro _ ⟨⟩
  refine ⟨fair_blk_of trivial (by simp) (by simp), ?_⟩; rintro _ ⟨⟩
  refine ⟨fair_blk_of (by intro p hp; cases hp) (by simp) (by simp), ?_⟩; rintro _ ⟨⟩
  refine ⟨fair_blk_of nb (by simp) (by simp), ?_⟩; rintro _ ⟨⟩
  refine ⟨fair_blk_of (by intro k _ b hb; cases hb) (by simp) (by simp), ?_⟩; rintro _ ⟨⟩
  refine ⟨⟨⟨⟨2, rfl, by decide⟩, by intro p hp; cases hp⟩, ?_, by simp⟩, ?_⟩
  · intro c _; decide
  rintro _ ⟨⟩
  refine ⟨fair_blk_of trivial (by simp) (by simp), ?_⟩; rintro _ ⟨⟩
  refine ⟨fair_blk_of nb (by simp) (by simp), ?_⟩; rintro _ ⟨⟩
  refine ⟨fair_blk_of trivial (by simp) (by simp), ?_⟩; rintro _ ⟨⟩
  refine ⟨⟨trivial, by simp, ?_⟩, ?_⟩
  · rintro g - b k hb hk; injection hb with hb; subst hb; injection hk with hk; subst hk
    decide
  rintro _ ⟨⟩
  refine ⟨fair_blk_of trivial (by simp) (by simp), ?_⟩; rintro _ ⟨⟩
  trivial

theorem fair_of_blk {l : List Ev} : ∀ {s : St}, FairBlkRun s l → FairRun s l := by
  induction l with
  | nil => intro s _; trivial
  | cons e l ih => intro s h; exact ⟨h.1.1, fun s' hs => ih (h.2 s' hs)⟩

example : run (St.init 0) exRun ≠ .abort := C104_no_abort_partial (fair_of_blk exRun_fair)

example : ∃ s, run (St.init 0) exRun = .ok s ∧ s.log = [kA, kX] ∧ s.log[s.committed]? = some kX ∧ s.freed kX = false := by
  refine ⟨_, rfl, rfl, rfl, ?_⟩
  exact C105_commit_keeps_blocks_partial exRun_fair rfl rfl rfl

/-- Cleared with another request in the map, then data is pushed and refused. -/
example : ∀ s1 s2, step { St.init 0 with quiet := true, map := upd (upd (fun _ => none) kB (some { blk := some 0 })) kA (some { blk := some 1 }) } (.clear 0) = .ok s1 →
    run s1 [.push kB (.chunk 0), .push kX (.chunk 0), .quiesce] = .ok s2 → ∀ k q, s2.map k = some q → q.blk ≠ some 0 :=
  fun _ _ h1 h2 => C105_cleared_partial rfl (by intro k q h; cases h) h1 (by decide) h2

example : ∃ s', step { St.init 0 with batch := some ⟨3, [kA, kB], 1, 1, 0⟩ } (.prep .noSpace) = .ok s' ∧ s'.latch = some 4 ∧ s'.batch = none ∧ s'.log = [] :=
  C104_told (b := ⟨3, [kA, kB], 1, 1, 0⟩) (k := kB) rfl rfl (by decide) rfl (by decide) rfl rfl

/-- The latch at 2; data, batches before and after it, commits. -/
example : ∀ s', run { St.init 0 with latch := some 2, log := [] } [.push kA (.chunk 0), .batch 1 [kA], .prep .err, .write .err, .done, .batch 2 [kB], .commit] = .ok s' →
    ∃ new, s'.log = [] ++ new ∧ (new = [] ∨ s'.log.length < 2) :=
  fun s' h => C104_latched rfl rfl (by
    intro e he
    simp only [List.mem_cons, List.not_mem_nil, or_false] at he
    rcases he with h | h | h | h | h | h | h <;> subst h <;> exact ⟨rfl, by simp⟩) h

end HS.Quiesce.Latch
