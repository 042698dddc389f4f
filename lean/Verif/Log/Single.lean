import Mathlib.Tactic.Tauto
import Verif.Log.DevSteps

/-!
# A log device with a single store

HomeRaftLogStore has a log device of its own.  On such a device the off-by-one comparisons of the device truncation
(`Dev.NoClash`) are harmless, as long as a flush follows every rollback before the next truncation.  This file shows it:
`Single` and `Settled` are invariants and imply `NoClash`.
-/

namespace HS.Log

variable {D : Type}

/-- Invariant of a device whose only store is `id`. -/
structure Single (c : Dev D) (id : Nat) : Prop where
  ids : ∀ i ∈ c.ids, i = id
  garb : c.garbage = []
  roll : ∀ r ∈ c.rolls, r.store = id ∧ r.lo ≤ r.hi
  later : ∀ b, c.first id = some b → ∀ r ∈ c.rolls, ∀ x ∈ c.live id b, r.hi < x.1 → r.hi < x.2.1
  trunc : ∀ st, c.stores id = some st → 0 < st.trunc.idx →
    (∀ r ∈ c.rolls, r.hi ≠ st.trunc.idx) ∧ st.trunc.grp < c.flushIdx ∧
    ∀ b, c.first id = some b → ∀ x ∈ c.live id b, st.start ≤ x.2.2.seq → st.trunc.grp < x.1

/-- No rollback ends at the first record of the last flush. -/
def Settled (c : Dev D) : Prop := 0 < c.lastFlush.idx → ∀ r ∈ c.rolls, r.hi ≠ c.lastFlush.idx

theorem minKey_single (st : Nat → Option Store) (id : Nat) (ids : List Nat) (h : ∀ i ∈ ids, i = id) : ∀ m : Option Key,
    minKey st ids m = m ∨ ∃ s, st id = some s ∧ minKey st ids m = some s.trunc := by
  induction ids with
  | nil => intro m; exact Or.inl rfl
  | cons i ids ih =>
    intro m
    have hi : i = id := h i (by simp)
    subst hi
    have ih' := ih (fun j hj => h j (by simp [hj]))
    unfold minKey
    cases hs : st i with
    | none => simp only []; rcases ih' m with h1 | ⟨s, h1, _⟩
              · exact Or.inl h1
              · rw [hs] at h1; cases h1
    | some s =>
      simp only []
      have hs' : ∀ s', st i = some s' → s' = s := fun s' h' => by rw [hs] at h'; exact (Option.some.inj h').symm
      have fin : ∀ m', (m' = m ∨ m' = some s.trunc) →
          minKey st ids m' = m ∨ ∃ s', some s = some s' ∧ minKey st ids m' = some s'.trunc := by
        intro m' hm
        rcases ih' m' with h1 | ⟨s2, h1, h2⟩
        · rcases hm with rfl | rfl
          · exact Or.inl h1
          · exact Or.inr ⟨s, rfl, h1⟩
        · rw [hs' s2 h1] at h2; exact Or.inr ⟨s, rfl, h2⟩
      unfold Store.truncInfo
      by_cases he : s.start - 1 = s.tail
      · rw [if_pos he]; exact fin m (Or.inl rfl)
      · rw [if_neg he]
        simp only []
        cases m with
        | none => exact fin _ (Or.inr rfl)
        | some m' =>
          simp only []
          by_cases hk : s.trunc.idx < m'.idx
          · rw [if_pos hk]; exact fin _ (Or.inr rfl)
          · rw [if_neg hk]; exact fin _ (Or.inl rfl)

theorem Single.safeKey {c : Dev D} {id : Nat} (h : Single c id) :
    c.safeKey = c.lastFlush ∨ ∃ s, c.stores id = some s ∧ c.safeKey = s.trunc := by
  unfold Dev.safeKey
  rcases minKey_single c.stores id c.ids h.ids none with h1 | ⟨s, h1, h2⟩
  · rw [h1]; exact Or.inl rfl
  · rw [h2]; exact Or.inr ⟨s, h1, rfl⟩

/-- On a settled device with one store the truncation key meets no rollback record. -/
theorem Single.noClash {c : Dev D} {id : Nat} (h : Single c id) (hs : Settled c) : c.NoClash := by
  intro hpos _
  refine ⟨?_, by rw [h.garb]; simp⟩
  rcases h.safeKey with he | ⟨s, hst, he⟩
  · rw [he] at hpos ⊢; exact hs hpos
  · rw [he] at hpos ⊢; exact (h.trunc s hst hpos).1

/-- Fewer records, fewer rollbacks, the same truncation key. -/
theorem Single.mono {c c' : Dev D} {id : Nat} (h : Single c id) (hids : ∀ i ∈ c'.ids, i ∈ c.ids)
    (hg : c'.garbage = c.garbage) (hr : ∀ r ∈ c'.rolls, r ∈ c.rolls) (hfi : c.flushIdx ≤ c'.flushIdx)
    (hb : ∀ b', c'.first id = some b' → ∃ b, c.first id = some b ∧ ∀ x ∈ c'.live id b', x ∈ c.live id b)
    (hst : ∀ st', c'.stores id = some st' → 0 < st'.trunc.idx → ∃ st, c.stores id = some st ∧ st'.trunc = st.trunc ∧
      st.start ≤ st'.start) :
    Single c' id where
  ids := fun i hi => h.ids i (hids i hi)
  garb := by rw [hg, h.garb]
  roll := fun r h1 => h.roll r (hr r h1)
  later := by
    intro b' hb' r h1 x hx
    obtain ⟨b, hb1, hb2⟩ := hb b' hb'
    exact h.later b hb1 r (hr r h1) x (hb2 x hx)
  trunc := by
    intro st' h1 h2
    obtain ⟨st, h3, h4, h5⟩ := hst st' h1 h2
    rw [h4] at h2 ⊢
    obtain ⟨h6, h7, h8⟩ := h.trunc st h3 h2
    refine ⟨fun r hr' => h6 r (hr r hr'), by omega, ?_⟩
    intro b' hb' x hx hx2
    obtain ⟨b, hb1, hb2⟩ := hb b' hb'
    exact h8 b hb1 x (hb2 x hx) (by omega)

theorem single_create {id : Nat} {c : Dev D} (h : (Dev.format : Dev D).create id = .ok c) : Single c id ∧ Settled c := by
  have : c = { (Dev.format : Dev D).setStore id (Store.new 0) with
      ids := [id], first := fun i => if i = id then some 0 else none } := by
    simp [Dev.create, Dev.format] at h
    exact h.symm
  subst this
  constructor
  · constructor <;> simp [Dev.format, Dev.setStore, Store.new]
  · intro h1; simp [Dev.format, Dev.setStore] at h1

/-! ## Append -/

theorem single_append {c c' : Dev D} {id i : Nat} {d : D} {n : Int} (h : Single c id)
    (ha : c.append i d = .ok (c', n)) : Single c' id ∧ (Settled c → Settled c') := by
  unfold Dev.append Dev.reserve Dev.write at ha
  cases hs : c.stores i with
  | none => simp [hs] at ha
  | some s =>
    simp [hs, Dev.setStore] at ha
    obtain ⟨rfl, rfl⟩ := ha
    constructor
    · refine h.mono (fun _ h => h) rfl (fun _ h => h) (Nat.le_refl _) (fun b' hb' => ⟨b', hb', fun x hx => hx⟩) ?_
      intro st' h1 h2
      by_cases e : id = i
      · subst e
        refine ⟨s, hs, ?_⟩
        simp only [if_pos] at h1
        obtain rfl := Option.some.inj h1
        by_cases e2 : (s.recs s.next).isSome = true
        · simp [e2]
        · simp [e2, Store.setRec]
      · simp only [if_neg e] at h1
        exact ⟨st', h1, rfl, Int.le_refl _⟩
    · exact fun hset => hset

/-! ## Flush -/

theorem completeAll_trunc (grp : Nat) (P : List (LRec D)) : ∀ (st st' : Nat → Option Store) (idx : Nat),
    completeAll grp st idx P = .ok st' → ∀ id s', st' id = some s' →
      ∃ s, st id = some s ∧ s'.trunc = s.trunc ∧ s'.start = s.start := by
  induction P with
  | nil =>
    intro st st' idx h id s' hs
    simp only [completeAll, Except.ok.injEq] at h
    subst h; exact ⟨s', hs, rfl, rfl⟩
  | cons r P ih =>
    intro st st' idx h id s' hs
    unfold completeAll at h
    cases hst : st r.store with
    | none => simp [hst] at h
    | some s0 =>
      simp only [hst] at h
      cases hc : s0.complete r.seq ⟨idx, grp⟩ ⟨grp, grp⟩ with
      | error x => simp [hc] at h
      | ok s1 =>
        simp only [hc] at h
        obtain ⟨s2, h1, h2, h3⟩ := ih _ _ _ h id s' hs
        have hk : s1.trunc = s0.trunc ∧ s1.start = s0.start := by
          unfold Store.complete Store.truncKeyFor at hc
          by_cases e : s0.tail < r.seq
          · rw [if_pos e] at hc
            simp only [Except.ok.injEq] at hc
            subst hc; exact ⟨rfl, rfl⟩
          · rw [if_neg e] at hc
            cases hr : s0.recs s0.tail with
            | none => simp [hr] at hc
            | some r0 =>
              simp only [hr, Except.ok.injEq] at hc
              subst hc; exact ⟨rfl, rfl⟩
        by_cases e : id = r.store
        · rw [if_pos e] at h1
          obtain rfl := Option.some.inj h1
          exact ⟨s0, by rw [e]; exact hst, by rw [h2, hk.1], by rw [h3, hk.2]⟩
        · rw [if_neg e] at h1; exact ⟨s2, h1, h2, h3⟩

/-- What a flush adds is behind everything. -/
theorem live_flushed {c : Dev D} {id : Nat} {b : Int} {P : List (LRec D)} {c' : Dev D}
    (hg : c'.groups = c.groups ++ [⟨c.flushIdx, P⟩]) (hr : c'.rolls = c.rolls) {x : Nat × Nat × LRec D}
    (hx : x ∈ c'.live id b) : x ∈ c.live id b ∨ (x.2.1 = c.flushIdx ∧ c.flushIdx ≤ x.1) := by
  rw [mem_live, hg, hr, devRecs_append, List.mem_append] at hx
  obtain ⟨h1 | h1, h2⟩ := hx
  · exact Or.inl (mem_live.2 ⟨h1, h2⟩)
  · right
    simp only [devRecs, List.map_cons, List.map_nil, List.flatten_cons, List.flatten_nil, List.append_nil] at h1
    have := mem_recsFrom h1
    exact ⟨this.1, this.2.1⟩

theorem single_grow {c c' : Dev D} {s : SDev D} {id : Nat} {P : List (LRec D)} (hrel : Rel c s) (h : Single c id)
    (hids : ∀ i ∈ c'.ids, i ∈ c.ids) (hgb : c'.garbage = [])
    (hg : c'.groups = c.groups ++ [⟨c.flushIdx, P⟩]) (hr : c'.rolls = c.rolls) (hfi : c.flushIdx < c'.flushIdx)
    (hb : c'.first id = c.first id)
    (hst : ∀ st', c'.stores id = some st' → 0 < st'.trunc.idx → ∃ st, c.stores id = some st ∧ st'.trunc = st.trunc ∧
      st.start ≤ st'.start) : Single c' id where
  ids := fun i hi => h.ids i (hids i hi)
  garb := hgb
  roll := by rw [hr]; exact h.roll
  later := by
    intro b hb' r hr' x hx hlt
    rw [hr] at hr'; rw [hb] at hb'
    rcases live_flushed hg hr hx with h1 | ⟨h1, _⟩
    · exact h.later b hb' r hr' x h1 hlt
    · have := hrel.rolls r hr'; omega
  trunc := by
    intro st' h1 h2
    obtain ⟨st, h3, h4, h5⟩ := hst st' h1 h2
    rw [h4] at h2 ⊢
    rw [hr, hb]
    obtain ⟨h6, h7, h8⟩ := h.trunc st h3 h2
    refine ⟨h6, by omega, ?_⟩
    intro b hb' x hx hx2
    rcases live_flushed hg hr hx with h9 | ⟨_, h9⟩
    · exact h8 b hb' x h9 (by omega)
    · omega

theorem single_flushK {c c' : Dev D} {s : SDev D} {id k : Nat} (hrel : Rel c s) (h : Single c id)
    (hf : c.flushK k = .ok c') : Single c' id ∧ (Settled c → Settled c') ∧
      (c.pending ≠ [] → 0 < k → Settled c') := by
  unfold Dev.flushK at hf
  by_cases hP : c.pending.take k = []
  · rw [if_pos hP] at hf
    simp only [Except.ok.injEq] at hf
    subst hf
    refine ⟨h, fun x => x, fun h1 h2 => ?_⟩
    rw [List.take_eq_nil_iff] at hP
    rcases hP with h3 | h3
    · omega
    · exact absurd h3 h1
  · rw [if_neg hP] at hf
    cases hc : completeAll c.flushIdx c.stores c.flushIdx (c.pending.take k) with
    | error x => simp [hc] at hf
    | ok st =>
      simp only [hc, Except.ok.injEq] at hf
      subst hf
      have hset : Settled ({ c with
        groups := c.groups ++ [⟨c.flushIdx, c.pending.take k⟩], pending := c.pending.drop k,
        flushIdx := c.flushIdx + (c.pending.take k).length, stores := st, lastFlush := ⟨c.flushIdx, c.flushIdx⟩ } : Dev D) := by
        intro _ r hr
        have hr' : r ∈ c.rolls := hr
        have := hrel.rolls r hr'
        show r.hi ≠ (c.flushIdx : Int)
        omega
      have hlen : 0 < (c.pending.take k).length := List.length_pos_iff.2 hP
      refine ⟨?_, fun _ => hset, fun _ _ => hset⟩
      refine single_grow hrel h (P := c.pending.take k) (fun i hi => hi) h.garb rfl rfl ?_ rfl ?_
      · show c.flushIdx < c.flushIdx + (c.pending.take k).length; omega
      · intro st' h1 _
        obtain ⟨s0, h2, h3, h4⟩ := completeAll_trunc _ _ _ _ _ hc id st' h1
        exact ⟨s0, h2, h3, by omega⟩

theorem single_flushN {c : Dev D} (n : Nat) : ∀ {c c' : Dev D} {s : SDev D} {id : Nat}, Rel c s → Single c id →
    Dev.flushN n c = .ok c' → Single c' id ∧ (Settled c → Settled c') ∧ (0 < n → c.pending ≠ [] → Settled c') := by
  induction n with
  | zero =>
    intro c c' s id _ h hf
    simp only [Dev.flushN, Except.ok.injEq] at hf
    subst hf; exact ⟨h, fun x => x, fun h => absurd h (by omega)⟩
  | succ n ih =>
    intro c c' s id hrel h hf
    unfold Dev.flushN at hf
    by_cases hp : c.pending = []
    · rw [if_pos hp] at hf
      simp only [Except.ok.injEq] at hf
      subst hf; exact ⟨h, fun x => x, fun _ h => absurd hp h⟩
    · rw [if_neg hp] at hf
      cases hk : c.flushK maxBatch with
      | error x => simp [hk] at hf
      | ok c1 =>
        simp only [hk] at hf
        obtain ⟨c1', e1, hrel1, _⟩ := step_flushK hrel maxBatch
        rw [hk] at e1
        simp only [Except.ok.injEq] at e1
        subst e1
        obtain ⟨s1, s2, s3⟩ := single_flushK hrel h hk
        obtain ⟨s4, s5, _⟩ := ih hrel1 s1 hf
        have := s5 (s3 hp (by decide))
        exact ⟨s4, fun _ => this, fun _ _ => this⟩

theorem single_flush {c c' : Dev D} {s : SDev D} {id : Nat} (hrel : Rel c s) (h : Single c id)
    (hf : c.flush = .ok c') : Single c' id ∧ (Settled c → Settled c') ∧ (c.pending ≠ [] → Settled c') := by
  obtain ⟨h1, h2, h3⟩ := single_flushN (c := c) _ hrel h hf
  exact ⟨h1, h2, fun hp => h3 (List.length_pos_iff.2 hp) hp⟩

theorem single_read {c c' : Dev D} {s : SDev D} {id i : Nat} {l : Int} {o : Option D} (hrel : Rel c s) (h : Single c id)
    (hset : Settled c) (hr : c.read i l = .ok (c', o)) : Single c' id ∧ Settled c' := by
  unfold Dev.read at hr
  cases hs : c.stores i with
  | none => simp [hs] at hr
  | some st =>
    simp only [hs] at hr
    cases hrec : st.recs l with
    | none =>
      simp only [hrec, Except.ok.injEq, Prod.mk.injEq] at hr
      obtain ⟨rfl, _⟩ := hr; exact ⟨h, hset⟩
    | some r =>
      simp only [hrec] at hr
      have key : ∀ c1, (if r.done = true then Except.ok c else c.flush) = .ok c1 → Single c1 id ∧ Settled c1 := by
        intro c1 h1
        by_cases e : r.done = true
        · rw [if_pos e] at h1
          simp only [Except.ok.injEq] at h1
          subst h1; exact ⟨h, hset⟩
        · rw [if_neg e] at h1
          obtain ⟨a, b, _⟩ := single_flush hrel h h1
          exact ⟨a, b hset⟩
      cases hc1 : (if r.done = true then Except.ok c else c.flush) with
      | error x => simp [hc1] at hr
      | ok c1 =>
        have hk := key c1 hc1
        simp only [hc1] at hr
        cases h2 : c1.stores i with
        | none => simp [h2] at hr
        | some s1 =>
          simp only [h2] at hr
          cases h3 : s1.recs l with
          | none =>
            simp only [h3, Except.ok.injEq, Prod.mk.injEq] at hr
            obtain ⟨rfl, _⟩ := hr; exact hk
          | some r1 =>
            simp only [h3] at hr
            by_cases e : r1.dev.idx = -1
            · rw [if_pos e] at hr
              simp only [Except.ok.injEq, Prod.mk.injEq] at hr
              obtain ⟨rfl, _⟩ := hr; exact hk
            · rw [if_neg e] at hr
              cases h4 : c1.readKey r1.dev with
              | error x => simp [h4] at hr
              | ok d =>
                simp only [h4, Except.ok.injEq, Prod.mk.injEq] at hr
                obtain ⟨rfl, _⟩ := hr; exact hk

/-! ## Truncation -/

theorem single_truncateDev {c : Dev D} {s : SDev D} {id : Nat} (hrel : Rel c s) (h : Single c id) (hset : Settled c)
    (hopen : (c.stores id).isSome) : Single c.truncateDev id ∧ Settled c.truncateDev := by
  have hcl := h.noClash hset
  obtain ⟨st, hst⟩ := Option.isSome_iff_exists.1 hopen
  obtain ⟨t, ht, hok⟩ := hrel.get' hst
  have hfirsts := hrel.firsts hst
  have hkok := (safeKey_ok hrel).1
  unfold Dev.NoClash at hcl
  unfold Dev.truncateDev
  simp only []
  generalize c.safeKey = k at *
  have hmono : ∀ x, x ∈ c.live id st.start → x ∈ c.live id t.base := by
    intro x hx
    rw [mem_live] at hx ⊢
    refine ⟨hx.1, hx.2.1, hx.2.2.1, ?_⟩
    have := hok.base_le; have := hok.start; omega
  by_cases hle : k.idx ≤ 0 ∨ k.idx ≤ c.lastTrunc
  · rw [if_pos hle]
    refine ⟨h.mono (fun _ h => h) rfl (fun _ h => h) (Nat.le_refl _) ?_ (fun st' h1 _ => ⟨st', h1, rfl, Int.le_refl _⟩), hset⟩
    intro b' hb'
    refine ⟨t.base, hok.first, ?_⟩
    have hb2 : c.firsts id = some b' := hb'
    rw [hfirsts] at hb2
    obtain rfl := Option.some.inj hb2
    exact hmono
  · rw [if_neg hle]
    obtain ⟨hcl1, _⟩ := hcl (by omega) (by omega)
    refine ⟨h.mono (fun _ h => h) ?_ (fun r hr => (List.mem_filter.1 hr).1) (Nat.le_refl _) ?_
      (fun st' h1 _ => ⟨st', h1, rfl, Int.le_refl _⟩), ?_⟩
    · show c.garbage.filter _ = c.garbage
      rw [h.garb]; rfl
    · intro b' hb'
      have hb2 : (if id ∈ (c.garbage.filter (fun g => decide (g.1 ≤ k.idx))).map Prod.snd then none else c.firsts id) =
          some b' := hb'
      rw [h.garb] at hb2
      simp only [List.filter_nil, List.map_nil, List.not_mem_nil, if_false, hfirsts] at hb2
      obtain rfl := Option.some.inj hb2
      refine ⟨t.base, hok.first, fun x hx => hmono x ?_⟩
      rw [mem_live] at hx ⊢
      have hx1 : x ∈ devRecs (c.groups.filter (fun g => decide (k.grp ≤ g.start))) := hx.1
      rw [devRecs_filter hrel.consec, List.mem_filter] at hx1
      have hge : k.grp ≤ x.2.1 := by simpa using hx1.2
      have hrng := devRecs_range hrel.consec hx1.1
      have hki := hkok.idx
      refine ⟨hx1.1, hx.2.1, ?_, hx.2.2.2⟩
      have hroll : rolledBack (c.rolls.filter (fun r =>
          !decide (r.store ∈ (c.garbage.filter (fun g => decide (g.1 ≤ k.idx))).map Prod.snd) &&
          !decide (r.hi ≤ k.idx))) id x.1 = false := hx.2.2.1
      rw [rolledBack_filter (by rw [h.garb]; simp) hcl1 (by omega)] at hroll
      exact hroll
    · intro h1 r hr
      exact hset h1 r (List.mem_filter.1 hr).1

/-- The store part of a truncation. -/
theorem single_cut {c : Dev D} {s : SDev D} {id : Nat} {st st' : Store} {t : SStore D} (hrel : Rel c s) (h : Single c id)
    (ht : s.stores id = some t) (hst : c.stores id = some st) (hstart : st.start ≤ st'.start)
    (htr : st'.trunc = st.trunc ∨ ∃ x ∈ c.live id t.base, st'.trunc = ⟨x.2.1, x.2.1⟩ ∧ x.2.2.seq < st'.start) :
    Single (c.setStore id st') id := by
  have hok := hrel.store id t st ht hst
  refine { ids := h.ids, garb := h.garb, roll := h.roll, later := h.later, trunc := ?_ }
  intro st2 h1 h2
  simp only [Dev.setStore, if_pos, Option.some.injEq] at h1
  subst h1
  rcases htr with he | ⟨x, hx, he, hlt⟩
  · rw [he] at h2 ⊢
    obtain ⟨a, b, d⟩ := h.trunc st hst h2
    exact ⟨a, b, fun b' hb' y hy hy2 => d b' hb' y hy (by omega)⟩
  · rw [he]
    have hrng := devRecs_range hrel.consec (mem_live.1 hx).1
    have hnr := (mem_live.1 hx).2.2.1
    refine ⟨?_, ?_, ?_⟩
    · intro r hr
      obtain ⟨hr1, hr2⟩ := h.roll r hr
      show r.hi ≠ (x.2.1 : Int)
      have hnot : ¬ (r.lo ≤ (x.1 : Int) ∧ (x.1 : Int) ≤ r.hi) := by
        rintro ⟨h3, h4⟩
        have : rolledBack c.rolls id x.1 = true := by
          simp only [rolledBack, List.any_eq_true, Bool.and_eq_true, decide_eq_true_eq]
          exact ⟨r, hr, ⟨hr1, h3⟩, h4⟩
        rw [this] at hnr; cases hnr
      have hl := h.later t.base hok.first r hr x hx
      omega
    · show x.2.1 < c.flushIdx; omega
    · intro b hb y hy hy2
      have hb2 : c.first id = some b := hb
      rw [hok.first] at hb2
      obtain rfl := Option.some.inj hb2
      have hy' : y ∈ c.live id t.base := hy
      have := (live_order hok.live (live_sorted hrel id t.base) hx hy').1 (by omega)
      show x.2.1 < y.1
      omega

theorem single_truncate {c : Dev D} {s : SDev D} {id : Nat} {t : SStore D} {upto : Int} (hrel : Rel c s) (h : Single c id)
    (hset : Settled c) (ht : s.stores id = some t) :
    (∀ c', c.truncate id upto true = .ok (c', true) → c'.NoClash) ∧
    ∀ c' b, c.truncate id upto false = .ok (c', b) → Single c' id ∧ Settled c' := by
  obtain ⟨st0, hs0, hok0⟩ := hrel.get ht
  by_cases hlo : upto < t.start
  · constructor
    · intro c' hc
      simp [Dev.truncate, hs0, hok0.start, hlo] at hc
    · intro c' b hc
      simp [Dev.truncate, hs0, hok0.start, hlo] at hc
      obtain ⟨rfl, _⟩ := hc; exact ⟨h, hset⟩
  · obtain ⟨c1, hc1, hrel1, hpend1⟩ := step_flush hrel
    obtain ⟨hsg1, hset1, _⟩ := single_flush hrel h hc1
    have ht1 := flush_get hrel ht
    obtain ⟨st, hs, hok⟩ := hrel1.get ht1
    have htail : st.tail = t.last := by rw [hok.tail]; rfl
    have hstart : st.start = t.start := hok.start
    by_cases hin : upto ≤ t.last
    · obtain ⟨r, hr, hok2⟩ := cut_inside hrel1 ht1 hs rfl (by show t.start ≤ upto; omega) hin
      have hb := hok.base_le
      have hlast : t.last = t.base + t.log.length - 1 := rfl
      obtain ⟨x, hx, hxl, _⟩ := hok.live_get (l := upto) (by show t.base ≤ upto; simp only at hb; omega)
        (by show upto < t.base + (t.log.length : Int); omega)
      have hrx := hok.recs x hx (by show t.start ≤ _; omega)
      rw [hxl, hr] at hrx
      obtain rfl := Option.some.inj hrx
      have hcode : ∀ b, c.truncate id upto b = .ok (if b then c1.setStore id
          { start := upto + 1, next := st.next, tail := st.tail, trunc := ⟨x.2.1, x.2.1⟩,
            recs := fun l => if l ≤ upto then none else st.recs l } else (c1.setStore id
          { start := upto + 1, next := st.next, tail := st.tail, trunc := ⟨x.2.1, x.2.1⟩,
            recs := fun l => if l ≤ upto then none else st.recs l }).truncateDev, true) := by
        intro b
        simp only [Dev.truncate, hs0, hok0.start, if_neg hlo, hc1, hs]
        rw [if_neg (by omega), hr]
      have hsg2 : Single (c1.setStore id
          { start := upto + 1, next := st.next, tail := st.tail, trunc := ⟨x.2.1, x.2.1⟩,
            recs := fun l => if l ≤ upto then none else st.recs l }) id := by
        refine single_cut hrel1 hsg1 ht1 hs (by show st.start ≤ upto + 1; omega) (Or.inr ⟨x, hx, rfl, ?_⟩)
        show x.2.2.seq < upto + 1; omega
      have hset2 : Settled (c1.setStore id
          { start := upto + 1, next := st.next, tail := st.tail, trunc := ⟨x.2.1, x.2.1⟩,
            recs := fun l => if l ≤ upto then none else st.recs l }) := hset1 hset
      have hrel2 := hrel1.setStore (by simp [hs]) hok2
      constructor
      · intro c' hc
        rw [hcode true] at hc
        simp only [if_true, Except.ok.injEq, Prod.mk.injEq, and_true] at hc
        subst hc
        exact hsg2.noClash hset2
      · intro c' b hc
        rw [hcode false] at hc
        simp only [Bool.false_eq_true, if_false, Except.ok.injEq, Prod.mk.injEq] at hc
        obtain ⟨rfl, _⟩ := hc
        exact single_truncateDev hrel2 hsg2 hset2 (by simp [Dev.setStore])
    · constructor
      · intro c' hc
        simp only [Dev.truncate, hs0, hok0.start, if_neg hlo, hc1, hs] at hc
        rw [if_pos (by omega)] at hc
        simp only [if_true, Except.ok.injEq, Prod.mk.injEq, and_true] at hc
        subst hc
        refine Single.noClash (id := id) ?_ (hset1 hset)
        exact single_cut hrel1 hsg1 ht1 hs (by show st.start ≤ upto + 1; omega) (Or.inl rfl)
      · intro c' b hc
        simp only [Dev.truncate, hs0, hok0.start, if_neg hlo, hc1, hs] at hc
        rw [if_pos (by omega)] at hc
        simp only [Bool.false_eq_true, if_false, Except.ok.injEq, Prod.mk.injEq] at hc
        obtain ⟨hc, _⟩ := hc
        have hlast : t.last = t.base + t.log.length - 1 := rfl
        have hmax : max st.next (upto + 1) = upto + 1 := by
          rw [hok.next]; show max (t.base + (t.log.length : Int)) (upto + 1) = _
          omega
        have hrecs : (fun l => if l ≤ upto then none else if l = upto then some (⟨{}, {}, true⟩ : SRec)
            else st.recs l) = fun _ => none := by
          funext l
          by_cases e : l ≤ upto
          · rw [if_pos e]
          · rw [if_neg e, if_neg (by omega)]
            apply hok.recs_hi
            show t.base + (t.log.length : Int) ≤ l
            omega
        have hrel2 := resync_ok hrel1 ht1 hs rfl hpend1 (upto := upto) (by show t.last < upto; omega)
        have hid : id ∈ (c1.setStore id (st.resynced upto)).ids := hrel1.ids id (by simp [hs])
        have hcut : Single (c1.setStore id (st.resynced upto)) id :=
          single_cut hrel1 hsg1 ht1 hs (by show st.start ≤ upto + 1; omega) (Or.inl rfl)
        have hsg2 : Single ({ c1.setStore id (st.resynced upto) with
            first := fun i => if i = id then some (upto + 1) else c1.first i }) id := by
          refine hcut.mono (fun _ h => h) rfl (fun _ h => h) (Nat.le_refl _) ?_ (fun st' h1 _ => ⟨st', h1, rfl, Int.le_refl _⟩)
          intro b' hb'
          simp only [if_pos, Option.some.injEq] at hb'
          subst hb'
          refine ⟨t.base, hok.first, ?_⟩
          intro x hx
          rw [mem_live] at hx ⊢
          have hb := hok.base_le
          have hb2 : t.base ≤ t.start := hb
          exact ⟨hx.1, hx.2.1, hx.2.2.1, by omega⟩
        have := single_truncateDev hrel2 hsg2 (hset1 hset) (by simp [Dev.setStore])
        rw [truncateDev_first (st := st.resynced upto) (fun i => if i = id then some (upto + 1) else c1.first i) hid
          (by simp [Dev.setStore]) (fun i hi => by simp [hi, Dev.setStore])] at this
        rw [← hc]
        simp only [Store.setRec, hmax, hrecs]
        exact this

/-! ## Rollback -/

theorem single_rollbackNow {c c' : Dev D} {s : SDev D} {id : Nat} {t : SStore D} {st : Store} {to : Int} {b : Bool}
    (hrel : Rel c s) (h : Single c id) (ht : s.stores id = some t) (hs : c.stores id = some st)
    (hfl : t.flushed = t.log.length) (h1 : t.start - 1 ≤ to) (h2 : to < t.last)
    (hr : c.rollbackNow id st to = .ok (c', b)) : Single c' id := by
  have hok := hrel.store id t st ht hs
  have hb := hok.base_le
  have hlast : t.last = t.base + t.flushed - 1 := by unfold SStore.last; rw [hfl]
  have htail : st.tail = t.last := by rw [hok.tail, hlast]
  obtain ⟨x, hx, hxl, _⟩ := hok.live_get (l := to + 1) (by omega) (by omega)
  obtain ⟨y, hy, hyl, _⟩ := hok.live_get (l := t.last) (by omega) (by omega)
  have hrx := hok.recs x hx (by omega)
  have hry := hok.recs y hy (by omega)
  rw [hxl] at hrx
  rw [hyl] at hry
  unfold Dev.rollbackNow at hr
  rw [hrx, htail, hry] at hr
  simp only [Except.ok.injEq, Prod.mk.injEq] at hr
  obtain ⟨rfl, _⟩ := hr
  have hord : ∀ {x y : Nat × Nat × LRec D}, x ∈ c.live id t.base → y ∈ c.live id t.base →
      (x.2.2.seq < y.2.2.seq → x.1 < y.1 ∧ x.2.1 ≤ y.2.1) ∧ (x.2.2.seq = y.2.2.seq → x = y) :=
    fun hx hy => live_order hok.live (live_sorted hrel id t.base) hx hy
  have hxy : x.1 ≤ y.1 := by
    by_cases e : x.2.2.seq = y.2.2.seq
    · rw [(hord hx hy).2 e]; exact Nat.le_refl _
    · have := ((hord hx hy).1 (by omega)).1; omega
  have hlive : ∀ z, z ∈ (devRecs c.groups).filter (foundBy (c.rolls ++ [⟨id, (x.1 : Int), (y.1 : Int)⟩]) id t.base) →
      z ∈ c.live id t.base ∧ z.1 < x.1 := by
    intro z hz
    obtain ⟨hz1, hz2⟩ := List.mem_filter.1 hz
    simp only [foundBy, rolledBack, List.any_append, List.any_cons, List.any_nil, Bool.or_false, Bool.and_eq_true,
      Bool.not_eq_true', Bool.or_eq_false_iff, Bool.and_eq_false_iff, decide_eq_true_eq, decide_eq_false_iff_not,
      beq_iff_eq] at hz2
    have hzl : z ∈ c.live id t.base := by
      rw [mem_live]
      simp only [rolledBack]
      refine ⟨hz1, ?_, ?_, ?_⟩ <;> tauto
    refine ⟨hzl, ?_⟩
    have hzy : z.1 ≤ y.1 := by
      have hzr := hok.live_range hzl
      by_cases e : z.2.2.seq = y.2.2.seq
      · rw [(hord hzl hy).2 e]; exact Nat.le_refl _
      · have := ((hord hzl hy).1 (by omega)).1; omega
    have : ¬ ((x.1 : Int) ≤ z.1 ∧ (z.1 : Int) ≤ y.1) := by tauto
    omega
  refine { ids := h.ids, garb := h.garb, roll := ?_, later := ?_, trunc := ?_ }
  · intro r hr
    rcases List.mem_append.1 hr with hr | hr
    · exact h.roll r hr
    · rw [List.mem_singleton] at hr; subst hr; exact ⟨rfl, by simp; exact hxy⟩
  · intro b hb' r hr z hz hlt
    have hb2 : c.first id = some b := hb'
    rw [hok.first] at hb2
    obtain rfl := Option.some.inj hb2
    obtain ⟨hz1, hz2⟩ := hlive z hz
    rcases List.mem_append.1 hr with hr | hr
    · exact h.later _ hok.first r hr z hz1 hlt
    · rw [List.mem_singleton] at hr; subst hr; simp only at hlt; omega
  · intro st' hs' hpos
    simp only [Dev.setStore, if_pos, Option.some.injEq] at hs'
    subst hs'
    simp only at hpos ⊢
    obtain ⟨a1, a2, a3⟩ := h.trunc st hs hpos
    refine ⟨?_, a2, ?_⟩
    · intro r hr
      rcases List.mem_append.1 hr with hr | hr
      · exact a1 r hr
      · rw [List.mem_singleton] at hr; subst hr
        have := a3 t.base hok.first y hy (by rw [hok.start]; omega)
        have := hok.trunc.idx
        simp only; omega
    · intro b hb' z hz hz2
      have hb2 : c.first id = some b := hb'
      rw [hok.first] at hb2
      obtain rfl := Option.some.inj hb2
      exact a3 _ hok.first z (hlive z hz).1 hz2

theorem single_rollback {c c' : Dev D} {s : SDev D} {id : Nat} {t : SStore D} {to : Int} {b : Bool}
    (hrel : Rel c s) (h : Single c id) (ht : s.stores id = some t) (hr : c.rollback id to = .ok (c', b)) :
    Single c' id := by
  obtain ⟨st, hs, hok⟩ := hrel.get ht
  have htail : st.tail = t.lastFlushed := hok.tail
  have hfl := hok.flushed_le
  unfold Dev.rollback at hr
  simp only [hs] at hr
  by_cases h0 : to = st.tail
  · rw [if_pos h0] at hr
    simp only [Except.ok.injEq, Prod.mk.injEq] at hr
    obtain ⟨rfl, _⟩ := hr; exact h
  · rw [if_neg h0] at hr
    by_cases h1 : st.tail < to ∨ to < st.start - 1
    · rw [if_pos h1] at hr
      simp only [Except.ok.injEq, Prod.mk.injEq] at hr
      obtain ⟨rfl, _⟩ := hr; exact h
    · rw [if_neg h1] at hr
      have hst := hok.start
      by_cases h2 : st.tail + 1 < st.next
      · rw [if_pos h2] at hr
        obtain ⟨c1, hc1, hrel1, hpend1⟩ := step_flush hrel
        have ht1 := flush_get hrel ht
        obtain ⟨st1, hs1, hok1⟩ := hrel1.get ht1
        rw [hc1] at hr
        simp only [hs1] at hr
        have hn1 : ¬ st1.tail + 1 < st1.next := by rw [hok1.tail, hok1.next]; simp
        rw [if_neg hn1] at hr
        have hlast : t.lastFlushed ≤ t.last := by unfold SStore.lastFlushed SStore.last; omega
        exact single_rollbackNow hrel1 (single_flush hrel h hc1).1 ht1 hs1 rfl (by show t.start - 1 ≤ to; omega)
          (by show to < t.last; omega) hr
      · rw [if_neg h2] at hr
        have he : t.flushed = t.log.length := by rw [hok.tail, hok.next] at h2; omega
        have hlast : t.lastFlushed = t.last := by unfold SStore.lastFlushed SStore.last; rw [he]
        exact single_rollbackNow hrel h ht hs he (by omega) (by omega) hr

/-! ## Restart -/

theorem loadAll_trunc (rolls : List Roll) (P : List (Nat × Nat × LRec D)) :
    ∀ (st st' : Nat → Option Store) (out out' : Nat → List (Int × D)),
    loadAll rolls st out P = .ok (st', out') → ∀ id s', st' id = some s' →
      ∃ s, st id = some s ∧ s'.trunc = s.trunc := by
  induction P with
  | nil =>
    intro st st' out out' h id s' hs
    simp only [loadAll, Except.ok.injEq, Prod.mk.injEq] at h
    obtain ⟨rfl, _⟩ := h; exact ⟨s', hs, rfl⟩
  | cons r P ih =>
    intro st st' out out' h id s' hs
    unfold loadAll at h
    cases hl : loadRec rolls st out r with
    | error x => simp [hl] at h
    | ok p =>
      obtain ⟨st1, out1⟩ := p
      simp only [hl] at h
      obtain ⟨s1, h1, h2⟩ := ih _ _ _ _ h id s' hs
      suffices ∃ s, st id = some s ∧ s1.trunc = s.trunc by
        obtain ⟨s, h3, h4⟩ := this; exact ⟨s, h3, by rw [h2, h4]⟩
      unfold loadRec at hl
      by_cases e1 : rolledBack rolls r.2.2.store r.1 = true
      · rw [if_pos e1] at hl
        simp only [Except.ok.injEq, Prod.mk.injEq] at hl
        obtain ⟨rfl, _⟩ := hl; exact ⟨s1, h1, rfl⟩
      · rw [if_neg e1] at hl
        cases hst : st r.2.2.store with
        | none =>
          simp only [hst, Except.ok.injEq, Prod.mk.injEq] at hl
          obtain ⟨rfl, _⟩ := hl; exact ⟨s1, h1, rfl⟩
        | some s0 =>
          simp only [hst] at hl
          by_cases e2 : r.2.2.seq < s0.start
          · rw [if_pos e2] at hl
            simp only [Except.ok.injEq, Prod.mk.injEq] at hl
            obtain ⟨rfl, _⟩ := hl; exact ⟨s1, h1, rfl⟩
          · rw [if_neg e2] at hl
            cases hc : s0.complete r.2.2.seq ⟨r.1, r.2.1⟩ ⟨r.2.1, r.2.1⟩ with
            | error x => simp [hc] at hl
            | ok s2 =>
              simp only [hc, Except.ok.injEq, Prod.mk.injEq] at hl
              obtain ⟨rfl, _⟩ := hl
              have hk : s2.trunc = s0.trunc := by
                unfold Store.complete Store.truncKeyFor at hc
                by_cases e : s0.tail < r.2.2.seq
                · rw [if_pos e] at hc
                  simp only [Except.ok.injEq] at hc
                  subst hc; rfl
                · rw [if_neg e] at hc
                  cases hr : s0.recs s0.tail with
                  | none => simp [hr] at hc
                  | some r0 =>
                    simp only [hr, Except.ok.injEq] at hc
                    subst hc; rfl
              simp only [] at h1
              by_cases e : id = r.2.2.store
              · rw [if_pos e] at h1
                obtain rfl := Option.some.inj h1
                exact ⟨s0, by rw [e]; exact hst, hk⟩
              · rw [if_neg e] at h1; exact ⟨s1, h1, rfl⟩

theorem single_restart {c c' : Dev D} {s : SDev D} {id k : Nat} {out : Nat → List (Int × D)} (hrel : Rel c s)
    (h : Single c id) (hopen : (s.stores id).isSome) (hr : c.restart [id] [] k = .ok (c', out)) :
    Single c' id ∧ Settled c' := by
  obtain ⟨c1, hc1, hrel1, _⟩ := step_flushK hrel k
  obtain ⟨hsg1, _, _⟩ := single_flushK hrel h hc1
  rw [restart_flushK hc1] at hr
  have hidx : loadIdx true c1.start.idx.toNat c1.groups = .ok c1.flushIdx := by
    have : c1.start.idx.toNat = c1.start.grp := by have := hrel1.startIdx; omega
    rw [this]; exact loadIdx_consec true hrel1.consec
  unfold Dev.restart at hr
  simp only [List.take_zero, if_pos, hidx] at hr
  cases hl : loadAll c1.rolls (fun i => if i ∈ [id] then (c1.first i).map Store.new else none) (fun _ => [])
      (devRecs c1.groups) with
  | error x => rw [hl] at hr; cases hr
  | ok p =>
    obtain ⟨st, out3⟩ := p
    rw [hl] at hr
    simp only [Except.ok.injEq, Prod.mk.injEq] at hr
    obtain ⟨rfl, _⟩ := hr
    constructor
    · refine { ids := ?_, garb := rfl, roll := hsg1.roll, later := hsg1.later, trunc := ?_ }
      · intro i hi
        simpa using (List.mem_filter.1 hi).1
      · intro st' h1 h2
        obtain ⟨s0, h3, h4⟩ := loadAll_trunc _ _ _ _ _ _ hl id st' h1
        simp only [List.mem_singleton, if_pos, Option.map_eq_some_iff] at h3
        obtain ⟨b, _, rfl⟩ := h3
        rw [h4] at h2
        simp [Store.new] at h2
    · intro h1; simp at h1

end HS.Log
