import Verif.Log.DevFlush

/-! # Truncation -/

namespace HS.Log

variable {D : Type}

theorem inj_of_nodup_map {α β : Type} {f : α → β} {l : List α} (h : (l.map f).Nodup) {a b : α} (ha : a ∈ l) (hb : b ∈ l)
    (hab : f a = f b) : a = b := by
  induction l with
  | nil => simp at ha
  | cons x l ih =>
    rw [List.map_cons, List.nodup_cons] at h
    rcases List.mem_cons.1 ha with rfl | ha'
    · rcases List.mem_cons.1 hb with rfl | hb'
      · rfl
      · exact absurd (by rw [hab]; exact List.mem_map_of_mem hb') h.1
    · rcases List.mem_cons.1 hb with rfl | hb'
      · exact absurd (by rw [← hab]; exact List.mem_map_of_mem ha') h.1
      · exact ih h.2 ha' hb'

theorem minKey_spec (st : Nat → Option Store) (ids : List Nat) : ∀ m : Option Key,
    (∀ k, minKey st ids m = some k →
      (m = some k ∨ ∃ id ∈ ids, ∃ s, st id = some s ∧ s.truncInfo = some k) ∧
      (∀ m', m = some m' → k.idx ≤ m'.idx) ∧
      ∀ id ∈ ids, ∀ s k', st id = some s → s.truncInfo = some k' → k.idx ≤ k'.idx) ∧
    (minKey st ids m = none → ∀ id ∈ ids, ∀ s, st id = some s → s.truncInfo = none) := by
  induction ids with
  | nil =>
    intro m
    refine ⟨fun k hk => ⟨Or.inl hk, fun m' hm => ?_, by simp⟩, by simp⟩
    simp only [minKey] at hk
    rw [hk] at hm; cases hm; exact Int.le_refl _
  | cons id ids ih =>
    intro m
    simp only [minKey]
    cases hs : st id with
    | none =>
      simp only []
      obtain ⟨h1, h2⟩ := ih m
      constructor
      · intro k hk
        obtain ⟨a, b, c⟩ := h1 k hk
        refine ⟨?_, b, ?_⟩
        · rcases a with a | ⟨i, hi, r⟩
          · exact Or.inl a
          · exact Or.inr ⟨i, List.mem_cons_of_mem _ hi, r⟩
        · intro i hi s k' hsi
          rcases List.mem_cons.1 hi with rfl | hi
          · rw [hs] at hsi; cases hsi
          · exact c i hi s k' hsi
      · intro hn i hi s hsi
        rcases List.mem_cons.1 hi with rfl | hi
        · rw [hs] at hsi; cases hsi
        · exact h2 hn i hi s hsi
    | some s =>
      simp only []
      cases ht : s.truncInfo with
      | none =>
        simp only []
        obtain ⟨h1, h2⟩ := ih m
        constructor
        · intro k hk
          obtain ⟨a, b, c⟩ := h1 k hk
          refine ⟨?_, b, ?_⟩
          · rcases a with a | ⟨i, hi, r⟩
            · exact Or.inl a
            · exact Or.inr ⟨i, List.mem_cons_of_mem _ hi, r⟩
          · intro i hi s' k' hsi hti
            rcases List.mem_cons.1 hi with rfl | hi
            · rw [hs] at hsi; cases hsi; rw [ht] at hti; cases hti
            · exact c i hi s' k' hsi hti
        · intro hn i hi s' hsi
          rcases List.mem_cons.1 hi with rfl | hi
          · rw [hs] at hsi; cases hsi; exact ht
          · exact h2 hn i hi s' hsi
      | some k0 =>
        simp only []
        have key : ∀ k1 : Key, (k1 = k0 ∨ m = some k1) → k1.idx ≤ k0.idx → (∀ m', m = some m' → k1.idx ≤ m'.idx) →
            (∀ k, minKey st ids (some k1) = some k →
              (m = some k ∨ ∃ i ∈ id :: ids, ∃ s, st i = some s ∧ s.truncInfo = some k) ∧
              (∀ m', m = some m' → k.idx ≤ m'.idx) ∧
              ∀ i ∈ id :: ids, ∀ s k', st i = some s → s.truncInfo = some k' → k.idx ≤ k'.idx) ∧
            (minKey st ids (some k1) = none → ∀ i ∈ id :: ids, ∀ s, st i = some s → s.truncInfo = none) := by
          intro k1 hk1 hle hm
          obtain ⟨h1, h2⟩ := ih (some k1)
          constructor
          · intro k hk
            obtain ⟨a, b, c⟩ := h1 k hk
            have hb := b k1 rfl
            refine ⟨?_, ?_, ?_⟩
            · rcases a with a | ⟨i, hi, r⟩
              · cases a
                rcases hk1 with rfl | hk1
                · exact Or.inr ⟨id, List.mem_cons_self .., s, hs, ht⟩
                · exact Or.inl hk1
              · exact Or.inr ⟨i, List.mem_cons_of_mem _ hi, r⟩
            · intro m' hm'
              have := hm m' hm'
              omega
            · intro i hi s' k' hsi hti
              rcases List.mem_cons.1 hi with rfl | hi
              · rw [hs] at hsi; cases hsi; rw [ht] at hti; cases hti
                omega
              · exact c i hi s' k' hsi hti
          · intro hn
            exfalso
            have : ∀ (l : List Nat) (k : Key), minKey st l (some k) ≠ none := by
              intro l
              induction l with
              | nil => intro k h; cases h
              | cons a l ihl =>
                intro k
                simp only [minKey]
                cases st a with
                | none => exact ihl k
                | some s =>
                  simp only []
                  cases s.truncInfo with
                  | none => exact ihl _
                  | some _ => exact ihl _
            exact this ids k1 hn
        cases m with
        | none => exact key k0 (Or.inl rfl) (Int.le_refl _) (by simp)
        | some m' =>
          simp only []
          by_cases hlt : k0.idx < m'.idx
          · rw [if_pos hlt]
            exact key k0 (Or.inl rfl) (Int.le_refl _) (fun m'' h => by cases h; omega)
          · rw [if_neg hlt]
            exact key m' (Or.inr rfl) (by omega) (fun m'' h => by cases h; exact Int.le_refl _)

/-- The store after a device truncation. -/
def SStore.trim (t : SStore D) : SStore D :=
  { t with base := t.start, log := t.log.drop (t.start - t.base).toNat, flushed := t.flushed - (t.start - t.base).toNat }

theorem StoreOK.rebase {c c' : Dev D} {id : Nat} {t : SStore D} {st : Store} (h : StoreOK c id t st)
    (hlive : c'.live id t.start = (c.live id t.base).filter (fun x => decide (t.start ≤ x.2.2.seq)))
    (hpend : c'.pendOf id = c.pendOf id) (hfirst : c'.first id = some t.start) (hk : KeyOK c' st.trunc) :
    StoreOK c' id t.trim st := by
  have hb := h.base_le
  have hs := h.start_le
  have hf := h.flushed_le
  have hmem : ∀ x ∈ c'.live id t.start, x ∈ c.live id t.base := by
    intro x hx; rw [hlive] at hx; exact (List.mem_filter.1 hx).1
  generalize hn : (t.start - t.base).toNat = n at *
  have hcut : t.trim = { base := t.start, start := t.start, log := t.log.drop n, flushed := t.flushed - n } := by
    unfold SStore.trim; rw [hn]
  rw [hcut]
  refine {
    base_le := Int.le_refl _
    start_le := by show t.start ≤ t.start + ((t.flushed - n : Nat) : Int); omega
    flushed_le := by show t.flushed - n ≤ (t.log.drop n).length; rw [List.length_drop]; omega
    start := h.start
    next := ?_
    tail := ?_
    first := hfirst
    live := ?_
    pend := ?_
    recs := fun x hx => h.recs x (hmem x hx)
    recs_lo := h.recs_lo
    recs_hi := ?_
    recs_pend := ?_
    trunc := hk
    trunc_le := fun x hx => h.trunc_le x (hmem x hx) }
  · rw [h.next]; show _ = t.start + ((t.log.drop n).length : Int); rw [List.length_drop]; omega
  · rw [h.tail]; show _ = t.start + ((t.flushed - n : Nat) : Int) - 1; omega
  · show (c'.live id t.start).map xkey = entries t.start ((t.log.drop n).take (t.flushed - n))
    rw [hlive, filter_ge_entries t.start h.live hb, hn, List.map_drop, h.live]
    have : t.log.take t.flushed = t.log.take n ++ (t.log.drop n).take (t.flushed - n) := by
      rw [← List.take_add]; congr 1; omega
    rw [this, entries_append, List.drop_left' (by rw [entries_length, List.length_take]; omega), List.length_take]
    congr 1
    omega
  · rw [hpend, h.pend]
    show _ = entries (t.start + ((t.flushed - n : Nat) : Int)) ((t.log.drop n).drop (t.flushed - n))
    rw [List.drop_drop]
    have e1 : n + (t.flushed - n) = t.flushed := by omega
    have e2 : t.base + (t.flushed : Int) = t.start + ((t.flushed - n : Nat) : Int) := by omega
    rw [e1, e2]
  · intro l hl
    apply h.recs_hi
    have hl' : t.start + ((t.log.drop n).length : Int) ≤ l := hl
    rw [List.length_drop] at hl'
    omega
  · intro l hl1 hl2
    have hl1' : t.start + ((t.flushed - n : Nat) : Int) ≤ l := hl1
    have hl2' : l < t.start + ((t.log.drop n).length : Int) := hl2
    rw [List.length_drop] at hl2'
    exact h.recs_pend l (by omega) (by omega)

theorem live_mono (c : Dev D) (id : Nat) {b b' : Int} (h : b ≤ b') :
    c.live id b' = (c.live id b).filter (fun x => decide (b' ≤ x.2.2.seq)) := by
  rw [Dev.live, Dev.live, List.filter_filter]
  apply List.filter_congr
  intro x _
  simp only [foundBy]
  by_cases h1 : b' ≤ x.2.2.seq
  · have : b ≤ x.2.2.seq := by omega
    simp [h1, this]
  · simp [h1]

theorem Rel.firsts {c : Dev D} {s : SDev D} (h : Rel c s) {id : Nat} {st : Store} (hs : c.stores id = some st) :
    c.firsts id = some st.start := by
  simp [Dev.firsts, hs, h.ids id (by simp [hs])]

theorem firsts_none {c : Dev D} {s : SDev D} (h : Rel c s) {id : Nat} (hf : c.firsts id = none) : c.first id = none := by
  unfold Dev.firsts at hf
  cases hs : c.stores id with
  | none => rw [hs] at hf; exact hf
  | some st =>
    rw [hs] at hf
    simp only [h.ids id (by simp [hs]), if_true] at hf
    cases hf

/-- What the key of a device truncation keeps. -/
theorem safeKey_ok {c : Dev D} {s : SDev D} (h : Rel c s) : KeyOK c c.safeKey ∧
    ∀ id t st, s.stores id = some t → c.stores id = some st → ∀ x ∈ c.live id t.base, t.start ≤ x.2.2.seq →
      c.safeKey.grp ≤ x.2.1 := by
  have hspec := minKey_spec c.stores c.ids none
  cases hm : minKey c.stores c.ids none with
  | none =>
    have hk : c.safeKey = c.lastFlush := by unfold Dev.safeKey; rw [hm]; rfl
    rw [hk]
    refine ⟨h.lastFlush, ?_⟩
    intro id t st ht hs x hx hxs
    have hok := h.store id t st ht hs
    have hn := hspec.2 hm id (h.ids id (by simp [hs])) st hs
    unfold Store.truncInfo at hn
    by_cases he : st.start - 1 = st.tail
    · have := hok.live_range hx
      have h1 := hok.start
      have h2 := hok.tail
      omega
    · rw [if_neg he] at hn; cases hn
  | some k =>
    have hk : c.safeKey = k := by unfold Dev.safeKey; rw [hm]; rfl
    rw [hk]
    obtain ⟨h1, _, h3⟩ := hspec.1 k hm
    rcases h1 with h1 | ⟨id0, hid0, st0, hs0, hi0⟩
    · cases h1
    · obtain ⟨t0, ht0, hok0⟩ := h.get' hs0
      have hk0 : st0.trunc = k := by
        unfold Store.truncInfo at hi0
        by_cases he : st0.start - 1 = st0.tail
        · rw [if_pos he] at hi0; cases hi0
        · rw [if_neg he] at hi0; cases hi0; rfl
      have hkok : KeyOK c k := hk0 ▸ hok0.trunc
      refine ⟨hkok, ?_⟩
      intro id t st ht hs x hx hxs
      have hok := h.store id t st ht hs
      have hne : st.truncInfo = some st.trunc := by
        unfold Store.truncInfo
        have := hok.live_range hx
        have h1 := hok.start
        have h2 := hok.tail
        rw [if_neg (by omega)]
      have h4 := h3 id (h.ids id (by simp [hs])) st st.trunc hs hne
      have h5 := hok.trunc_le x hx hxs
      have h6 := hkok.idx
      have h7 := hok.trunc.idx
      omega

theorem rolledBack_filter {rolls : List Roll} {dead : List Nat} {k : Int} {id i : Nat} (hd : id ∉ dead)
    (hcl : ∀ r ∈ rolls, r.hi ≠ k) (hi : k ≤ (i : Int)) :
    rolledBack (rolls.filter (fun r => !decide (r.store ∈ dead) && !decide (r.hi ≤ k))) id i = rolledBack rolls id i := by
  rw [Bool.eq_iff_iff]
  simp only [rolledBack, List.any_eq_true, List.mem_filter, Bool.and_eq_true, decide_eq_true_eq, Bool.not_eq_true',
    decide_eq_false_iff_not]
  constructor
  · rintro ⟨r, ⟨hr, _⟩, h⟩; exact ⟨r, hr, h⟩
  · rintro ⟨r, hr, ⟨h1, h2⟩, h3⟩
    refine ⟨r, ⟨hr, ?_, ?_⟩, ⟨h1, h2⟩, h3⟩
    · rw [h1]; exact hd
    · have := hcl r hr; omega

theorem step_truncateDev {c : Dev D} {s : SDev D} (h : Rel c s) (hcl : c.NoClash) : Rel c.truncateDev s.truncateDev := by
  obtain ⟨hkok, hkeep⟩ := safeKey_ok h
  unfold Dev.NoClash at hcl
  unfold Dev.truncateDev
  simp only []
  generalize c.safeKey = k at *
  have htrim : ∀ id, s.truncateDev.stores id = (s.stores id).map SStore.trim := fun id => rfl
  by_cases hle : k.idx ≤ 0 ∨ k.idx ≤ c.lastTrunc
  · rw [if_pos hle]
    refine { h with
      lastFlush := h.lastFlush.congr rfl rfl rfl
      fresh := fun id hf => h.fresh id (firsts_none h hf)
      garb := fun m id hg => ⟨(h.garb m id hg).1, fun hf => (h.garb m id hg).2.1 (firsts_none h hf), (h.garb m id hg).2.2⟩
      noneIff := fun id => by rw [htrim, Option.map_eq_none_iff]; exact h.noneIff id
      store := ?_ }
    intro id t' st ht' hs
    rw [htrim, Option.map_eq_some_iff] at ht'
    obtain ⟨t, ht, rfl⟩ := ht'
    have hok := h.store id t st ht hs
    refine hok.rebase (live_mono c id hok.base_le) rfl ?_ (hok.trunc.congr rfl rfl rfl)
    show c.firsts id = some t.start
    rw [h.firsts hs, hok.start]
  · rw [if_neg hle]
    obtain ⟨hcl1, hcl2⟩ := hcl (by omega) (by omega)
    have hlt := h.lastTrunc
    have hidx := hkok.idx
    have hsidx := h.startIdx
    have hthere : ∃ g ∈ c.groups, g.start = k.grp := by
      rcases hkok.there with h1 | h1
      · omega
      · exact h1
    generalize hdead : (c.garbage.filter (fun g => decide (g.1 ≤ k.idx))).map Prod.snd = dead
    have hdead' : ∀ id, id ∈ dead → ∃ m, (m, id) ∈ c.garbage ∧ m ≤ k.idx := by
      intro id hid
      rw [← hdead, List.mem_map] at hid
      obtain ⟨⟨m, i⟩, hmem, he⟩ := hid
      have := List.mem_filter.1 hmem
      simp only at he
      subst he
      exact ⟨m, this.1, by simpa using this.2⟩
    have hopen : ∀ id st, c.stores id = some st → id ∉ dead := by
      intro id st hs hid
      obtain ⟨m, hm, _⟩ := hdead' id hid
      rw [(h.garb m id hm).1] at hs
      cases hs
    have hrecs : devRecs (c.groups.filter (fun g => decide (k.grp ≤ g.start))) =
        (devRecs c.groups).filter (fun x => decide (k.grp ≤ x.2.1)) := devRecs_filter h.consec
    have hkey : ∀ key : Key, KeyOK c key → ∀ c' : Dev D,
        c'.groups = c.groups.filter (fun g => decide (k.grp ≤ g.start)) → c'.flushIdx = c.flushIdx → c'.start = k →
        KeyOK c' key := by
      intro key hk c' h1 h2 h3
      refine ⟨hk.idx, by rw [h2]; exact hk.le, ?_⟩
      rw [h3, h1]
      by_cases hkk : key.grp ≤ k.grp
      · exact Or.inl hkk
      · rcases hk.there with h4 | ⟨g, hg, hgk⟩
        · left; omega
        · exact Or.inr ⟨g, List.mem_filter.2 ⟨hg, by simp; omega⟩, hgk⟩
    constructor
    · exact h.consec.filter hthere
    · exact hidx
    · intro he
      obtain ⟨g, hg, hgk⟩ := hthere
      have : g ∈ c.groups.filter (fun g => decide (k.grp ≤ g.start)) := List.mem_filter.2 ⟨hg, by simp [hgk]⟩
      have he' : c.groups.filter (fun g => decide (k.grp ≤ g.start)) = [] := he
      rw [he'] at this; simp at this
    · show k.idx ≤ max k.idx 0
      omega
    · exact hkey _ h.lastFlush _ rfl rfl rfl
    · intro r hr
      exact h.rolls r (List.mem_filter.1 hr).1
    · exact h.ids
    · intro id hf
      simp only at hf
      by_cases hid : id ∈ dead
      · obtain ⟨m, hm, hmk⟩ := hdead' id hid
        have hg := h.garb m id hm
        refine ⟨hg.1, ?_⟩
        show ∀ x ∈ devRecs (c.groups.filter (fun g => decide (k.grp ≤ g.start))), _
        rw [hrecs]
        intro x hx he
        have hx1 := List.mem_filter.1 hx
        have h1 := hg.2.2 x hx1.1 he
        have h2 := (devRecs_range h.consec hx1.1).2.1
        have h3 := hcl2 (m, id) hm
        have h4 : k.grp ≤ x.2.1 := by simpa using hx1.2
        simp only at h3
        omega
      · rw [if_neg hid] at hf
        have hf' := h.fresh id (firsts_none h hf)
        refine ⟨hf'.1, ?_⟩
        show ∀ x ∈ devRecs (c.groups.filter (fun g => decide (k.grp ≤ g.start))), _
        rw [hrecs]
        intro x hx
        exact hf'.2 x (List.mem_filter.1 hx).1
    · intro m id hm
      have hm' := List.mem_filter.1 hm
      have hg := h.garb m id hm'.1
      refine ⟨hg.1, ?_, ?_⟩
      · show (if id ∈ dead then none else c.firsts id) ≠ none
        have hnd : id ∉ dead := by
          intro hid
          obtain ⟨m2, hm2, hmk2⟩ := hdead' id hid
          have hmk : ¬ m ≤ k.idx := by simpa using hm'.2
          have hnodup := h.garbNodup
          have hne : (m, id) ≠ (m2, id) := by intro e; cases e; exact hmk hmk2
          have hinj := inj_of_nodup_map hnodup hm'.1 hm2
          exact hne (hinj rfl)
        rw [if_neg hnd]
        exact fun hf => hg.2.1 (firsts_none h hf)
      · show ∀ x ∈ devRecs (c.groups.filter (fun g => decide (k.grp ≤ g.start))), _
        rw [hrecs]
        intro x hx
        exact hg.2.2 x (List.mem_filter.1 hx).1
    · exact ((List.filter_sublist (l := c.garbage)).map Prod.snd).nodup h.garbNodup
    · exact h.pendOpen
    · exact h.pend
    · intro id; rw [htrim, Option.map_eq_none_iff]; exact h.noneIff id
    · intro id t' st ht' hs
      rw [htrim, Option.map_eq_some_iff] at ht'
      obtain ⟨t, ht, rfl⟩ := ht'
      have hs' : c.stores id = some st := hs
      have hok := h.store id t st ht hs'
      refine hok.rebase ?_ rfl ?_ (hkey _ hok.trunc _ rfl rfl rfl)
      · rw [← live_mono c id hok.base_le]
        show (devRecs (c.groups.filter (fun g => decide (k.grp ≤ g.start)))).filter _ = _
        rw [hrecs, List.filter_filter, Dev.live]
        apply List.filter_congr
        intro x hx
        have hrange := devRecs_range h.consec hx
        by_cases hge : k.grp ≤ x.2.1
        · have hroll := rolledBack_filter (id := id) (i := x.1) (hopen id st hs') hcl1 (by omega)
          simp only [foundBy, hroll, hge, decide_true, Bool.and_true]
        · have hnot : foundBy c.rolls id t.start x = false := by
            rw [Bool.eq_false_iff]
            intro hfb
            have hl : x ∈ c.live id t.start := List.mem_filter.2 ⟨hx, hfb⟩
            rw [live_mono c id hok.base_le] at hl
            have hl' := List.mem_filter.1 hl
            exact hge (hkeep id t st ht hs' x hl'.1 (by simpa using hl'.2))
          rw [hnot]
          simp [hge]
      · show (if id ∈ dead then none else c.firsts id) = some t.start
        rw [if_neg (hopen id st hs'), h.firsts hs', hok.start]

end HS.Log
