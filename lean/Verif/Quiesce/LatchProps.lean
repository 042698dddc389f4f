import Verif.Quiesce.LatchLemmas
/-!
# C104, C105: handling "no space left" neither aborts the process nor takes the blocks of a committed entry
-/
namespace HS.Quiesce.Latch

/-- A key no other request, entry or proposal of this member has. -/
def Fresh (s : St) (k : Key) : Prop :=
  k ∉ s.log ∧ (∀ b, s.batch = some b → k ∉ b.es) ∧ ∀ p ∈ s.begun, p.1 ≠ k

/-- How the application and raft are to use the device.
* Raft: a key is proposed once and stands at one lsn, so the entry being committed is not a later entry of the batch, an entry
  that is rolled back is not one that is still to be written, and no other member proposes our keys.
* The application clears requests only after `on_no_space_left` of an lsn (with no rollback, change of leader or resume since:
  the latch is set), when the entries before it are committed, and when no proposal of this member has blocks on the chunk.
* Requests are refused only when no control request is on its way, and members are not removed while they are. -/
def Fair (s : St) : Ev → Prop
  | .batch _ es => ∀ k ∈ es, ∀ p ∈ s.begun, p.1 ≠ k
  | .commit => ∀ k, s.log[s.committed]? = some k →
      ∀ b, s.batch = some b → ∀ i, s.committed + 1 < b.start + i → b.es[i]? ≠ some k
  | .rollback n => ∀ k ∈ s.log.drop n, ∀ b, s.batch = some b → k ∉ b.es.drop b.w
  | .begin k _ => Fresh s k
  | .control k => Fresh s k
  | .direct k => Fresh s k ∧ s.quiet = false
  | .emplace k => s.map k = none
  | .quiesce => ∀ p ∈ s.begun, p.2 ≠ .control
  | .clear c => (∃ l, s.latch = some l ∧ l ≤ s.committed + 1) ∧ ∀ p ∈ s.begun, ∀ q, s.map p.1 = some q → q.blk ≠ some c
  | _ => True

/-- All events of a run are fair. -/
def FairRun (s : St) : List Ev → Prop
  | [] => True
  | e :: l => Fair s e ∧ ∀ s', step s e = .ok s' → FairRun s' l

/-- A proposal of ours that the log will take. -/
def Own (quiet : Bool) (m : Key → Option Req) (p : Key × Stage) : Prop :=
  match p.2 with
  | .fresh q => q.pending = false ∧ (p.1.linked = true → q.blk.isSome = true)
  | .mapped => ReadyIn m p.1
  | .control => quiet = false ∧ p.1.linked = false

structure Good (s : St) : Prop where
  len : s.committed ≤ s.log.length
  idx : ∀ b, s.batch = some b → b.w ≤ b.n ∧ b.n ≤ b.es.length ∧ b.lc ≤ s.committed
  latch : ∀ b l, s.batch = some b → s.latch = some l → b.start + b.es.length ≤ l
  ready : ∀ b, s.batch = some b → ∀ i k, b.w ≤ i → i < b.n → s.committed < b.start + i → b.es[i]? = some k → ReadyIn s.map k
  own : ∀ p ∈ s.begun, Own s.quiet s.map p
  apart : ∀ b, s.batch = some b → ∀ k ∈ b.es, ∀ p ∈ s.begun, p.1 ≠ k
  news : ∀ p ∈ s.begun, p.1 ∉ s.log

theorem good_init (me : Nat) : Good (St.init me) where
  len := Nat.le_refl _
  idx := by intro b h; cases h
  latch := by intro b l h; cases h
  ready := by intro b h; cases h
  own := by intro p h; cases h
  apart := by intro b h; cases h
  news := by intro p h; cases h

theorem own_mono {quiet : Bool} {m m' : Key → Option Req} {p : Key × Stage} (h : ReadyIn m p.1 → ReadyIn m' p.1) (ho : Own quiet m p) :
    Own quiet m' p := by
  obtain ⟨k, g⟩ := p
  cases g with
  | fresh q => exact ho
  | mapped => exact h ho
  | control => exact ho

/-- Creating a request in a good state. -/
theorem good_created {s : St} {k : Key} {lsn : Option Nat} {r : St × Bool} (hg : Good s) (h : Created s k lsn r)
    (hl : r.1.latch = s.latch ∨ s.batch = none) : Good r.1 where
  len := by rw [h.committed, h.log]; exact hg.len
  idx := by intro b hb; rw [h.batch] at hb; rw [h.committed]; exact hg.idx b hb
  latch := by
    intro b l hb hl'
    rw [h.batch] at hb
    rcases hl with hl | hl
    · rw [hl] at hl'; exact hg.latch b l hb hl'
    · rw [hl] at hb; cases hb
  ready := by
    intro b hb i k' h1 h2 h3 h4
    rw [h.batch] at hb
    rw [h.committed] at h3
    exact h.readyAll (hg.ready b hb i k' h1 h2 h3 h4)
  own := by
    intro p hp
    rw [h.begun] at hp
    rw [h.quiet]
    exact own_mono h.readyAll (hg.own p hp)
  apart := by intro b hb; rw [h.batch] at hb; rw [h.begun]; exact hg.apart b hb
  news := by intro p hp; rw [h.begun] at hp; rw [h.log]; exact hg.news p hp

theorem good_noBatch {s : St} (hg : Good s) : Good { s with batch := none } where
  len := hg.len
  idx := by intro b h; cases h
  latch := by intro b l h; cases h
  ready := by intro b h; cases h
  own := hg.own
  apart := by intro b h; cases h
  news := hg.news

theorem good_noLatch {s : St} (hg : Good s) : Good { s with latch := none } where
  len := hg.len
  idx := hg.idx
  latch := by intro b l _ h; cases h
  ready := hg.ready
  own := hg.own
  apart := hg.apart
  news := hg.news

theorem ready_erase {m : Key → Option Req} {ks : List Key} {k : Key} (hk : k ∉ ks) (h : ReadyIn m k) : ReadyIn (eraseAll m ks) k := by
  obtain ⟨q, h1, h2⟩ := h
  exact ⟨q, by rw [eraseAll, if_neg hk]; exact h1, h2⟩

theorem ready_upd {m : Key → Option Req} {k k' : Key} {x : Option Req} (hk : k' ≠ k) (h : ReadyIn m k') : ReadyIn (upd m k x) k' := by
  obtain ⟨q, h1, h2⟩ := h
  exact ⟨q, by rw [upd_other hk]; exact h1, h2⟩

theorem find_key {l : List (Key × Stage)} {k : Key} {p : Key × Stage} (h : l.find? (fun p => p.1 = k) = some p) : p ∈ l ∧ p.1 = k := by
  refine ⟨List.mem_of_find?_eq_some h, ?_⟩
  have := List.find?_some h
  simpa using this

/-- A fair step of a good member neither aborts nor leaves it bad. -/
theorem good_step {s : St} {e : Ev} (hg : Good s) (hf : Fair s e) : step s e ≠ .abort ∧ ∀ s', step s e = .ok s' → Good s' := by
  cases e with
  | push k g =>
    simp only [step]
    split
    · refine ⟨by simp, ?_⟩
      intro s' h
      injection h with h; subst h
      have hc := created s k none g
      refine good_created hg hc ?_
      rcases hc.latch with h | h
      · exact Or.inl h
      · cases h.2.2
    · exact ⟨by simp, (by intro s' h; cases h)⟩
  | batch start es =>
    simp only [step]
    split
    · exact ⟨by simp, (by intro s' h; cases h)⟩
    · rename_i hn
      have hb : s.batch = none := by
        cases h : s.batch with
        | none => rfl
        | some b => exact absurd (Or.inl (by simp [h])) hn
      have hst : start ≠ 0 := fun h => hn (Or.inr (Or.inr h))
      have key : (∀ l, s.latch = some l → start + es.length ≤ l) → Good { s with batch := some ⟨start, es, s.committed, 0, 0⟩ } := by
        intro hl
        refine ⟨hg.len, ?_, ?_, ?_, hg.own, ?_, hg.news⟩
        · intro b h; injection h with h; subst h; exact ⟨Nat.le_refl _, Nat.zero_le _, Nat.le_refl _⟩
        · intro b l h hl'; injection h with h; subst h; exact hl l hl'
        · intro b h i k' _ h2; injection h with h; subst h; cases h2
        · intro b h; injection h with h; subst h; exact hf
      split
      · rename_i l hl
        split
        · exact ⟨by simp, by intro s' h; injection h with h; subst h; exact hg⟩
        · rename_i hlt
          refine ⟨by simp, ?_⟩
          intro s' h; injection h with h; subst h
          refine key ?_
          intro l' hl'
          rw [hl] at hl'; injection hl' with hl'; subst hl'
          omega
      · rename_i hl
        refine ⟨by simp, ?_⟩
        intro s' h; injection h with h; subst h
        refine key ?_
        intro l' hl'; rw [hl] at hl'; cases hl'
  | prep g =>
    simp only [step]
    split
    · exact ⟨by simp, (by intro s' h; cases h)⟩
    · rename_i b hb
      split
      · exact ⟨by simp, (by intro s' h; cases h)⟩
      · rename_i k hk
        have hi := hg.idx b hb
        have hlt : b.n < b.es.length := by
          have := List.getElem?_eq_some_iff.1 hk
          exact this.1
        split
        · rename_i hle
          refine ⟨by simp, ?_⟩
          intro s' h; injection h with h; subst h
          refine ⟨hg.len, ?_, ?_, ?_, hg.own, ?_, hg.news⟩
          · intro b' h; injection h with h; subst h
            exact ⟨Nat.le_succ_of_le hi.1, hlt, hi.2.2⟩
          · intro b' l h; injection h with h; subst h; exact hg.latch b l hb
          · intro b' h i k' h1 h2 h3 h4; injection h with h; subst h
            change i < b.n + 1 at h2
            change s.committed < b.start + i at h3
            by_cases e : i = b.n
            · subst e; omega
            · exact hg.ready b hb i k' h1 (by omega) h3 h4
          · intro b' h; injection h with h; subst h; exact hg.apart b hb
        · rename_i hle
          have hp := prepared s k (b.start + b.n) g
          split
          · rename_i hr
            refine ⟨by simp, ?_⟩
            intro s' h; injection h with h; subst h
            have hlatch : (s.prepare k (b.start + b.n) g).1.latch = s.latch := by
              rcases hp.1.latch with h | h
              · exact h
              · rw [hr] at h; cases h.1
            have hg1 := good_created hg hp.1 (Or.inl hlatch)
            refine ⟨hg1.len, ?_, ?_, ?_, hg1.own, ?_, hg1.news⟩
            · intro b' h; injection h with h; subst h
              exact ⟨Nat.le_succ_of_le hi.1, hlt, by show b.lc ≤ _; rw [hp.1.committed]; exact hi.2.2⟩
            · intro b' l h hl; injection h with h; subst h
              exact hg1.latch b l (by rw [hp.1.batch]; exact hb) hl
            · intro b' h i k' h1 h2 h3 h4; injection h with h; subst h
              change i < b.n + 1 at h2
              by_cases e : i = b.n
              · subst e
                change b.es[b.n]? = some k' at h4
                rw [hk] at h4
                injection h4 with h4; subst h4
                exact hp.2 hr
              · exact hg1.ready b (by rw [hp.1.batch]; exact hb) i k' h1 (by omega) h3 h4
            · intro b' h; injection h with h; subst h; exact hg1.apart b (by rw [hp.1.batch]; exact hb)
          · refine ⟨by simp, ?_⟩
            intro s' h; injection h with h; subst h
            -- the batch ends here, so the latch may be set
            have hc := hp.1
            generalize s.prepare k (b.start + b.n) g = r at hc
            refine ⟨?_, (by intro b h; cases h), (by intro b l h; cases h), (by intro b h; cases h), ?_, (by intro b h; cases h), ?_⟩
            · show r.1.committed ≤ r.1.log.length
              rw [hc.committed, hc.log]; exact hg.len
            · intro p hp
              change p ∈ r.1.begun at hp
              rw [hc.begun] at hp
              show Own r.1.quiet r.1.map p
              rw [hc.quiet]
              exact own_mono hc.readyAll (hg.own p hp)
            · intro p hp
              change p ∈ r.1.begun at hp
              rw [hc.begun] at hp
              show p.1 ∉ r.1.log
              rw [hc.log]
              exact hg.news p hp
  | giveUp ks =>
    simp only [step]
    split
    · exact ⟨by simp, (by intro s' h; cases h)⟩
    · rename_i b hb
      split
      · rename_i hks
        refine ⟨by simp, ?_⟩
        intro s' h; injection h with h; subst h
        refine ⟨hg.len, (by intro b h; cases h), (by intro b l h; cases h), (by intro b h; cases h), ?_, (by intro b h; cases h), hg.news⟩
        intro p hp
        refine own_mono (ready_erase ?_) (hg.own p hp)
        intro hm
        exact hg.apart b hb p.1 (List.mem_of_mem_take (hks p.1 hm).1) p hp rfl
      · exact ⟨by simp, (by intro s' h; cases h)⟩
  | have_ =>
    simp only [step]
    split
    · exact ⟨by simp, (by intro s' h; cases h)⟩
    · rename_i b hb
      split
      · rename_i hc
        refine ⟨by simp, ?_⟩
        intro s' h; injection h with h; subst h
        have hi := hg.idx b hb
        refine ⟨hg.len, ?_, ?_, ?_, hg.own, ?_, hg.news⟩
        · intro b' h; injection h with h; subst h
          exact ⟨by show b.w + 1 ≤ b.n; omega, hi.2.1, hi.2.2⟩
        · intro b' l h; injection h with h; subst h; exact hg.latch b l hb
        · intro b' h i k' h1; injection h with h; subst h
          exact hg.ready b hb i k' (Nat.le_of_succ_le h1)
        · intro b' h; injection h with h; subst h; exact hg.apart b hb
      · exact ⟨by simp, (by intro s' h; cases h)⟩
  | write g =>
    simp only [step]
    split
    · exact ⟨by simp, (by intro s' h; cases h)⟩
    · rename_i b hb
      split
      · exact ⟨by simp, (by intro s' h; cases h)⟩
      · rename_i k hk
        split
        · rename_i hc
          have hi := hg.idx b hb
          have hlt : b.w < b.es.length := (List.getElem?_eq_some_iff.1 hk).1
          have hlen := hg.len
          have hr : ReadyIn s.map k := hg.ready b hb b.w k (Nat.le_refl _) (by omega) (by omega) hk
          rw [finish_ready g hr]
          refine ⟨by simp, ?_⟩
          intro s' h; injection h with h; subst h
          refine ⟨?_, ?_, ?_, ?_, hg.own, ?_, ?_⟩
          · show s.committed ≤ (s.log ++ [k]).length
            simp; omega
          · intro b' h; injection h with h; subst h
            exact ⟨by show b.w + 1 ≤ b.n; omega, hi.2.1, hi.2.2⟩
          · intro b' l h; injection h with h; subst h; exact hg.latch b l hb
          · intro b' h i k' h1; injection h with h; subst h
            exact hg.ready b hb i k' (Nat.le_of_succ_le h1)
          · intro b' h; injection h with h; subst h; exact hg.apart b hb
          · intro p hp
            show p.1 ∉ s.log ++ [k]
            rw [List.mem_append]
            rintro (h | h)
            · exact hg.news p hp h
            · exact hg.apart b hb k (List.mem_of_getElem? hk) p hp (by simpa using h)
        · exact ⟨by simp, (by intro s' h; cases h)⟩
  | done =>
    simp only [step]
    split
    · exact ⟨by simp, (by intro s' h; cases h)⟩
    · split
      · refine ⟨by simp, ?_⟩
        intro s' h; injection h with h; subst h
        exact good_noBatch hg
      · exact ⟨by simp, (by intro s' h; cases h)⟩
  | rollback n =>
    simp only [step]
    split
    · rename_i hc
      refine ⟨by simp, ?_⟩
      intro s' h; injection h with h; subst h
      refine ⟨?_, hg.idx, (by intro b l _ h; cases h), ?_, ?_, hg.apart, ?_⟩
      · show s.committed ≤ (s.log.take n).length
        rw [List.length_take]; omega
      · intro b hb i k h1 h2 h3 h4
        refine ready_erase ?_ (hg.ready b hb i k h1 h2 h3 h4)
        intro hm
        refine hf k hm b hb ?_
        rw [List.mem_iff_getElem?]
        refine ⟨i - b.w, ?_⟩
        rw [List.getElem?_drop]
        rw [show b.w + (i - b.w) = i by omega]
        exact h4
      · intro p hp
        refine own_mono (ready_erase ?_) (hg.own p hp)
        intro hm
        exact hg.news p hp (List.mem_of_mem_drop hm)
      · intro p hp hm
        exact hg.news p hp (List.mem_of_mem_take hm)
    · exact ⟨by simp, (by intro s' h; cases h)⟩
  | configRollback =>
    refine ⟨by simp [step], ?_⟩
    intro s' h; injection h with h; subst h
    exact good_noLatch hg
  | becomeLeader =>
    refine ⟨by simp [step], ?_⟩
    intro s' h; injection h with h; subst h
    exact good_noLatch hg
  | commit =>
    simp only [step]
    split
    · exact ⟨by simp, (by intro s' h; cases h)⟩
    · rename_i k hk
      refine ⟨by simp, ?_⟩
      intro s' h; injection h with h; subst h
      have hlt : s.committed < s.log.length := (List.getElem?_eq_some_iff.1 hk).1
      refine ⟨hlt, ?_, hg.latch, ?_, ?_, hg.apart, hg.news⟩
      · intro b hb
        have hi := hg.idx b hb
        exact ⟨hi.1, hi.2.1, Nat.le_succ_of_le hi.2.2⟩
      · intro b hb i k' h1 h2 h3 h4
        change s.committed + 1 < b.start + i at h3
        refine ready_upd ?_ (hg.ready b hb i k' h1 h2 (by omega) h4)
        intro e; subst e
        exact hf k' hk b hb i h3 h4
      · intro p hp
        refine own_mono (ready_upd ?_) (hg.own p hp)
        intro e
        exact hg.news p hp (e ▸ List.mem_of_getElem? hk)
  | begin k g =>
    simp only [step]
    split
    · exact ⟨by simp, (by intro s' h; cases h)⟩
    · rename_i hme
      have hme : k.server = s.me := by simpa using hme
      split
      · exact ⟨by simp, by intro s' h; injection h with h; subst h; exact hg⟩
      · split
        · rename_i hr
          refine ⟨by simp, ?_⟩
          intro s' h; injection h with h; subst h
          refine ⟨hg.len, hg.idx, hg.latch, hg.ready, ?_, ?_, ?_⟩
          · intro p hp
            rcases List.mem_append.1 hp with hp | hp
            · exact hg.own p hp
            · have hp := List.mem_singleton.1 hp
              subst hp
              show (Req.init {} s.me k g).1.pending = false ∧ (k.linked = true → (Req.init {} s.me k g).1.blk.isSome = true)
              unfold Req.init at hr ⊢
              cases hl : k.linked <;> cases g <;> simp_all
          · intro b hb k' hk' p hp
            rcases List.mem_append.1 hp with hp | hp
            · exact hg.apart b hb k' hk' p hp
            · have hp := List.mem_singleton.1 hp
              subst hp
              intro e
              exact hf.2.1 b hb (by rw [show k = k' from e]; exact hk')
          · intro p hp
            rcases List.mem_append.1 hp with hp | hp
            · exact hg.news p hp
            · have hp := List.mem_singleton.1 hp
              subst hp
              exact hf.1
        · exact ⟨by simp, by intro s' h; injection h with h; subst h; exact hg⟩
  | emplace k =>
    have hf : s.map k = none := hf
    simp only [step]
    split
    · rename_i k' q hfind
      obtain ⟨hm, hk⟩ := find_key hfind
      have hq := hg.own _ hm
      change q.pending = false ∧ (k'.linked = true → _) at hq
      change k' = k at hk
      subst hk
      refine ⟨by simp, ?_⟩
      intro s' h; injection h with h; subst h
      simp only [hf]
      have hready : ReadyIn (upd s.map k' (some q)) k' := ⟨q, upd_same, hq.1, hq.2⟩
      have hmono : ∀ {k2 : Key}, ReadyIn s.map k2 → ReadyIn (upd s.map k' (some q)) k2 := by
        intro k2 h
        by_cases e : k2 = k'
        · subst e; exact hready
        · exact ready_upd e h
      have hback : ∀ p ∈ s.begun.map (fun p => if p.1 = k' then (k', Stage.mapped) else p), ∃ p' ∈ s.begun, p'.1 = p.1 ∧ (p = p' ∨ p = (k', .mapped)) := by
        intro p hp
        obtain ⟨p', h1, h2⟩ := List.mem_map.1 hp
        refine ⟨p', h1, ?_⟩
        split at h2
        · rename_i e; subst h2; exact ⟨e, Or.inr rfl⟩
        · subst h2; exact ⟨rfl, Or.inl rfl⟩
      refine ⟨hg.len, hg.idx, hg.latch, ?_, ?_, ?_, ?_⟩
      · intro b hb i k2 h1 h2 h3 h4
        exact hmono (hg.ready b hb i k2 h1 h2 h3 h4)
      · intro p hp
        obtain ⟨p', h1, h2, h3⟩ := hback p hp
        rcases h3 with h3 | h3
        · subst h3; exact own_mono hmono (hg.own p h1)
        · subst h3; exact hready
      · intro b hb k2 hk2 p hp
        obtain ⟨p', h1, h2, -⟩ := hback p hp
        rw [← h2]
        exact hg.apart b hb k2 hk2 p' h1
      · intro p hp
        obtain ⟨p', h1, h2, -⟩ := hback p hp
        rw [← h2]
        exact hg.news p' h1
    · exact ⟨by simp, (by intro s' h; cases h)⟩
  | control k =>
    simp only [step]
    split
    · exact ⟨by simp, (by intro s' h; cases h)⟩
    · rename_i hme
      split
      · exact ⟨by simp, by intro s' h; injection h with h; subst h; exact hg⟩
      · rename_i hq
        refine ⟨by simp, ?_⟩
        intro s' h; injection h with h; subst h
        refine ⟨hg.len, hg.idx, hg.latch, hg.ready, ?_, ?_, ?_⟩
        · intro p hp
          rcases List.mem_append.1 hp with hp | hp
          · exact hg.own p hp
          · have hp := List.mem_singleton.1 hp
            subst hp
            refine ⟨by simpa using hq, ?_⟩
            cases hl : k.linked with
            | false => rfl
            | true => exact absurd (Or.inr hl) hme
        · intro b hb k' hk' p hp
          rcases List.mem_append.1 hp with hp | hp
          · exact hg.apart b hb k' hk' p hp
          · have hp := List.mem_singleton.1 hp
            subst hp
            intro e
            exact hf.2.1 b hb (by rw [show k = k' from e]; exact hk')
        · intro p hp
          rcases List.mem_append.1 hp with hp | hp
          · exact hg.news p hp
          · have hp := List.mem_singleton.1 hp
            subst hp
            exact hf.1
  | direct k =>
    simp only [step]
    split
    · exact ⟨by simp, (by intro s' h; cases h)⟩
    · rename_i hme
      refine ⟨by simp, ?_⟩
      intro s' h; injection h with h; subst h
      refine ⟨hg.len, hg.idx, hg.latch, hg.ready, ?_, ?_, ?_⟩
      · intro p hp
        rcases List.mem_append.1 hp with hp | hp
        · exact hg.own p hp
        · have hp := List.mem_singleton.1 hp
          subst hp
          refine ⟨hf.2, ?_⟩
          cases hl : k.linked with
          | false => rfl
          | true => exact absurd (Or.inr hl) hme
      · intro b hb k' hk' p hp
        rcases List.mem_append.1 hp with hp | hp
        · exact hg.apart b hb k' hk' p hp
        · have hp := List.mem_singleton.1 hp
          subst hp
          intro e
          exact hf.1.2.1 b hb (by rw [show k = k' from e]; exact hk')
      · intro p hp
        rcases List.mem_append.1 hp with hp | hp
        · exact hg.news p hp
        · have hp := List.mem_singleton.1 hp
          subst hp
          exact hf.1.1
  | append k g =>
    have key : s.batch = none → ∀ s1, s.finish k g = some s1 →
        Good { s1 with log := s1.log ++ [k], begun := s1.begun.filter fun p => p.1 ≠ k } := by
      intro hb s1 h
      have hg1 : Good s1 ∧ s1.batch = none := by
        rcases finished h with h | ⟨h, -⟩
        · subst h; exact ⟨hg, hb⟩
        · exact ⟨good_created hg h (Or.inr hb), by rw [← hb]; exact h.batch⟩
      obtain ⟨hg1, hb1⟩ := hg1
      refine ⟨?_, ?_, ?_, ?_, ?_, ?_, ?_⟩
      · show s1.committed ≤ (s1.log ++ [k]).length
        have := hg1.len
        simp; omega
      · intro b h'; change s1.batch = _ at h'; rw [hb1] at h'; cases h'
      · intro b l h'; change s1.batch = _ at h'; rw [hb1] at h'; cases h'
      · intro b h'; change s1.batch = _ at h'; rw [hb1] at h'; cases h'
      · intro p hp
        exact hg1.own p (List.mem_filter.1 hp).1
      · intro b h'; change s1.batch = _ at h'; rw [hb1] at h'; cases h'
      · intro p hp
        obtain ⟨h1, h2⟩ := List.mem_filter.1 hp
        show p.1 ∉ s1.log ++ [k]
        rw [List.mem_append]
        rintro (h' | h')
        · exact hg1.news p h1 h'
        · simp at h'; simp [h'] at h2
    simp only [step]
    split
    · exact ⟨by simp, (by intro s' h; cases h)⟩
    · rename_i hb
      have hb : s.batch = none := by simpa using hb
      split
      · exact ⟨by simp, (by intro s' h; cases h)⟩
      · exact ⟨by simp, (by intro s' h; cases h)⟩
      · rename_i k' g' hnf hfind
        obtain ⟨hm, hk⟩ := find_key hfind
        have hq := hg.own _ hm
        change k' = k at hk
        subst hk
        have hfin : ∃ s1, s.finish k' g = some s1 := by
          cases g' with
          | fresh q => exact absurd rfl (hnf q)
          | mapped => exact ⟨s, finish_ready g hq⟩
          | control => exact finish_plain hq.1 hq.2
        obtain ⟨s1, hs1⟩ := hfin
        rw [hs1]
        refine ⟨by simp, ?_⟩
        intro s' h; injection h with h; subst h
        exact key hb s1 hs1
  | quiesce =>
    refine ⟨by simp [step], ?_⟩
    intro s' h; injection h with h; subst h
    refine ⟨hg.len, hg.idx, hg.latch, hg.ready, ?_, hg.apart, hg.news⟩
    intro p hp
    have ho := hg.own p hp
    have hnc := hf p hp
    obtain ⟨k, g⟩ := p
    cases g with
    | fresh q => exact ho
    | mapped => exact ho
    | control => exact absurd rfl hnc
  | clear c =>
    refine ⟨by simp [step], ?_⟩
    intro s' h; injection h with h; subst h
    obtain ⟨⟨l, hl, hle⟩, hown⟩ := hf
    refine ⟨hg.len, hg.idx, hg.latch, ?_, ?_, hg.apart, hg.news⟩
    · intro b hb i k h1 h2 h3 h4
      exfalso
      have := hg.latch b l hb hl
      have hi := (List.getElem?_eq_some_iff.1 h4).1
      change s.committed < _ at h3
      omega
    · intro p hp
      refine own_mono ?_ (hg.own p hp)
      rintro ⟨q, h1, h2⟩
      refine ⟨q, ?_, h2⟩
      show (match s.map p.1 with | some q => if q.blk = some c then none else some q | none => none) = some q
      simp only [h1]
      rw [if_neg (hown p hp q h1)]
  | resume =>
    refine ⟨by simp [step], ?_⟩
    intro s' h; injection h with h; subst h
    refine ⟨hg.len, hg.idx, (by intro b l _ h; cases h), hg.ready, ?_, hg.apart, hg.news⟩
    intro p hp
    have ho := hg.own p hp
    obtain ⟨k, g⟩ := p
    cases g with
    | fresh q => exact ho
    | mapped => exact ho
    | control => exact ⟨rfl, ho.2⟩

theorem good_run {l : List Ev} : ∀ {s : St}, Good s → FairRun s l → run s l ≠ .abort ∧ ∀ s', run s l = .ok s' → Good s' := by
  induction l with
  | nil => intro s hg _; exact ⟨by simp [run], by intro s' h; injection h with h; subst h; exact hg⟩
  | cons e l ih =>
    intro s hg hf
    have h := good_step hg hf.1
    simp only [run]
    cases hs : step s e with
    | ok s' => exact ih (h.2 s' hs) (hf.2 s' hs)
    | abort => exact absurd hs h.1
    | no => exact ⟨by simp, (by intro s' h; cases h)⟩

/-- **C104**.  A member whose application and raft group use it as said (`Fair`) does not abort, whatever the order of pushed
data, batches, commits, rollbacks, proposals, "no space left", refusing, clearing and resuming, and however long it runs. -/
theorem C104_no_abort_partial {me : Nat} {l : List Ev} (h : FairRun (St.init me) l) : run (St.init me) l ≠ .abort :=
  (good_run (good_init me) h).1

end HS.Quiesce.Latch
