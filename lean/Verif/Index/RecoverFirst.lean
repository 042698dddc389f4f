import Verif.Index.RecoverPass
/-!
# The first pass of recovery after splits and merges of leaves under one node
-/
namespace HS.Index.Recover

/-- What the passes start from. -/
structure Setup (e : Env) (d : Disk) (p : Id) (own : List (Id × Id)) (olds news frees : List Id) : Prop where
  nodupN : (own.map (·.1)).Nodup
  nodupO : olds.Nodup
  ownOld : ∀ o ∈ own, o.2 ∈ olds
  oldOwn : ∀ c ∈ olds, ∃ o ∈ own, o.2 = c
  newOld : ∀ o ∈ own, o.1 ∉ olds
  newP : ∀ o ∈ own, o.1 ≠ p
  oldP : p ∉ olds
  kind : ∀ o ∈ own, o.1 ∈ news ∨ o.1 ∈ frees
  flushed : ∀ o ∈ own, o.1 ∉ frees → committed e d (some (.node o.2)) = true → committed e d (some (.node o.1)) = true

/-- The old leaf is on disk as changed. -/
def gc (e : Env) (d : Disk) (c : Id) : Bool := committed e d (some (.node c))

/-- How many of the leaves made from `c` are still to come. -/
def rem (own : List (Id × Id)) (rest : List Ref) (c : Id) : Nat :=
  own.countP (fun o => o.2 == c && decide (Ref.node o.1 ∈ rest))

def full (own : List (Id × Id)) (c : Id) : Nat := own.countP (fun o => o.2 == c)

def live (e : Env) (d : Disk) (own : List (Id × Id)) (rest : List Ref) (c : Id) : Bool :=
  gc e d c || decide (0 < rem own rest c)

/-- Counts that differ in one element. -/
theorem countP_one {α : Type} {P Q : α → Bool} {a : α} : ∀ {l : List α}, l.Nodup → a ∈ l → P a = true → Q a = false →
    (∀ b ∈ l, b ≠ a → P b = Q b) → l.countP P = l.countP Q + 1
  | x :: l, hn, ha, hp, hq, h => by
    rw [List.nodup_cons] at hn
    by_cases e : x = a
    · subst e
      have : l.countP P = l.countP Q := by
        refine List.countP_congr (fun b hb => ?_)
        have : b ≠ x := fun e => hn.1 (e ▸ hb)
        rw [h b (List.mem_cons_of_mem _ hb) this]
      simp [List.countP_cons, hp, hq, this]
    · have ha' : a ∈ l := by
        rcases List.mem_cons.1 ha with h | h
        · exact absurd h.symm e
        · exact h
      have ih := countP_one hn.2 ha' hp hq (fun b hb => h b (List.mem_cons_of_mem _ hb))
      rw [List.countP_cons, List.countP_cons, h x List.mem_cons_self e, ih]
      omega

theorem nodup_of_map {own : List (Id × Id)} (h : (own.map (·.1)).Nodup) : own.Nodup :=
  List.Pairwise.of_map (·.1) (fun _ _ hab e => hab (by rw [e])) h

/-- The leaf `n`, made from `c`, is done. -/
theorem rem_new {own : List (Id × Id)} {rest : List Ref} {o : Id × Id} (h : (own.map (·.1)).Nodup) (ho : o ∈ own)
    (hr : Ref.node o.1 ∉ rest) : rem own (.node o.1 :: rest) o.2 = rem own rest o.2 + 1 := by
  refine countP_one (a := o) (nodup_of_map h) ho (by simp) (by simp [hr]) ?_
  intro b hb hne
  have : b.1 ≠ o.1 := fun e => hne (nodup_fst h hb ho e)
  simp [this]

theorem rem_new_other {own : List (Id × Id)} {rest : List Ref} {o : Id × Id} (h : (own.map (·.1)).Nodup) (ho : o ∈ own)
    {c : Id} (hc : c ≠ o.2) : rem own (.node o.1 :: rest) c = rem own rest c := by
  refine List.countP_congr ?_
  intro b hb
  by_cases e : b.1 = o.1
  · have := nodup_fst h hb ho e
    subst this
    simp [Ne.symm hc]
  · simp [e]

/-- A buffer that is not of a new leaf is done. -/
theorem rem_old {own : List (Id × Id)} {rest : List Ref} {r : Ref} (h : ∀ o ∈ own, r ≠ .node o.1) (c : Id) :
    rem own (r :: rest) c = rem own rest c := by
  refine List.countP_congr ?_
  intro b hb
  have := Ne.symm (h b hb)
  simp [this]

theorem rem_pos {own : List (Id × Id)} {rest : List Ref} {o : Id × Id} (ho : o ∈ own) (hr : Ref.node o.1 ∈ rest) :
    0 < rem own rest o.2 := by
  rw [rem, List.countP_pos_iff]
  exact ⟨o, ho, by simp [hr]⟩

theorem rem_nil {own : List (Id × Id)} {c : Id} : rem own [] c = 0 := by
  rw [rem, List.countP_eq_zero]
  intro o _
  simp

theorem rem_all {own : List (Id × Id)} {rest : List Ref} {c : Id} (h : ∀ o ∈ own, Ref.node o.1 ∈ rest) :
    rem own rest c = full own c := by
  refine List.countP_congr ?_
  intro b hb
  simp [h b hb]

/-! ## The counters -/

/-- The counters and lists in the first pass; `rest`: the buffers still to come. -/
structure Cnt (e : Env) (d : Disk) (p : Id) (own : List (Id × Id)) (olds : List Id) (rest : List Ref) (m : Bufs) (pending pruned : List Ref) : Prop where
  bp : m (.node p) = some { created := false, freed := false, up := none, wait := (olds.countP (live e d own rest) : Int) }
  bc : ∀ c ∈ olds, m (.node c) = some { created := false, freed := false, up := if live e d own rest c then some (.node p) else none, wait := if gc e d c then (full own c : Int) else rem own rest c }
  pend : ∀ c ∈ olds, gc e d c = true → pending.count (.node c) + rem own rest c = full own c
  pendOnly : ∀ r ∈ pending, ∃ c ∈ olds, gc e d c = true ∧ r = .node c
  prunOnly : ∀ r ∈ pruned, r = .node p ∨ ∃ c ∈ olds, gc e d c = false ∧ rem own rest c = 0 ∧ r = .node c
  prunP : pruned.count (.node p) = if olds.countP (live e d own rest) = 0 then 1 else 0

theorem addWait_some {m : Bufs} {r : Ref} {b : Buf} {k : Int} (h : m r = some b) :
    m.addWait r k = m.set r { b with wait := b.wait + k } := by
  simp [Bufs.addWait, h]

theorem live_old {e : Env} {d : Disk} {own : List (Id × Id)} {rest : List Ref} {r : Ref} (h : ∀ o ∈ own, r ≠ .node o.1) :
    live e d own (r :: rest) = live e d own rest := by
  funext c
  simp [live, rem_old h]

theorem cnt_congr {e : Env} {d : Disk} {p : Id} {own : List (Id × Id)} {olds : List Id} {rest : List Ref} {m m' : Bufs} {pd pr : List Ref}
    (h : Cnt e d p own olds rest m pd pr) (h1 : m' (.node p) = m (.node p)) (h2 : ∀ c ∈ olds, m' (.node c) = m (.node c)) :
    Cnt e d p own olds rest m' pd pr :=
  ⟨by rw [h1]; exact h.bp, fun c hc => by rw [h2 c hc]; exact h.bc c hc, h.pend, h.pendOnly, h.prunOnly, h.prunP⟩

/-- A buffer that is not of a leaf made or merged. -/
theorem cnt_old {e : Env} {d : Disk} {p : Id} {own : List (Id × Id)} {olds : List Id} {r : Ref} {rest : List Ref} {m : Bufs} {pd pr : List Ref}
    (h : Cnt e d p own olds (r :: rest) m pd pr) (hr : ∀ o ∈ own, r ≠ .node o.1) : Cnt e d p own olds rest m pd pr := by
  have hlv := live_old (e := e) (d := d) (rest := rest) hr
  refine ⟨?_, ?_, ?_, h.pendOnly, ?_, ?_⟩
  · rw [← hlv]; exact h.bp
  · intro c hc; have := h.bc c hc; rw [hlv, rem_old hr] at this; exact this
  · intro c hc; have := h.pend c hc; rw [rem_old hr] at this; exact this
  · intro x hx; have := h.prunOnly x hx
    rcases this with h | ⟨c, h1, h2, h3, h4⟩
    · exact Or.inl h
    · rw [rem_old hr] at h3; exact Or.inr ⟨c, h1, h2, h3, h4⟩
  · rw [← hlv]; exact h.prunP

/-- A leaf made or merged whose old leaf was written. -/
theorem cnt_keep {e : Env} {d : Disk} {p : Id} {own : List (Id × Id)} {olds news frees : List Id} {o : Id × Id} {rest : List Ref}
    {m : Bufs} {pd pr : List Ref} (su : Setup e d p own olds news frees) (hi : Cnt e d p own olds (.node o.1 :: rest) m pd pr) (ho : o ∈ own)
    (hr : Ref.node o.1 ∉ rest) (hg : gc e d o.2 = true) : Cnt e d p own olds rest m (pd ++ [.node o.2]) pr := by
  have hlv : ∀ c, live e d own (.node o.1 :: rest) c = live e d own rest c := by
    intro c
    by_cases hc : c = o.2
    · simp [live, hc, hg]
    · simp [live, rem_new_other su.nodupN ho hc]
  have hlv' : live e d own (.node o.1 :: rest) = live e d own rest := funext hlv
  refine ⟨?_, ?_, ?_, ?_, ?_, ?_⟩
  · rw [← hlv']; exact hi.bp
  · intro c hc
    have := hi.bc c hc
    rw [hlv] at this
    rw [this]
    by_cases hco : c = o.2
    · simp [hco, hg]
    · rw [rem_new_other su.nodupN ho hco]
  · intro c hc hgc
    have := hi.pend c hc hgc
    rw [List.count_append]
    by_cases hco : c = o.2
    · subst hco
      rw [rem_new su.nodupN ho hr] at this
      simp
      omega
    · rw [rem_new_other su.nodupN ho hco] at this
      have h0 : [Ref.node o.2].count (.node c) = 0 := by
        rw [List.count_eq_zero]; simp [hco]
      omega
  · intro r hr'
    rcases List.mem_append.1 hr' with h | h
    · exact hi.pendOnly r h
    · simp only [List.mem_singleton] at h
      exact ⟨o.2, su.ownOld o ho, hg, h⟩
  · intro x hx
    rcases hi.prunOnly x hx with h | ⟨c, h1, h2, h3, h4⟩
    · exact Or.inl h
    · refine Or.inr ⟨c, h1, h2, ?_, h4⟩
      have : c ≠ o.2 := fun e => by rw [e, hg] at h2; cases h2
      rw [rem_new_other su.nodupN ho this] at h3
      exact h3
  · rw [← hlv']; exact hi.prunP

/-- A leaf made or merged whose old leaf was not written. -/
theorem cnt_drop {e : Env} {d : Disk} {p : Id} {own : List (Id × Id)} {olds news frees : List Id} {o : Id × Id} {rest : List Ref}
    {s : RS} (su : Setup e d p own olds news frees) (hf : 2 ≤ e.fuel) (hi : Cnt e d p own olds (.node o.1 :: rest) s.bufs s.pending s.pruned)
    (ho : o ∈ own) (hr : Ref.node o.1 ∉ rest) (hg : gc e d o.2 = false) (hu : upOf s.bufs (.node o.1) = some (.node o.2)) :
    ∃ m ps, ({ s with bufs := s.bufs.addWait (.node o.2) (-1) } : RS).prune e.fuel (.node o.1) = { s with bufs := m, pruned := ps } ∧
      Cnt e d p own olds rest m s.pending ps ∧ ∀ x, x ≠ .node p → x ≠ .node o.2 → m x = s.bufs x := by
  obtain ⟨f, hf⟩ : ∃ f, e.fuel = f + 2 := ⟨e.fuel - 2, by omega⟩
  have hco := su.ownOld o ho
  have hcp : o.2 ≠ p := fun e => su.oldP (e ▸ hco)
  have hnc : o.1 ≠ o.2 := fun e => su.newOld o ho (e ▸ hco)
  have hrem := rem_new su.nodupN ho hr
  have hl1 : live e d own (.node o.1 :: rest) o.2 = true := by
    simp only [live, hg, Bool.false_or, decide_eq_true_eq, hrem]; omega
  have hbc := hi.bc o.2 hco
  rw [if_pos hl1, hg, if_neg (by simp), hrem] at hbc
  have hbp := hi.bp
  have hpend : ∀ c ∈ olds, gc e d c = true → s.pending.count (.node c) + rem own rest c = full own c := by
    intro c hc hgc
    have hne : c ≠ o.2 := fun e => by rw [e, hg] at hgc; cases hgc
    have := hi.pend c hc hgc
    rw [rem_new_other su.nodupN ho hne] at this
    exact this
  have hprun : ∀ r ∈ s.pruned, r = .node p ∨ ∃ c ∈ olds, gc e d c = false ∧ rem own rest c = 0 ∧ r = .node c := by
    intro r hr'
    rcases hi.prunOnly r hr' with h | ⟨c, h1, h2, h3, h4⟩
    · exact Or.inl h
    · refine Or.inr ⟨c, h1, h2, ?_, h4⟩
      have hne : c ≠ o.2 := fun e => by rw [e, hrem] at h3; omega
      rw [rem_new_other su.nodupN ho hne] at h3
      exact h3
  have hadd : s.bufs.addWait (.node o.2) (-1) = s.bufs.set (.node o.2) { created := false, freed := false, up := some (.node p), wait := (rem own rest o.2 : Int) } := by
    rw [addWait_some hbc]
    have : ((rem own rest o.2 + 1 : Nat) : Int) + -1 = rem own rest o.2 := by omega
    simp only [this]
  rw [hadd]
  have hup : upOf (s.bufs.set (.node o.2) { created := false, freed := false, up := some (.node p), wait := (rem own rest o.2 : Int) }) (.node o.1) = some (.node o.2) := by
    rw [upOf, bset_other (node_ne hnc)]; exact hu
  by_cases hz : rem own rest o.2 = 0
  · -- the last one
    have hl2 : live e d own rest o.2 = false := by simp [live, hg, hz]
    have hlo : ∀ c, c ≠ o.2 → live e d own (.node o.1 :: rest) c = live e d own rest c := by
      intro c hc; simp only [live, rem_new_other su.nodupN ho hc]
    have hcount : olds.countP (live e d own (.node o.1 :: rest)) = olds.countP (live e d own rest) + 1 :=
      countP_one su.nodupO hco hl1 hl2 (fun b _ hb => hlo b hb)
    have hprune : ({ s with bufs := s.bufs.set (.node o.2) { created := false, freed := false, up := some (.node p), wait := (rem own rest o.2 : Int) } } : RS).prune e.fuel (.node o.1) =
        { s with bufs := ((s.bufs.set (.node p) { created := false, freed := false, up := none, wait := (olds.countP (live e d own rest) : Int) }).set (.node o.2) { created := false, freed := false, up := none, wait := 0 }),
                 pruned := s.pruned ++ [.node o.2] ++ (if (olds.countP (live e d own rest) : Int) = 0 then [.node p] else []) } := by
      have hw : waitOf (s.bufs.set (.node o.2) { created := false, freed := false, up := some (.node p), wait := (rem own rest o.2 : Int) }) (.node o.2) = 0 := by
        rw [waitOf, bset_same]; simp [hz]
      have hg2 : upOf (s.bufs.set (.node o.2) { created := false, freed := false, up := some (.node p), wait := (rem own rest o.2 : Int) }) (.node o.2) = some (.node p) := by
        rw [upOf, bset_same]
      have huc : upCounters (s.bufs.set (.node o.2) { created := false, freed := false, up := some (.node p), wait := (rem own rest o.2 : Int) }) e.fuel (.node o.2) =
          (s.bufs.set (.node p) { created := false, freed := false, up := none, wait := (olds.countP (live e d own rest) : Int) }).set (.node o.2) { created := false, freed := false, up := none, wait := 0 } := by
        have hm : (s.bufs.set (.node o.2) { created := false, freed := false, up := some (.node p), wait := (rem own rest o.2 : Int) }) (.node p) = some { created := false, freed := false, up := none, wait := ((olds.countP (live e d own rest) + 1 : Nat) : Int) } := by
          rw [bset_other (node_ne (Ne.symm hcp)), hbp, hcount]
        have hmm : ((s.bufs.set (.node o.2) { created := false, freed := false, up := some (.node p), wait := (rem own rest o.2 : Int) }).addWait (.node p) (-1)).set (.node o.2) { created := false, freed := false, up := none, wait := 0 } =
            (s.bufs.set (.node p) { created := false, freed := false, up := none, wait := (olds.countP (live e d own rest) : Int) }).set (.node o.2) { created := false, freed := false, up := none, wait := 0 } := by
          rw [addWait_some hm]
          have : ((olds.countP (live e d own rest) + 1 : Nat) : Int) + -1 = olds.countP (live e d own rest) := by omega
          simp only [this]
          funext x
          simp only [Bufs.set]
          by_cases e1 : x = .node o.2
          · simp [e1]
          · simp [e1]
        have hpp : (((s.bufs.set (.node p) { created := false, freed := false, up := none, wait := (olds.countP (live e d own rest) : Int) }).set (.node o.2) { created := false, freed := false, up := none, wait := 0 }) : Bufs) (.node p) =
            some { created := false, freed := false, up := none, wait := (olds.countP (live e d own rest) : Int) } := by
          rw [bset_other (node_ne (Ne.symm hcp)), bset_same]
        rw [hf, upCounters, bset_same]
        have hz' : ((0 : Nat) : Int) = 0 := rfl
        simp only [hz, hz'] at hmm
        simp only [hz, hz', ne_eq, not_true, if_false]
        rw [hmm, upCounters, hpp]
        simp only []
        split <;> rfl
      simp only [RS.prune, hup]
      rw [if_neg (by rw [hw]; simp), huc, hg2]
      have hwp : waitOf (((s.bufs.set (.node p) { created := false, freed := false, up := none, wait := (olds.countP (live e d own rest) : Int) }).set (.node o.2) { created := false, freed := false, up := none, wait := 0 }) : Bufs) (.node p) = olds.countP (live e d own rest) := by
        rw [waitOf, bset_other (node_ne (Ne.symm hcp)), bset_same]
      simp only [hwp]
    refine ⟨_, _, hprune, ⟨?_, ?_, hpend, hi.pendOnly, ?_, ?_⟩, ?_⟩
    · rw [bset_other (node_ne (Ne.symm hcp)), bset_same]
    · intro c hc
      by_cases hce : c = o.2
      · subst hce
        rw [bset_same, hl2, hg, hz]
        rfl
      · have hcp' : c ≠ p := fun e => su.oldP (e ▸ hc)
        rw [bset_other (node_ne hce), bset_other (node_ne hcp'), hi.bc c hc, hlo c hce, rem_new_other su.nodupN ho hce]
    · intro r hr'
      rcases List.mem_append.1 hr' with h | h
      · rcases List.mem_append.1 h with h | h
        · exact hprun r h
        · simp only [List.mem_singleton] at h
          exact Or.inr ⟨o.2, hco, hg, hz, h⟩
      · left
        split at h
        · simpa using h
        · cases h
    · rw [List.count_append, List.count_append, hi.prunP, hcount, if_neg (by omega)]
      have h0 : [Ref.node o.2].count (.node p) = 0 := by
        rw [List.count_eq_zero]; simp [Ne.symm hcp]
      rw [h0]
      by_cases hc0 : olds.countP (live e d own rest) = 0
      · simp [hc0]
      · rw [if_neg (by omega), if_neg hc0]; rfl
    · intro x h1 h2
      rw [bset_other h2, bset_other h1]
  · -- others are still to come
    have hlv : ∀ c, live e d own (.node o.1 :: rest) c = live e d own rest c := by
      intro c
      by_cases hc : c = o.2
      · rw [hc, hl1]
        have : 0 < rem own rest o.2 := by omega
        simp [live, this]
      · simp only [live, rem_new_other su.nodupN ho hc]
    have hlv' : live e d own (.node o.1 :: rest) = live e d own rest := funext hlv
    have hprune : ({ s with bufs := s.bufs.set (.node o.2) { created := false, freed := false, up := some (.node p), wait := (rem own rest o.2 : Int) } } : RS).prune e.fuel (.node o.1) =
        { s with bufs := s.bufs.set (.node o.2) { created := false, freed := false, up := some (.node p), wait := (rem own rest o.2 : Int) }, pruned := s.pruned } := by
      have hw : waitOf (s.bufs.set (.node o.2) { created := false, freed := false, up := some (.node p), wait := (rem own rest o.2 : Int) }) (.node o.2) ≠ 0 := by
        rw [waitOf, bset_same]; simp only []; omega
      simp only [RS.prune, hup]
      rw [if_pos hw]
    refine ⟨_, _, hprune, ⟨?_, ?_, hpend, hi.pendOnly, hprun, ?_⟩, ?_⟩
    · rw [bset_other (node_ne (Ne.symm hcp)), hbp, hlv']
    · intro c hc
      by_cases hce : c = o.2
      · subst hce
        rw [bset_same, ← hlv, hl1, hg]
        rfl
      · rw [bset_other (node_ne hce), hi.bc c hc, hlv, rem_new_other su.nodupN ho hce]
    · rw [← hlv']; exact hi.prunP
    · intro x _ h2
      exact bset_other h2

/-! ## The sets of nodes -/

/-- The nodes in `mem` are those in `base` and the leaves of `own` with `K` that are done. -/
def Acc (own : List (Id × Id)) (K : Id × Id → Bool) (rest : List Ref) (base mem : Id → Prop) : Prop :=
  ∀ i, mem i ↔ base i ∨ ∃ o ∈ own, o.1 = i ∧ K o = true ∧ Ref.node i ∉ rest

theorem acc_old {own : List (Id × Id)} {K : Id × Id → Bool} {r : Ref} {rest : List Ref} {base mem : Id → Prop}
    (h : Acc own K (r :: rest) base mem) (hr : ∀ o ∈ own, r ≠ .node o.1) : Acc own K rest base mem := by
  intro i
  rw [h i]
  constructor
  · rintro (h | ⟨o, ho, h1, h2, h3⟩)
    · exact Or.inl h
    · exact Or.inr ⟨o, ho, h1, h2, fun h => h3 (List.mem_cons_of_mem _ h)⟩
  · rintro (h | ⟨o, ho, h1, h2, h3⟩)
    · exact Or.inl h
    · refine Or.inr ⟨o, ho, h1, h2, ?_⟩
      simp only [List.mem_cons, not_or]
      exact ⟨fun e => hr o ho (by rw [h1]; exact e.symm), h3⟩

theorem acc_step {own : List (Id × Id)} {K : Id × Id → Bool} {o : Id × Id} {rest : List Ref} {base mem mem' : Id → Prop}
    (hn : (own.map (·.1)).Nodup) (ho : o ∈ own) (hr : Ref.node o.1 ∉ rest)
    (h : Acc own K (.node o.1 :: rest) base mem) (hm : ∀ i, mem' i ↔ mem i ∨ (i = o.1 ∧ K o = true)) : Acc own K rest base mem' := by
  intro i
  rw [hm i, h i]
  constructor
  · rintro ((h | ⟨o', ho', h1, h2, h3⟩) | ⟨h1, h2⟩)
    · exact Or.inl h
    · exact Or.inr ⟨o', ho', h1, h2, fun h => h3 (List.mem_cons_of_mem _ h)⟩
    · exact Or.inr ⟨o, ho, h1.symm, h2, by rw [h1]; exact hr⟩
  · rintro (h | ⟨o', ho', h1, h2, h3⟩)
    · exact Or.inl (Or.inl h)
    · by_cases hoo : o' = o
      · subst hoo
        exact Or.inr ⟨h1.symm, h2⟩
      · refine Or.inl (Or.inr ⟨o', ho', h1, h2, ?_⟩)
        simp only [List.mem_cons, not_or]
        refine ⟨fun e => hoo ?_, h3⟩
        injection e with e
        exact nodup_fst hn ho' ho (by rw [h1, e])

/-- The leaves whose blocks stay in use by recovery. -/
def isKept (e : Env) (d : Disk) (news frees : List Id) (o : Id × Id) : Bool :=
  if o.1 ∈ frees then decide (o.1 ∉ news) && !gc e d o.2 else gc e d o.2

/-- The leaves whose blocks are freed by recovery. -/
def isGone (e : Env) (d : Disk) (news frees : List Id) (o : Id × Id) : Bool :=
  decide (o.1 ∈ frees) && (gc e d o.2 || decide (o.1 ∈ news))

/-- The leaves that are marked as deleted. -/
def isDel (e : Env) (d : Disk) (frees : List Id) (o : Id × Id) : Bool := decide (o.1 ∈ frees) && gc e d o.2

/-- The leaves that the sanity check skips. -/
def isSkip (e : Env) (d : Disk) (frees : List Id) (o : Id × Id) : Bool := decide (o.1 ∉ frees) && !gc e d o.2

/-- The buffer of a leaf made or merged. -/
def bufNew (e : Env) (d : Disk) (news frees : List Id) (rest : List Ref) (o : Id × Id) : Buf :=
  if o.1 ∈ frees ∧ gc e d o.2 = false ∧ Ref.node o.1 ∉ rest then
    { created := decide (o.1 ∈ news), freed := decide (o.1 ∈ news), up := none, wait := 0 }
  else { created := decide (o.1 ∈ news), freed := decide (o.1 ∈ frees), up := some (.node o.2), wait := 0 }

/-! ## The pass -/

/-- What holds in the first pass; `rest`: the buffers still to come. -/
structure Inv1 (e : Env) (d : Disk) (p : Id) (own : List (Id × Id)) (olds news frees : List Id) (s0 : RS) (rest : List Ref) (s : RS) : Prop where
  disk : s.d = d
  same : s.sb = s0.sb ∧ s.sbDisk = s0.sbDisk ∧ s.tree = s0.tree ∧ s.supply = s0.supply
  cnt : Cnt e d p own olds rest s.bufs s.pending s.pruned
  bn : ∀ o ∈ own, s.bufs (.node o.1) = some (bufNew e d news frees rest o)
  skip : Acc own (isSkip e d frees) rest (fun _ => False) (fun i => Ref.node i ∈ s.skipped)
  kept : Acc own (isKept e d news frees) rest (fun _ => False) (fun i => i ∈ s.kept)
  gone : Acc own (isGone e d news frees) rest (fun _ => False) (fun i => i ∈ s.gone)
  del : Acc own (isDel e d frees) rest (fun i => e.del i = true) (fun i => s.del i = true)

/-- A buffer that is not of a leaf made or merged. -/
theorem first_old {e : Env} {d : Disk} {p : Id} {own : List (Id × Id)} {olds news frees : List Id} {s0 s : RS} {r : Ref}
    {rest : List Ref} (hi : Inv1 e d p own olds news frees s0 (r :: rest) s) (hr : ∀ o ∈ own, r ≠ .node o.1)
    (hk : r = .node p ∨ ∃ c ∈ olds, r = .node c) :
    Inv1 e d p own olds news frees s0 rest (s.first e r) := by
  have hs : s.first e r = s := by
    rcases hk with rfl | ⟨c, hc, rfl⟩
    · simp [RS.first, hi.cnt.bp]
    · simp [RS.first, hi.cnt.bc c hc]
  rw [hs]
  refine ⟨hi.disk, hi.same, cnt_old hi.cnt hr, ?_, acc_old hi.skip hr, acc_old hi.kept hr, acc_old hi.gone hr, acc_old hi.del hr⟩
  intro o ho
  rw [hi.bn o ho]
  have := Ne.symm (hr o ho)
  simp [bufNew, this]

theorem bufNew_first {e : Env} {d : Disk} {news frees : List Id} {rest : List Ref} {o : Id × Id} :
    bufNew e d news frees (.node o.1 :: rest) o = { created := decide (o.1 ∈ news), freed := decide (o.1 ∈ frees), up := some (.node o.2), wait := 0 } := by
  rw [bufNew, if_neg]
  intro h
  exact h.2.2 List.mem_cons_self

theorem bufNew_other {e : Env} {d : Disk} {news frees : List Id} {rest : List Ref} {o o' : Id × Id} (h : o'.1 ≠ o.1) :
    bufNew e d news frees (.node o.1 :: rest) o' = bufNew e d news frees rest o' := by
  simp [bufNew, h]

/-- A leaf made or merged. -/
theorem first_new {e : Env} {d : Disk} {p : Id} {own : List (Id × Id)} {olds news frees : List Id} {s0 s : RS} {o : Id × Id}
    {rest : List Ref} (su : Setup e d p own olds news frees) (hf : 2 ≤ e.fuel)
    (hi : Inv1 e d p own olds news frees s0 (.node o.1 :: rest) s) (ho : o ∈ own) (hr : Ref.node o.1 ∉ rest) :
    Inv1 e d p own olds news frees s0 rest (s.first e (.node o.1)) := by
  have hb := hi.bn o ho
  rw [bufNew_first] at hb
  have hco := su.ownOld o ho
  have hnc : o.1 ≠ o.2 := fun e => su.newOld o ho (e ▸ hco)
  have hnp : o.1 ≠ p := su.newP o ho
  have hno : ∀ c ∈ olds, c ≠ o.1 := fun c hc e => su.newOld o ho (e ▸ hc)
  have hon : ∀ o' ∈ own, o'.1 ≠ o.2 := fun o' ho' e => su.newOld o' ho' (e ▸ hco)
  -- the buffers, if that of `o` is as before
  have hbn : ∀ m : Bufs, (∀ x, x ≠ .node p → x ≠ .node o.2 → m x = s.bufs x) →
      (o.1 ∉ frees ∨ gc e d o.2 = true) → ∀ o' ∈ own, m (.node o'.1) = some (bufNew e d news frees rest o') := by
    intro m hm hc o' ho'
    rw [hm _ (node_ne (su.newP o' ho')) (node_ne (hon o' ho')), hi.bn o' ho']
    by_cases hoo : o'.1 = o.1
    · have := nodup_fst su.nodupN ho' ho hoo
      subst this
      rw [bufNew_first, bufNew, if_neg]
      rintro ⟨h1, h2, -⟩
      rcases hc with h | h
      · exact h h1
      · rw [h2] at h; cases h
    · rw [bufNew_other hoo]
  have hst : ∀ {K : Id × Id → Bool} {base mem mem' : Id → Prop}, Acc own K (.node o.1 :: rest) base mem →
      (∀ i, mem' i ↔ mem i ∨ (i = o.1 ∧ K o = true)) → Acc own K rest base mem' :=
    fun h hm => acc_step su.nodupN ho hr h hm
  have hsk : ∀ {K : Id × Id → Bool} {base mem : Id → Prop}, Acc own K (.node o.1 :: rest) base mem → K o = false →
      Acc own K rest base mem :=
    fun h hk => hst h (fun i => by simp [hk])
  have hup : ∀ m : Bufs, m (.node o.1) = some { created := decide (o.1 ∈ news), freed := decide (o.1 ∈ frees), up := some (.node o.2), wait := 0 } →
      upOf m (.node o.1) = some (.node o.2) := by intro m h; rw [upOf, h]
  by_cases hfr : o.1 ∈ frees
  · -- merged
    cases hg : gc e d o.2 with
    | true =>
      have h1 : committed e d (some (.node o.2)) = true := hg
      have hs : s.first e (.node o.1) = { s with del := fun x => x == o.1 || s.del x, gone := s.gone ++ [o.1], pending := s.pending ++ [.node o.2] } := by
        simp [RS.first, hb, hfr, hi.disk, h1]
      rw [hs]
      refine ⟨hi.disk, hi.same, cnt_keep su hi.cnt ho hr hg, hbn _ (fun _ _ _ => rfl) (Or.inr hg), hsk hi.skip (by simp [isSkip, hfr]),
        hsk hi.kept (by simp [isKept, hfr, hg]), hst hi.gone ?_, hst hi.del ?_⟩
      · intro i
        simp [isGone, hfr, hg]
      · intro i
        simp [isDel, hfr, hg, or_comm]
    | false =>
      have h1 : committed e s.d (some (.node o.2)) = false := by rw [hi.disk]; exact hg
      by_cases hnw : o.1 ∈ news
      · -- made in this checkpoint
        obtain ⟨m, ps, hp1, hp2, hp3⟩ := cnt_drop (s := { s with gone := s.gone ++ [o.1] }) su hf hi.cnt ho hr hg (hup _ hb)
        have hmo : m (.node o.1) = s.bufs (.node o.1) := hp3 _ (node_ne hnp) (node_ne hnc)
        have hs : s.first e (.node o.1) = { s with gone := s.gone ++ [o.1], pruned := ps, bufs := m.set (.node o.1) { created := true, freed := true, up := none, wait := 0 } } := by
          simp only [RS.first, hb, hfr, hnw, h1, decide_true, if_true, Bool.false_eq_true, if_false]
          dsimp only at hp1
          simp only [hp1, hmo, hb, hfr, hnw, decide_true]
        rw [hs]
        refine ⟨hi.disk, hi.same, cnt_congr hp2 (bset_other (node_ne (Ne.symm hnp))) (fun c hc => bset_other (node_ne (hno c hc))), ?_,
          hsk hi.skip (by simp [isSkip, hfr]), hsk hi.kept (by simp [isKept, hfr, hnw]), hst hi.gone (fun i => by simp [isGone, hfr, hnw]),
          hsk hi.del (by simp [isDel, hg])⟩
        intro o' ho'
        by_cases hoo : o'.1 = o.1
        · have := nodup_fst su.nodupN ho' ho hoo
          subst this
          show (m.set _ _ : Bufs) _ = _
          rw [bset_same, bufNew, if_pos ⟨hfr, hg, hr⟩]
          simp [hnw]
        · show (m.set _ _ : Bufs) _ = _
          rw [bset_other (node_ne hoo), hp3 _ (node_ne (su.newP o' ho')) (node_ne (hon o' ho'))]
          exact (hi.bn o' ho').trans (by rw [bufNew_other hoo])
      · -- an old leaf
        have hb' : (s.bufs.set (.node o.1) { created := false, freed := false, up := some (.node o.2), wait := 0 } : Bufs) (.node o.1) =
            some { created := false, freed := false, up := some (.node o.2), wait := 0 } := bset_same
        obtain ⟨m, ps, hp1, hp2, hp3⟩ := cnt_drop (s := { s with bufs := s.bufs.set (.node o.1) { created := false, freed := false, up := some (.node o.2), wait := 0 }, kept := s.kept ++ [o.1] })
          su hf (cnt_congr hi.cnt (bset_other (node_ne (Ne.symm hnp))) (fun c hc => bset_other (node_ne (hno c hc)))) ho hr hg
          (by show upOf (s.bufs.set _ _) _ = _; rw [upOf, hb'])
        have hmo : m (.node o.1) = some { created := false, freed := false, up := some (.node o.2), wait := 0 } :=
          (hp3 _ (node_ne hnp) (node_ne hnc)).trans hb'
        have hs : s.first e (.node o.1) = { s with kept := s.kept ++ [o.1], pruned := ps, bufs := m.set (.node o.1) { created := false, freed := false, up := none, wait := 0 } } := by
          simp only [RS.first, hb, hfr, hnw, h1, decide_true, decide_false, if_true, Bool.false_eq_true, if_false]
          dsimp only at hp1
          simp only [hp1, hmo]
        rw [hs]
        refine ⟨hi.disk, hi.same, cnt_congr hp2 (bset_other (node_ne (Ne.symm hnp))) (fun c hc => bset_other (node_ne (hno c hc))), ?_,
          hsk hi.skip (by simp [isSkip, hfr]), hst hi.kept (fun i => by simp [isKept, hfr, hnw, hg]), hsk hi.gone (by simp [isGone, hg, hnw]),
          hsk hi.del (by simp [isDel, hg])⟩
        intro o' ho'
        by_cases hoo : o'.1 = o.1
        · have := nodup_fst su.nodupN ho' ho hoo
          subst this
          show (m.set _ _ : Bufs) _ = _
          rw [bset_same, bufNew, if_pos ⟨hfr, hg, hr⟩]
          simp [hnw]
        · show (m.set _ _ : Bufs) _ = _
          rw [bset_other (node_ne hoo), hp3 _ (node_ne (su.newP o' ho')) (node_ne (hon o' ho'))]
          show (s.bufs.set _ _ : Bufs) _ = _
          rw [bset_other (node_ne hoo)]
          exact (hi.bn o' ho').trans (by rw [bufNew_other hoo])
  · -- made, and not merged
    have hnw : o.1 ∈ news := by
      rcases su.kind o ho with h | h
      · exact h
      · exact absurd h hfr
    cases hg : gc e d o.2 with
    | true =>
      have h1 : committed e d (some (.node o.2)) = true := hg
      have hs : s.first e (.node o.1) = { s with pending := s.pending ++ [.node o.2], kept := s.kept ++ [o.1] } := by
        simp [RS.first, hb, hfr, hnw, hi.disk, su.flushed o ho hfr hg, h1]
      rw [hs]
      refine ⟨hi.disk, hi.same, cnt_keep su hi.cnt ho hr hg, hbn _ (fun _ _ _ => rfl) (Or.inl hfr), hsk hi.skip (by simp [isSkip, hg]),
        hst hi.kept (fun i => by simp [isKept, hfr, hg]), hsk hi.gone (by simp [isGone, hfr]), hsk hi.del (by simp [isDel, hfr])⟩
    | false =>
      have h1 : committed e s.d (some (.node o.2)) = false := by rw [hi.disk]; exact hg
      obtain ⟨m, ps, hp1, hp2, hp3⟩ := cnt_drop su hf hi.cnt ho hr hg (hup _ hb)
      have hs : s.first e (.node o.1) = { s with bufs := m, pruned := ps, skipped := s.skipped ++ [.node o.1] } := by
        simp only [RS.first, hb, hfr, hnw, h1, decide_true, decide_false, if_true, Bool.false_eq_true, if_false, Bool.and_false]
        simp only [hp1]
      rw [hs]
      refine ⟨hi.disk, hi.same, hp2, hbn _ hp3 (Or.inl hfr), hst hi.skip (fun i => by simp [isSkip, hfr, hg]),
        hsk hi.kept (by simp [isKept, hfr, hg]), hsk hi.gone (by simp [isGone, hfr]), hsk hi.del (by simp [isDel, hfr])⟩

/-- The first pass. -/
theorem first_all {e : Env} {d : Disk} {p : Id} {own : List (Id × Id)} {olds news frees : List Id} {s0 : RS}
    (su : Setup e d p own olds news frees) (hf : 2 ≤ e.fuel) : ∀ (order : List Ref) (s : RS), order.Nodup →
    (∀ r ∈ order, r = .node p ∨ (∃ c ∈ olds, r = .node c) ∨ ∃ o ∈ own, r = .node o.1) →
    Inv1 e d p own olds news frees s0 order s → Inv1 e d p own olds news frees s0 [] (order.foldl (RS.first e) s)
  | [], s, _, _, hi => hi
  | r :: order, s, hn, hk, hi => by
    rw [List.nodup_cons] at hn
    rw [List.foldl_cons]
    refine first_all su hf order _ hn.2 (fun x hx => hk x (List.mem_cons_of_mem _ hx)) ?_
    have hold : (r = .node p ∨ ∃ c ∈ olds, r = .node c) → ∀ o ∈ own, r ≠ .node o.1 := by
      rintro (rfl | ⟨c, hc, rfl⟩) o ho
      · exact node_ne (Ne.symm (su.newP o ho))
      · exact node_ne (fun e => su.newOld o ho (e ▸ hc))
    rcases hk r List.mem_cons_self with h | h | ⟨o, ho, rfl⟩
    · exact first_old hi (hold (Or.inl h)) (Or.inl h)
    · exact first_old hi (hold (Or.inr h)) (Or.inr h)
    · exact first_new su hf hi ho hn.1

end HS.Index.Recover
