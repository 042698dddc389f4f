import Verif.Index.RecoverFirst
/-!
# C74: recovery after splits and merges of leaves under one node

The second and third passes, the sanity check and the theorems.
-/
namespace HS.Index.Recover

/-! ## The second pass -/

/-- All but the disk and the buffers is as in `s1`. -/
structure SameRest (s1 s : RS) : Prop where
  sb : s.sb = s1.sb
  sbDisk : s.sbDisk = s1.sbDisk
  tree : s.tree = s1.tree
  supply : s.supply = s1.supply
  pending : s.pending = s1.pending
  pruned : s.pruned = s1.pruned
  skipped : s.skipped = s1.skipped
  kept : s.kept = s1.kept
  gone : s.gone = s1.gone
  del : s.del = s1.del

/-- What becomes of the parent when all below it is done. -/
def stepP (e : Env) (s : RS) (p : Id) : RS :=
  if committed e s.d (some (.node p)) then (if upOf s.bufs (.node p) = some .super then s.repairRoot e (.node p) else s)
  else s.repair e (.node p)

structure Inv2 (e : Env) (d : Disk) (p : Id) (olds : List Id) (s1 : RS) (rest : List Ref) (s : RS) : Prop where
  disk : s.d = d
  same : SameRest s1 s
  bp : s.bufs (.node p) = some { created := false, freed := false, up := none, wait := (olds.countP (fun c => gc e d c && decide (Ref.node c ∈ rest)) : Int) }
  bc : ∀ c ∈ olds, gc e d c = true → s.bufs (.node c) = some { created := false, freed := false, up := some (.node p), wait := (rest.count (.node c) : Int) }
  bo : ∀ c ∈ olds, gc e d c = false → upOf s.bufs (.node c) = none
  only : ∀ r ∈ rest, ∃ c ∈ olds, gc e d c = true ∧ r = .node c
  bx : ∀ i, i ≠ p → i ∉ olds → s.bufs (.node i) = s1.bufs (.node i)

structure Done (e : Env) (d d2 : Disk) (p : Id) (olds : List Id) (s1 s : RS) : Prop where
  disk : s.d = d2
  same : SameRest s1 s
  bo : ∀ c ∈ olds, gc e d c = false → upOf s.bufs (.node c) = none
  bp : upOf s.bufs (.node p) = none
  bx : ∀ i, i ≠ p → i ∉ olds → s.bufs (.node i) = s1.bufs (.node i)

theorem upOf_set_other {m : Bufs} {r x : Ref} {b : Buf} (h : x ≠ r) : upOf (m.set r b) x = upOf m x := by
  rw [upOf, upOf, bset_other h]

theorem second_step {e : Env} {d d2 : Disk} {p : Id} {olds : List Id} {s1 s : RS} {r : Ref} {rest : List Ref}
    (hno : olds.Nodup) (hpo : p ∉ olds) (hf : 2 ≤ e.fuel)
    (hstep : ∀ s : RS, s.d = d → SameRest s1 s → upOf s.bufs (.node p) = none → stepP e s p = { s with d := d2 })
    (hi : Inv2 e d p olds s1 (r :: rest) s) :
    (rest ≠ [] ∧ Inv2 e d p olds s1 rest (s.recoverBuf e e.fuel r)) ∨
    (rest = [] ∧ Done e d d2 p olds s1 (s.recoverBuf e e.fuel r)) := by
  obtain ⟨f, hf⟩ : ∃ f, e.fuel = f + 2 := ⟨e.fuel - 2, by omega⟩
  obtain ⟨c, hc, hg, rfl⟩ := hi.only r List.mem_cons_self
  have hcp : c ≠ p := fun e => hpo (e ▸ hc)
  have hbc := hi.bc c hc hg
  rw [List.count_cons_self] at hbc
  have hw : ((rest.count (Ref.node c) + 1 : Nat) : Int) + -1 = rest.count (Ref.node c) := by omega
  have hbc' : s.bufs.addWait (.node c) (-1) = s.bufs.set (.node c) { created := false, freed := false, up := some (.node p), wait := (rest.count (Ref.node c) : Int) } := by
    rw [addWait_some hbc]; simp only [hw]
  have honly : ∀ r ∈ rest, ∃ c ∈ olds, gc e d c = true ∧ r = .node c := fun r hr => hi.only r (List.mem_cons_of_mem _ hr)
  have hbcs : ∀ (m : Bufs), (∀ c' ∈ olds, c' ≠ c → m (.node c') = s.bufs (.node c')) →
      m (.node c) = some { created := false, freed := false, up := some (.node p), wait := (rest.count (Ref.node c) : Int) } →
      ∀ c' ∈ olds, gc e d c' = true → m (.node c') = some { created := false, freed := false, up := some (.node p), wait := (rest.count (.node c') : Int) } := by
    intro m h1 h2 c' hc' hg'
    by_cases he : c' = c
    · rw [he]; exact h2
    · rw [h1 c' hc' he, hi.bc c' hc' hg', List.count_cons_of_ne (node_ne (Ne.symm he))]
  rw [hf, RS.recoverBuf, hbc']
  have hwc : waitOf (s.bufs.set (.node c) { created := false, freed := false, up := some (.node p), wait := (rest.count (Ref.node c) : Int) }) (.node c) = rest.count (Ref.node c) := by
    rw [waitOf, bset_same]
  simp only [hwc]
  by_cases hz : rest.count (Ref.node c) = 0
  · have hnot : Ref.node c ∉ rest := List.count_eq_zero.1 hz
    rw [if_neg (by simp [hz])]
    have hcm : committed e s.d (some (.node c)) = true := by rw [hi.disk]; exact hg
    have hupc : upOf (s.bufs.set (.node c) { created := false, freed := false, up := some (.node p), wait := (rest.count (Ref.node c) : Int) }) (.node c) = some (.node p) := by
      rw [upOf, bset_same]
    simp only [hcm, if_true, hupc, Option.some.injEq, reduceCtorEq, if_false]
    rw [RS.recoverBuf]
    have hcount : olds.countP (fun c' => gc e d c' && decide (Ref.node c' ∈ Ref.node c :: rest)) =
        olds.countP (fun c' => gc e d c' && decide (Ref.node c' ∈ rest)) + 1 := by
      refine countP_one hno hc (by simp [hg]) (by simp [hnot]) ?_
      intro b _ hb
      simp [hb]
    have hbp := hi.bp
    rw [hcount] at hbp
    have hm : (s.bufs.set (.node c) { created := false, freed := false, up := some (.node p), wait := (rest.count (Ref.node c) : Int) }) (.node p) =
        some { created := false, freed := false, up := none, wait := ((olds.countP (fun c' => gc e d c' && decide (Ref.node c' ∈ rest)) + 1 : Nat) : Int) } := by
      rw [bset_other (node_ne (Ne.symm hcp)), hbp]
    have hw2 : ((olds.countP (fun c' => gc e d c' && decide (Ref.node c' ∈ rest)) + 1 : Nat) : Int) + -1 = olds.countP (fun c' => gc e d c' && decide (Ref.node c' ∈ rest)) := by omega
    simp only [addWait_some hm, hw2]
    have hwp : ∀ (m : Bufs) (w : Int), waitOf (m.set (.node p) { created := false, freed := false, up := none, wait := w }) (.node p) = w := by
      intro m w; rw [waitOf, bset_same]
    simp only [hwp]
    have hb1 : ∀ (w : Int), ∀ c' ∈ olds, c' ≠ c → (((s.bufs.set (.node c) { created := false, freed := false, up := some (.node p), wait := (rest.count (Ref.node c) : Int) }).set (.node p) { created := false, freed := false, up := none, wait := w } : Bufs)) (.node c') = s.bufs (.node c') := by
      intro w c' hc' hne
      have h2 : c' ≠ p := fun e => hpo (e ▸ hc')
      rw [bset_other (node_ne h2), bset_other (node_ne hne)]
    have hb2 : ∀ (w : Int), (((s.bufs.set (.node c) { created := false, freed := false, up := some (.node p), wait := (rest.count (Ref.node c) : Int) }).set (.node p) { created := false, freed := false, up := none, wait := w } : Bufs)) (.node c) = some { created := false, freed := false, up := some (.node p), wait := (rest.count (Ref.node c) : Int) } := by
      intro w
      rw [bset_other (node_ne hcp), bset_same]
    have hbo : ∀ (w : Int), ∀ c' ∈ olds, gc e d c' = false → upOf (((s.bufs.set (.node c) { created := false, freed := false, up := some (.node p), wait := (rest.count (Ref.node c) : Int) }).set (.node p) { created := false, freed := false, up := none, wait := w } : Bufs)) (.node c') = none := by
      intro w c' hc' hg'
      have hne : c' ≠ c := fun e => by rw [e, hg] at hg'; cases hg'
      rw [upOf, hb1 w c' hc' hne]
      exact hi.bo c' hc' hg'
    have hbx : ∀ (w : Int), ∀ i, i ≠ p → i ∉ olds → (((s.bufs.set (.node c) { created := false, freed := false, up := some (.node p), wait := (rest.count (Ref.node c) : Int) }).set (.node p) { created := false, freed := false, up := none, wait := w } : Bufs)) (.node i) = s1.bufs (.node i) := by
      intro w i h1 h2
      have h3 : i ≠ c := fun e => h2 (e ▸ hc)
      rw [bset_other (node_ne h1), bset_other (node_ne h3)]
      exact hi.bx i h1 h2
    cases rest with
    | cons r2 rest2 =>
      left
      refine ⟨by simp, ?_⟩
      have hpos : 0 < olds.countP (fun c' => gc e d c' && decide (Ref.node c' ∈ r2 :: rest2)) := by
        rw [List.countP_pos_iff]
        obtain ⟨c2, h1, h2, h3⟩ := honly r2 List.mem_cons_self
        exact ⟨c2, h1, by simp [h2, h3]⟩
      rw [if_pos (by omega)]
      exact ⟨hi.disk, ⟨hi.same.1, hi.same.2, hi.same.3, hi.same.4, hi.same.5, hi.same.6, hi.same.7, hi.same.8, hi.same.9, hi.same.10⟩, bset_same,
        hbcs _ (hb1 _) (hb2 _), hbo _, honly, hbx _⟩
    | nil =>
      right
      refine ⟨rfl, ?_⟩
      have hzero : olds.countP (fun c' => gc e d c' && decide (Ref.node c' ∈ ([] : List Ref))) = 0 := by
        rw [List.countP_eq_zero]; intro b _; simp
      rw [if_neg (by simp [hzero])]
      have hst := hstep { s with bufs := ((s.bufs.set (.node c) { created := false, freed := false, up := some (.node p), wait := (([] : List Ref).count (Ref.node c) : Int) }).set (.node p) { created := false, freed := false, up := none, wait := (olds.countP (fun c' => gc e d c' && decide (Ref.node c' ∈ ([] : List Ref))) : Int) }) }
        hi.disk ⟨hi.same.1, hi.same.2, hi.same.3, hi.same.4, hi.same.5, hi.same.6, hi.same.7, hi.same.8, hi.same.9, hi.same.10⟩ (by simp only [upOf, bset_same])
      simp only [stepP] at hst
      rw [hst]
      have hup : upOf ((s.bufs.set (.node c) { created := false, freed := false, up := some (.node p), wait := (([] : List Ref).count (Ref.node c) : Int) }).set (.node p) { created := false, freed := false, up := none, wait := (olds.countP (fun c' => gc e d c' && decide (Ref.node c' ∈ ([] : List Ref))) : Int) }) (.node p) = none := by
        rw [upOf, bset_same]
      simp only [hup]
      exact ⟨rfl, ⟨hi.same.1, hi.same.2, hi.same.3, hi.same.4, hi.same.5, hi.same.6, hi.same.7, hi.same.8, hi.same.9, hi.same.10⟩, hbo _, hup, hbx _⟩
  · left
    have hin : Ref.node c ∈ rest := by
      rcases Nat.eq_zero_or_pos (rest.count (Ref.node c)) with h | h
      · exact absurd h hz
      · exact List.count_pos_iff.1 h
    refine ⟨fun e => (by rw [e] at hin; cases hin), ?_⟩
    rw [if_pos (by omega)]
    have hcnt : olds.countP (fun c' => gc e d c' && decide (Ref.node c' ∈ Ref.node c :: rest)) =
        olds.countP (fun c' => gc e d c' && decide (Ref.node c' ∈ rest)) := by
      refine List.countP_congr ?_
      intro b _
      by_cases hb : b = c
      · subst hb; simp [hin]
      · simp [hb]
    refine ⟨hi.disk, ⟨hi.same.1, hi.same.2, hi.same.3, hi.same.4, hi.same.5, hi.same.6, hi.same.7, hi.same.8, hi.same.9, hi.same.10⟩, ?_, ?_, ?_, honly, ?_⟩
    · show (s.bufs.set (.node c) _ : Bufs) (.node p) = _
      rw [bset_other (node_ne (Ne.symm hcp)), hi.bp, hcnt]
    · refine hbcs _ ?_ bset_same
      intro c' _ hne
      exact bset_other (node_ne hne)
    · intro c' hc' hg'
      have hne : c' ≠ c := fun e => by rw [e, hg] at hg'; cases hg'
      show upOf (s.bufs.set (.node c) _ : Bufs) (.node c') = none
      rw [upOf_set_other (node_ne hne)]
      exact hi.bo c' hc' hg'
    · intro i h1 h2
      have h3 : i ≠ c := fun e => h2 (e ▸ hc)
      show (s.bufs.set (.node c) _ : Bufs) (.node i) = _
      rw [bset_other (node_ne h3)]
      exact hi.bx i h1 h2

theorem second_all {e : Env} {d d2 : Disk} {p : Id} {olds : List Id} {s1 : RS}
    (hno : olds.Nodup) (hpo : p ∉ olds) (hf : 2 ≤ e.fuel)
    (hstep : ∀ s : RS, s.d = d → SameRest s1 s → upOf s.bufs (.node p) = none → stepP e s p = { s with d := d2 }) :
    ∀ (rest : List Ref) (s : RS), rest ≠ [] → Inv2 e d p olds s1 rest s →
      Done e d d2 p olds s1 (rest.foldl (RS.recoverBuf e e.fuel) s)
  | [], _, h, _ => absurd rfl h
  | r :: rest, s, _, hi => by
    rw [List.foldl_cons]
    rcases second_step hno hpo hf hstep hi with ⟨h1, h2⟩ | ⟨h1, h2⟩
    · exact second_all hno hpo hf hstep rest _ h1 h2
    · rw [h1]; exact h2

/-! ## The third pass -/

/-- Leaves among the buffers kept for the third pass: nothing is done. -/
theorem repair_leaf {e : Env} {s : RS} {c : Id} {cn : Node} (h : s.d c = some cn) (hl : cn.leaf = true)
    (hu : upOf s.bufs (.node c) = none) : s.repair e (.node c) = s := by
  simp [RS.repair, h, hl, hu]

theorem third_leaves {e : Env} {s : RS} : ∀ (l : List Ref),
    (∀ r ∈ l, ∃ c cn, r = .node c ∧ s.d c = some cn ∧ cn.leaf = true ∧ upOf s.bufs (.node c) = none) →
    l.foldl (RS.repair e) s = s
  | [], _ => rfl
  | r :: l, h => by
    obtain ⟨c, cn, rfl, h1, h2, h3⟩ := h r List.mem_cons_self
    rw [List.foldl_cons, repair_leaf h1 h2 h3]
    exact third_leaves l (fun r hr => h r (List.mem_cons_of_mem _ hr))

theorem third_parent {e : Env} {d2 : Disk} {p : Id} {s : RS} (hrep : s.repair e (.node p) = { s with d := d2 }) :
    ∀ (l : List Ref), l.count (.node p) = 1 →
    (∀ r ∈ l, r = .node p ∨ ∃ c cn, r = .node c ∧ s.d c = some cn ∧ d2 c = some cn ∧ cn.leaf = true ∧ upOf s.bufs (.node c) = none) →
    l.foldl (RS.repair e) s = { s with d := d2 }
  | [], hc, _ => by simp at hc
  | r :: l, hc, h => by
    rw [List.foldl_cons]
    by_cases hr : r = .node p
    · subst hr
      rw [hrep]
      rw [List.count_cons_self] at hc
      refine third_leaves l ?_
      intro r hr
      rcases h r (List.mem_cons_of_mem _ hr) with e | ⟨c, cn, h1, _, h3, h4, h5⟩
      · have := List.count_pos_iff.2 hr
        rw [e] at this
        omega
      · exact ⟨c, cn, h1, h3, h4, h5⟩
    · rcases h r List.mem_cons_self with e | ⟨c, cn, h1, h2, _, h4, h5⟩
      · exact absurd e hr
      · subst h1
        rw [repair_leaf h2 h4 h5]
        rw [List.count_cons_of_ne hr] at hc
        exact third_parent hrep l hc (fun r hr => h r (List.mem_cons_of_mem _ hr))

/-! ## All passes -/

/-- All the passes, and the sanity check. -/
theorem recover_passes {e : Env} {d d2 : Disk} {p : Id} {own : List (Id × Id)} {olds news frees : List Id} {recs : List Rec}
    {order : List Ref} {root : Id} {supply : List Id} {del1 : Id → Bool}
    (su : Setup e d p own olds news frees) (hne : olds ≠ []) (hf : 2 ≤ e.fuel)
    (hsh : Shape p own olds news frees (recs.foldl Bufs.process (fun _ => none)))
    (hnd : order.Nodup)
    (hord : ∀ r ∈ order, r = .node p ∨ (∃ c ∈ olds, r = .node c) ∨ ∃ o ∈ own, r = .node o.1)
    (hall : ∀ o ∈ own, Ref.node o.1 ∈ order)
    (hleaf : ∀ c ∈ olds, ∃ cn, d c = some cn ∧ d2 c = some cn ∧ cn.leaf = true)
    (hdel : ∀ i, del1 i = true ↔ e.del i = true ∨ ∃ o ∈ own, o.1 = i ∧ isDel e d frees o = true)
    (hstep : ∀ s : RS, s.d = d → s.del = del1 → s.sb = root → s.supply = supply → upOf s.bufs (.node p) = none →
      stepP e s p = { s with d := d2 })
    (hpc : gc e d p = true → ∃ c ∈ olds, gc e d c = true)
    (hvalid : ∀ c ∈ olds, gc e d c = true → validNode d2 p = true ∧ (∀ c ∈ olds, validNode d2 c = true) ∧
      ∀ o ∈ own, isKept e d news frees o = true → validNode d2 o.1 = true) :
    ∃ s, recover e recs order d root supply = some s ∧ s.d = d2 ∧ s.sb = root ∧ s.sbDisk = root ∧ s.tree = root ∧
      s.supply = supply ∧ (∀ i, i ∈ s.kept ↔ ∃ o ∈ own, o.1 = i ∧ isKept e d news frees o = true) ∧
      (∀ i, i ∈ s.gone ↔ ∃ o ∈ own, o.1 = i ∧ isGone e d news frees o = true) := by
  have hlive0 : ∀ c ∈ olds, live e d own order c = true := by
    intro c hc
    obtain ⟨o, ho, rfl⟩ := su.oldOwn c hc
    have := rem_pos ho (hall o ho)
    simp [live, this]
  have hc0 : olds.countP (live e d own order) = olds.length := List.countP_eq_length.2 hlive0
  have hlen : olds.length ≠ 0 := fun h => hne (List.length_eq_zero_iff.1 h)
  -- the first pass
  have hbase : ∀ {K : Id × Id → Bool} {base mem : Id → Prop}, (∀ i, mem i ↔ base i) → Acc own K order base mem := by
    intro K base mem h i
    rw [h i]
    constructor
    · exact Or.inl
    · rintro (h | ⟨o, ho, rfl, _, hn⟩)
      · exact h
      · exact absurd (hall o ho) hn
  have hi0 : Inv1 e d p own olds news frees
      { d, del := e.del, bufs := recs.foldl Bufs.process (fun _ => none), sb := root, sbDisk := root, sbDirty := false, tree := root, supply, pending := [], pruned := [], skipped := [], kept := [], gone := [] }
      order
      { d, del := e.del, bufs := recs.foldl Bufs.process (fun _ => none), sb := root, sbDisk := root, sbDirty := false, tree := root, supply, pending := [], pruned := [], skipped := [], kept := [], gone := [] } := by
    refine ⟨rfl, ⟨rfl, rfl, rfl, rfl⟩, ⟨?_, ?_, ?_, ?_, ?_, ?_⟩, ?_, hbase (by simp), hbase (by simp), hbase (by simp), hbase (fun _ => Iff.rfl)⟩
    · show (recs.foldl Bufs.process (fun _ => none)) (.node p) = _
      rw [hsh.mp, if_neg hne, hc0]
    · intro c hc
      show (recs.foldl Bufs.process (fun _ => none)) (.node c) = _
      rw [hsh.mc c hc, hlive0 c hc, rem_all hall]
      simp [full]
    · intro c hc hg
      rw [rem_all hall]; simp
    · intro r hr; cases hr
    · intro r hr; cases hr
    · rw [hc0, if_neg hlen]; rfl
    · intro o ho
      refine (hsh.mn o ho).trans ?_
      rw [bufNew, if_neg]
      intro h
      exact h.2.2 (hall o ho)
  have h1 := first_all su hf order _ hnd hord hi0
  simp only [recover, shape_read (order := order) hsh (by omega : 0 < e.fuel)]
  generalize order.foldl (RS.first e) _ = s1 at h1 ⊢
  obtain ⟨hsb, hsbd, htree, hsup⟩ := h1.same
  have hkept : ∀ i, i ∈ s1.kept ↔ ∃ o ∈ own, o.1 = i ∧ isKept e d news frees o = true := by
    intro i; exact (h1.kept i).trans (by simp)
  have hgone : ∀ i, i ∈ s1.gone ↔ ∃ o ∈ own, o.1 = i ∧ isGone e d news frees o = true := by
    intro i; exact (h1.gone i).trans (by simp)
  have hdel1 : s1.del = del1 := by
    funext i
    rw [Bool.eq_iff_iff, hdel i]
    exact (h1.del i).trans (by simp)
  have hlive1 : ∀ c, live e d own [] c = gc e d c := by intro c; simp [live, rem_nil]
  have hpend : ∀ c ∈ olds, gc e d c = true → Ref.node c ∈ s1.pending := by
    intro c hc hg
    have := h1.cnt.pend c hc hg
    rw [rem_nil] at this
    refine List.count_pos_iff.1 ?_
    obtain ⟨o, ho, rfl⟩ := su.oldOwn c hc
    have : 0 < full own o.2 := by
      rw [full, List.countP_pos_iff]; exact ⟨o, ho, by simp⟩
    omega
  have hstep1 : ∀ s : RS, s.d = d → SameRest s1 s → upOf s.bufs (.node p) = none → stepP e s p = { s with d := d2 } := by
    intro s hd hs hu
    exact hstep s hd (by rw [hs.del, hdel1]) (by rw [hs.sb, hsb]) (by rw [hs.supply, hsup]) hu
  have hbo1 : ∀ c ∈ olds, gc e d c = false → upOf s1.bufs (.node c) = none := by
    intro c hc hg
    rw [upOf, h1.cnt.bc c hc, hlive1, hg]; rfl
  have hfinal : ∃ s3, (s1.pending.foldl (RS.recoverBuf e e.fuel) s1).pruned.foldl (RS.repair e)
      (s1.pending.foldl (RS.recoverBuf e e.fuel) s1) = s3 ∧ s3.d = d2 ∧ SameRest s1 s3 ∧
      ∀ i, i ≠ p → i ∉ olds → s3.bufs (.node i) = s1.bufs (.node i) := by
    by_cases hpe : s1.pending = []
    · -- no old leaf was written
      rw [hpe, List.foldl_nil]
      have hno : ∀ c ∈ olds, gc e d c = false := by
        intro c hc
        cases hg : gc e d c with
        | false => rfl
        | true => have := hpend c hc hg; rw [hpe] at this; cases this
      have hz : olds.countP (live e d own []) = 0 := by
        rw [List.countP_eq_zero]
        intro c hc
        rw [hlive1, hno c hc]; simp
      have hgp : gc e d p = false := by
        cases hg : gc e d p with
        | false => rfl
        | true =>
          obtain ⟨c, hc, h⟩ := hpc hg
          rw [hno c hc] at h; cases h
      have hup : upOf s1.bufs (.node p) = none := by rw [upOf, h1.cnt.bp]
      have hcnt := h1.cnt.prunP
      rw [if_pos hz] at hcnt
      have hst := hstep1 s1 h1.disk ⟨rfl, rfl, rfl, rfl, rfl, rfl, rfl, rfl, rfl, rfl⟩ hup
      rw [stepP, h1.disk] at hst
      have hgp' : committed e d (some (.node p)) = false := hgp
      rw [hgp', if_neg (by simp)] at hst
      refine ⟨_, third_parent hst _ hcnt ?_, rfl, ⟨rfl, rfl, rfl, rfl, rfl, rfl, rfl, rfl, rfl, rfl⟩, fun _ _ _ => rfl⟩
      intro r hr
      rcases h1.cnt.prunOnly r hr with h | ⟨c, hc, hg, _, h⟩
      · exact Or.inl h
      · obtain ⟨cn, h2, h3, h4⟩ := hleaf c hc
        exact Or.inr ⟨c, cn, h, by rw [h1.disk]; exact h2, h3, h4, hbo1 c hc hg⟩
    · have hi2 : Inv2 e d p olds s1 s1.pending s1 := by
        refine ⟨h1.disk, ⟨rfl, rfl, rfl, rfl, rfl, rfl, rfl, rfl, rfl, rfl⟩, ?_, ?_, hbo1, h1.cnt.pendOnly, fun _ _ _ => rfl⟩
        · rw [h1.cnt.bp]
          congr 3
          refine List.countP_congr ?_
          intro c hc
          rw [hlive1]
          cases hg : gc e d c with
          | false => simp
          | true => simp [hpend c hc hg]
        · intro c hc hg
          have := h1.cnt.pend c hc hg
          rw [rem_nil] at this
          rw [h1.cnt.bc c hc, hlive1, hg]
          simp only [if_true]
          congr 3
          omega
      have hd := second_all su.nodupO su.oldP hf hstep1 s1.pending s1 hpe hi2
      generalize s1.pending.foldl (RS.recoverBuf e e.fuel) s1 = s2 at hd ⊢
      refine ⟨_, third_leaves s2.pruned ?_, hd.disk, hd.same, hd.bx⟩
      intro r hr
      rw [hd.same.pruned] at hr
      rcases h1.cnt.prunOnly r hr with h | ⟨c, hc, hg, _, h⟩
      · exfalso
        rw [h] at hr
        have h2 := List.count_pos_iff.2 hr
        have h3 := h1.cnt.prunP
        have h4 : 0 < olds.countP (live e d own []) := by
          cases hp : s1.pending with
          | nil => exact absurd hp hpe
          | cons r2 l =>
            obtain ⟨c, hc, hg, -⟩ := h1.cnt.pendOnly r2 (by rw [hp]; exact List.mem_cons_self)
            rw [List.countP_pos_iff]
            exact ⟨c, hc, by rw [hlive1]; exact hg⟩
        rw [if_neg (by omega)] at h3
        omega
      · obtain ⟨cn, h2, h3, h4⟩ := hleaf c hc
        exact ⟨c, cn, h, by rw [hd.disk]; exact h3, h4, hd.bo c hc hg⟩
  obtain ⟨s3, h3, hd3, hs3, hb3⟩ := hfinal
  rw [h3]
  refine ⟨s3, ?_, hd3, by rw [hs3.sb, hsb], by rw [hs3.sbDisk, hsbd], by rw [hs3.tree, htree], by rw [hs3.supply, hsup], by rw [hs3.kept]; exact hkept, by rw [hs3.gone]; exact hgone⟩
  simp only [RS.sanity]
  split
  · rfl
  · rename_i hpe
    rw [if_pos]
    rw [List.all_eq_true]
    obtain ⟨c0, hc0, hg0⟩ : ∃ c ∈ olds, gc e d c = true := by
      cases hp : s3.pending with
      | nil => rw [hp] at hpe; simp at hpe
      | cons r2 l =>
        obtain ⟨c, hc, hg, -⟩ := h1.cnt.pendOnly r2 (by rw [← hs3.pending, hp]; exact List.mem_cons_self)
        exact ⟨c, hc, hg⟩
    obtain ⟨hv1, hv2, hv3⟩ := hvalid c0 hc0 hg0
    intro r hr
    rcases hord r hr with rfl | ⟨c, hc, rfl⟩ | ⟨o, ho, rfl⟩
    · simp [hd3, hv1]
    · simp [hd3, hv2 c hc]
    · cases hk : isKept e d news frees o with
      | true => simp [hd3, hv3 o ho hk]
      | false =>
        have hb : freedOf s3.bufs (.node o.1) = (bufNew e d news frees [] o).freed := by
          rw [freedOf, hb3 o.1 (su.newP o ho) (su.newOld o ho), h1.bn o ho]
        by_cases hfr : o.1 ∈ frees
        · have : freedOf s3.bufs (.node o.1) = true := by
            rw [hb, bufNew]
            simp only [isKept, hfr, if_true] at hk
            cases hg : gc e d o.2 with
            | true => simp [hfr]
            | false => simpa [hfr, hg] using hk
          simp [this]
        · simp only [isKept, hfr, if_false] at hk
          have : Ref.node o.1 ∈ s1.skipped := (h1.skip o.1).2 (Or.inr ⟨o, ho, rfl, by simp [isSkip, hfr, hk], by simp⟩)
          rw [← hs3.skipped] at this
          simp [this]

/-! ## C74 -/

/-- A crash in a checkpoint in which leaves under `p` were split and merged (`cs`, in the order of the journal; nodes `used`
were in use before).  `order` is the order in which recovery finds the buffers. -/
structure Logged (p : Id) (used : List Id) (cs : List Chg) (order : List Ref) : Prop where
  nonempty : cs ≠ []
  changes : Changes p used [] [] cs
  inUse : p ∈ used
  once : order.Nodup
  all : ∀ r, r ∈ order ↔ r = .node p ∨ ∃ o ∈ origins [] cs, r = .node o.1 ∨ r = .node o.2

/-- The leaf is on disk as of the checkpoint that recovery is for. -/
def written (e : Env) (d : Disk) (i : Id) : Bool := match d i with | some n => n.cp == e.cp | none => false

/-- The nodes that are deleted: those deleted before, and the leaves merged into leaves that were written. -/
def deletedAt (e : Env) (d : Disk) (cs : List Chg) (i : Id) : Bool :=
  e.del i || (origins [] cs).any (fun o => o.1 == i && (freedBy cs).contains i && written e d o.2)

/-- `p` was not written; `leaves` are the leaves on disk.  Of those changed some are as before the checkpoint: then what was
made from them may be on disk or not, and is not in `leaves`, and what was merged into them is in `leaves` (`left`).  Some
are as changed: then what was made from them is on disk, and in `leaves` (`flushed`; see C67 and C68), and what was merged
into them is not in `leaves` (by `tree`, as it is deleted). -/
structure ParentOld (e : Env) (d : Disk) (p : Id) (pn : Node) (leaves : List (Id × Node)) (cs : List Chg) : Prop where
  parent : d p = some pn
  old : pn.cp ≠ e.cp
  tree : SplitLeaves e.cap d (deletedAt e d cs) p pn leaves
  leaf : ∀ o ∈ origins [] cs, o.2 ∈ leaves.map (·.1)
  flushed : ∀ o ∈ origins [] cs, o.1 ∉ freedBy cs → written e d o.2 = true → ∃ nn, (o.1, nn) ∈ leaves ∧ nn.cp = e.cp
  left : ∀ o ∈ origins [] cs, o.1 ∈ freedBy cs → o.1 ∉ madeBy cs → written e d o.2 = false → o.1 ∈ leaves.map (·.1)

theorem splitLeaves_mem {cap : Nat} {d : Disk} {del : Id → Bool} {p : Id} {pn : Node} {leaves : List (Id × Node)}
    (h : SplitLeaves cap d del p pn leaves) : ∀ x ∈ leaves, d x.1 = some x.2 ∧ x.2.leaf = true ∧ x.1 ≠ p := by
  cases h with
  | edge gs ee init last splits edge linked alive distinct fits full fullEdge lvs level =>
    intro x hx
    refine ⟨linked_mem linked x hx, (lvs x hx).1, ?_⟩
    rw [List.append_assoc] at hx
    rcases List.mem_append.1 hx with hx | hx
    · exact splits.notSelf x hx
    · exact edge.notSelf x hx
  | inner gs after splits inner linked alive distinct fits full hdp nself lvs level =>
    intro x hx
    exact ⟨linked_mem linked x hx, (lvs x (List.mem_append_left _ hx)).1, splits.notSelf x hx⟩

theorem splitLeaves_alive {cap : Nat} {d : Disk} {del : Id → Bool} {p : Id} {pn : Node} {leaves : List (Id × Node)}
    (h : SplitLeaves cap d del p pn leaves) : ∀ x ∈ leaves, del x.1 = false := by
  cases h with
  | edge gs ee init last splits edge linked alive => exact alive
  | inner gs after splits inner linked alive => exact alive

theorem splitLeaves_interior {cap : Nat} {d : Disk} {del : Id → Bool} {p : Id} {pn : Node} {leaves : List (Id × Node)}
    (h : SplitLeaves cap d del p pn leaves) : pn.leaf = false := by
  cases h with
  | edge gs ee init last splits => exact splits.interior
  | inner gs after splits => exact splits.interior

theorem shape_logged {p : Id} {used : List Id} {cs : List Chg} {order : List Ref} (hj : Logged p used cs order) :
    ∃ olds news frees, Shape p (origins [] cs) olds news frees ((journal p [] cs).foldl Bufs.process (fun _ => none)) ∧
      (∀ c ∈ olds, ∃ o ∈ origins [] cs, o.2 = c) ∧ olds ≠ [] ∧
      (∀ i, i ∈ news ↔ i ∈ madeBy cs) ∧ (∀ i, i ∈ frees ↔ i ∈ freedBy cs) := by
  obtain ⟨olds, news, frees, h1, h2, h3, h4⟩ := shape_journal cs [] [] [] [] used [] _ (shape_empty p) (fun _ h => by cases h) hj.changes
    hj.inUse (fun _ h => by cases h) (fun _ h => by cases h) (fun _ => Iff.rfl)
  have h3' : ∀ i, i ∈ news ↔ i ∈ madeBy cs := fun i => by rw [h3 i]; simp
  have h4' : ∀ i, i ∈ frees ↔ i ∈ freedBy cs := fun i => by rw [h4 i]; simp
  refine ⟨olds, news, frees, h1, h2, ?_, h3', h4'⟩
  obtain ⟨c, l, hcl⟩ : ∃ c l, cs = c :: l := by
    cases h : cs with
    | nil => exact absurd h hj.nonempty
    | cons c l => exact ⟨c, l, rfl⟩
  have hch := hj.changes
  rw [hcl] at hch
  obtain ⟨y, hy⟩ := List.exists_mem_of_ne_nil _ hch.2.1
  have hown : y ∈ (origins [] cs).map (·.1) := by
    rcases List.mem_append.1 hy with h | h
    · exact h1.news_ y ((h3' y).2 (by rw [hcl]; simp [madeBy, h]))
    · exact h1.frees_ y ((h4' y).2 (by rw [hcl]; simp [freedBy, h]))
  obtain ⟨o, ho, -⟩ := List.mem_map.1 hown
  have := h1.ownOld o ho
  intro e
  rw [e] at this
  cases this

/-- **C74**.  Recovery from a crash in a checkpoint in which leaves under one node were split and merged, when that node was
not written.  The process starts, the index has the same root, nothing on disk has changed but that node, every key on
disk in the leaves is found through it and no other.  Of the blocks of the leaves made and merged, those that stay in use
are of the leaves made, and not merged, from leaves that were written, and of the old leaves merged into leaves that were
not; all of them are in the tree.  Those freed are of the leaves merged into leaves that were written, and of
the leaves made and merged in the same checkpoint. -/
theorem C74_recover_partial {e : Env} {d : Disk} {p : Id} {pn : Node} {leaves : List (Id × Node)} {used : List Id}
    {cs : List Chg} {order : List Ref} {root : Id} {supply : List Id}
    (hj : Logged p used cs order) (hc : ParentOld e d p pn leaves cs) (hf : leaves.length + 1 < e.fuel) :
    ∃ s, recover e (journal p [] cs) order d root supply = some s ∧ LeadsTo d s.d p pn leaves ∧
      s.sb = root ∧ s.sbDisk = root ∧ s.tree = root ∧ s.supply = supply ∧
      (∀ i, i ∈ s.kept ↔ ∃ o ∈ origins [] cs, o.1 = i ∧
        ((i ∉ freedBy cs ∧ written e d o.2 = true) ∨ (i ∈ freedBy cs ∧ i ∉ madeBy cs ∧ written e d o.2 = false))) ∧
      (∀ i ∈ s.kept, i ∈ leaves.map (·.1)) ∧
      (∀ i, i ∈ s.gone ↔ ∃ o ∈ origins [] cs, o.1 = i ∧ i ∈ freedBy cs ∧ (written e d o.2 = true ∨ i ∈ madeBy cs)) := by
  obtain ⟨olds, news, frees, hsh, hoo, hone, hnews, hfrees⟩ := shape_logged hj
  have hmem := splitLeaves_mem hc.tree
  have hleaf : ∀ c ∈ olds, ∃ cn, (c, cn) ∈ leaves := by
    intro c hc'
    obtain ⟨o, ho, rfl⟩ := hoo c hc'
    obtain ⟨x, hx, e⟩ := List.mem_map.1 (hc.leaf o ho)
    exact ⟨x.2, by rw [← e]; exact hx⟩
  have hgw : ∀ c, gc e d c = written e d c := fun _ => rfl
  have hgc : ∀ c cn, d c = some cn → (gc e d c = true ↔ cn.cp = e.cp) := by
    intro c cn h
    simp [gc, committed, h]
  have su : Setup e d p (origins [] cs) olds news frees := by
    refine ⟨hsh.nodupN, hsh.nodupO, hsh.ownOld, hoo, hsh.newOld, hsh.newP, hsh.oldP, hsh.kind, ?_⟩
    intro o ho hnf hg
    obtain ⟨nn, h1, h2⟩ := hc.flushed o ho (fun h => hnf ((hfrees _).2 h)) hg
    exact (hgc _ _ (hmem _ h1).1).2 h2
  obtain ⟨r, hr1, hr2, hr3, hr4, hr5, hr6⟩ := repair_all (cp := e.cp) (isRoot := root == p) (supply := supply) hc.tree hf
  have hgp : gc e d p = false := by
    have := hgc p pn hc.parent
    cases hg : gc e d p with
    | false => rfl
    | true => exact absurd (this.1 hg) hc.old
  have hlen : 1 ≤ leaves.length := by
    obtain ⟨c, hc'⟩ := List.exists_mem_of_ne_nil _ hone
    obtain ⟨cn, h⟩ := hleaf c hc'
    exact List.length_pos_of_mem h
  have hkeep : ∀ o ∈ origins [] cs, (isKept e d news frees o = true ↔
      ((o.1 ∉ freedBy cs ∧ written e d o.2 = true) ∨ (o.1 ∈ freedBy cs ∧ o.1 ∉ madeBy cs ∧ written e d o.2 = false))) := by
    intro o _
    simp only [isKept, hfrees, hnews, hgw]
    by_cases h : o.1 ∈ freedBy cs
    · simp [h]
    · simp [h]
  have hin : ∀ o ∈ origins [] cs, isKept e d news frees o = true → ∃ nn, (o.1, nn) ∈ leaves := by
    intro o ho hk
    rcases (hkeep o ho).1 hk with ⟨h1, h2⟩ | ⟨h1, h2, h3⟩
    · obtain ⟨nn, h, -⟩ := hc.flushed o ho h1 h2
      exact ⟨nn, h⟩
    · obtain ⟨x, hx, e⟩ := List.mem_map.1 (hc.left o ho h1 h2 h3)
      exact ⟨x.2, by rw [← e]; exact hx⟩
  suffices key : ∃ s, recover e (journal p [] cs) order d root supply = some s ∧ s.d = d.setAll r.writes ∧ s.sb = root ∧ s.sbDisk = root ∧ s.tree = root ∧
      s.supply = supply ∧ (∀ i, i ∈ s.kept ↔ ∃ o ∈ origins [] cs, o.1 = i ∧ isKept e d news frees o = true) ∧
      (∀ i, i ∈ s.gone ↔ ∃ o ∈ origins [] cs, o.1 = i ∧ isGone e d news frees o = true) by
    obtain ⟨s, h1, h2, h3, h4, h5, h6, h7, h8⟩ := key
    refine ⟨s, h1, by rw [h2]; exact hr4, h3, h4, h5, h6, ?_, ?_, ?_⟩
    · intro i
      rw [h7 i]
      constructor
      · rintro ⟨o, ho, rfl, hk⟩
        exact ⟨o, ho, rfl, (hkeep o ho).1 hk⟩
      · rintro ⟨o, ho, rfl, hk⟩
        exact ⟨o, ho, rfl, (hkeep o ho).2 hk⟩
    · intro i hi
      obtain ⟨o, ho, rfl, hk⟩ := (h7 i).1 hi
      obtain ⟨nn, h⟩ := hin o ho hk
      exact List.mem_map.2 ⟨_, h, rfl⟩
    · intro i
      rw [h8 i]
      constructor
      · rintro ⟨o, ho, rfl, hk⟩
        refine ⟨o, ho, rfl, ?_⟩
        simpa [isGone, hfrees, hnews, hgw] using hk
      · rintro ⟨o, ho, rfl, hk⟩
        refine ⟨o, ho, rfl, ?_⟩
        simpa [isGone, hfrees, hnews, hgw] using hk
  refine recover_passes (del1 := deletedAt e d cs) su hone (by omega) hsh hj.once ?_ ?_ ?_ ?_ ?_ ?_ ?_
  · intro x hx
    rcases (hj.all x).1 hx with h | ⟨o, ho, h | h⟩
    · exact Or.inl h
    · exact Or.inr (Or.inr ⟨o, ho, h⟩)
    · exact Or.inr (Or.inl ⟨o.2, hsh.ownOld o ho, h⟩)
  · intro o ho
    exact (hj.all _).2 (Or.inr ⟨o, ho, Or.inl rfl⟩)
  · intro c hc'
    obtain ⟨cn, h⟩ := hleaf c hc'
    obtain ⟨m1, m2, m3⟩ := hmem _ h
    exact ⟨cn, m1, by rw [hr4.others c m3]; exact m1, m2⟩
  · intro i
    simp only [deletedAt, Bool.or_eq_true, List.any_eq_true, Bool.and_eq_true, beq_iff_eq, List.contains_iff_mem, isDel, decide_eq_true_eq, hfrees, hgw]
    constructor
    · rintro (h | ⟨o, ho, ⟨h1, h2⟩, h3⟩)
      · exact Or.inl h
      · exact Or.inr ⟨o, ho, h1, by rw [h1]; exact h2, h3⟩
    · rintro (h | ⟨o, ho, h1, h2, h3⟩)
      · exact Or.inl h
      · exact Or.inr ⟨o, ho, ⟨h1, by rw [← h1]; exact h2⟩, h3⟩
  · intro s hd hdl hsb hsup hup
    have hcm : committed e s.d (some (.node p)) = false := by rw [hd]; exact hgp
    have hl : s.links e p pn = { s with d := d.setAll r.writes } := by
      simp only [RS.links, hd, hdl, hsb, hsup, hr1, hr2, hr3]
      rfl
    rw [stepP, hcm]
    simp only [Bool.false_eq_true, if_false, RS.repair, hd, hc.parent, splitLeaves_interior hc.tree, hl, hup]
    simp
  · intro h; rw [hgp] at h; cases h
  · intro c _ _
    refine ⟨hr5, ?_, ?_⟩
    · intro c hc'
      obtain ⟨cn, h⟩ := hleaf c hc'
      exact hr6 _ h
    · intro o ho hk
      obtain ⟨nn, h⟩ := hin o ho hk
      exact hr6 _ h

/-- **C74**.  If that node was written too, and so all below it, recovery changes nothing on disk; the blocks of the leaves
that were merged are freed. -/
theorem C74_all_written_partial {e : Env} {d : Disk} {p : Id} {used : List Id} {cs : List Chg} {order : List Ref}
    {root : Id} {supply : List Id} (hj : Logged p used cs order) (hf : 2 ≤ e.fuel)
    (hw : ∀ i, Ref.node i ∈ order → i ∉ freedBy cs → ∃ n, d i = some n ∧ n.cp = e.cp ∧ validNode d i = true ∧ (i ≠ p → n.leaf = true)) :
    ∃ s, recover e (journal p [] cs) order d root supply = some s ∧ s.d = d ∧
      s.sb = root ∧ s.sbDisk = root ∧ s.tree = root ∧ s.supply = supply ∧
      (∀ i, i ∈ s.kept ↔ i ∈ madeBy cs ∧ i ∉ freedBy cs) ∧ (∀ i, i ∈ s.gone ↔ i ∈ freedBy cs) := by
  obtain ⟨olds, news, frees, hsh, hoo, hone, hnews, hfrees⟩ := shape_logged hj
  have hgc : ∀ i, Ref.node i ∈ order → i ∉ freedBy cs → gc e d i = true := by
    intro i hi hnf
    obtain ⟨n, h1, h2, -⟩ := hw i hi hnf
    simp [gc, committed, h1, h2]
  have hn : ∀ o ∈ origins [] cs, Ref.node o.1 ∈ order := fun o ho => (hj.all _).2 (Or.inr ⟨o, ho, Or.inl rfl⟩)
  have ho' : ∀ o ∈ origins [] cs, Ref.node o.2 ∈ order := fun o ho => (hj.all _).2 (Or.inr ⟨o, ho, Or.inr rfl⟩)
  have hp : Ref.node p ∈ order := (hj.all _).2 (Or.inl rfl)
  have hpf : p ∉ freedBy cs := by
    intro h
    obtain ⟨o, ho, e⟩ := List.mem_map.1 (hsh.frees_ p ((hfrees p).2 h))
    exact hsh.newP o ho e
  have hold : ∀ c ∈ olds, Ref.node c ∈ order ∧ c ∉ freedBy cs := by
    intro c hc
    refine ⟨?_, ?_⟩
    · obtain ⟨o, ho, rfl⟩ := hoo c hc
      exact ho' o ho
    · intro h
      obtain ⟨o, ho, e⟩ := List.mem_map.1 (hsh.frees_ c ((hfrees c).2 h))
      exact hsh.newOld o ho (e ▸ hc)
  have hgo : ∀ o ∈ origins [] cs, gc e d o.2 = true := by
    intro o ho
    have := hold o.2 (hsh.ownOld o ho)
    exact hgc _ this.1 this.2
  have su : Setup e d p (origins [] cs) olds news frees :=
    ⟨hsh.nodupN, hsh.nodupO, hsh.ownOld, hoo, hsh.newOld, hsh.newP, hsh.oldP, hsh.kind,
      fun o ho hnf _ => hgc _ (hn o ho) (fun h => hnf ((hfrees _).2 h))⟩
  suffices key : ∃ s, recover e (journal p [] cs) order d root supply = some s ∧ s.d = d ∧ s.sb = root ∧ s.sbDisk = root ∧ s.tree = root ∧
      s.supply = supply ∧ (∀ i, i ∈ s.kept ↔ ∃ o ∈ origins [] cs, o.1 = i ∧ isKept e d news frees o = true) ∧
      (∀ i, i ∈ s.gone ↔ ∃ o ∈ origins [] cs, o.1 = i ∧ isGone e d news frees o = true) by
    obtain ⟨s, h1, h2, h3, h4, h5, h6, h7, h8⟩ := key
    refine ⟨s, h1, h2, h3, h4, h5, h6, ?_, ?_⟩
    · intro i
      rw [h7 i]
      constructor
      · rintro ⟨o, ho, rfl, hk⟩
        have hnf : o.1 ∉ frees := by
          intro h
          simp [isKept, h, hgo o ho] at hk
        refine ⟨?_, fun h => hnf ((hfrees _).2 h)⟩
        rcases hsh.kind o ho with h | h
        · exact (hnews _).1 h
        · exact absurd h hnf
      · rintro ⟨h1, h2⟩
        obtain ⟨o, ho, rfl⟩ := List.mem_map.1 (hsh.news_ i ((hnews i).2 h1))
        refine ⟨o, ho, rfl, ?_⟩
        have : o.1 ∉ frees := fun h => h2 ((hfrees _).1 h)
        simp [isKept, this, hgo o ho]
    · intro i
      rw [h8 i]
      constructor
      · rintro ⟨o, ho, rfl, hk⟩
        simp only [isGone, Bool.and_eq_true, decide_eq_true_eq] at hk
        exact (hfrees _).1 hk.1
      · intro h
        have h' := (hfrees i).2 h
        obtain ⟨o, ho, rfl⟩ := List.mem_map.1 (hsh.frees_ i h')
        exact ⟨o, ho, rfl, by simp [isGone, h', hgo o ho]⟩
  refine recover_passes (del1 := fun i => e.del i || (origins [] cs).any (fun o => o.1 == i && isDel e d frees o)) su hone hf hsh hj.once ?_ hn ?_ ?_ ?_ ?_ ?_
  · intro x hx
    rcases (hj.all x).1 hx with h | ⟨o, ho, h | h⟩
    · exact Or.inl h
    · exact Or.inr (Or.inr ⟨o, ho, h⟩)
    · exact Or.inr (Or.inl ⟨o.2, hsh.ownOld o ho, h⟩)
  · intro c hc
    obtain ⟨n, h1, -, -, h4⟩ := hw c (hold c hc).1 (hold c hc).2
    exact ⟨n, h1, h1, h4 (fun e => hsh.oldP (e ▸ hc))⟩
  · intro i
    simp
  · intro s hd _ _ _ hup
    have : committed e s.d (some (.node p)) = true := by rw [hd]; exact hgc p hp hpf
    rw [stepP, this, hup]
    simp [← hd]
  · intro _
    obtain ⟨c, hc⟩ := List.exists_mem_of_ne_nil _ hone
    exact ⟨c, hc, hgc c (hold c hc).1 (hold c hc).2⟩
  · intro _ _ _
    refine ⟨(hw p hp hpf).choose_spec.2.2.1, ?_, ?_⟩
    · intro c hc; exact (hw c (hold c hc).1 (hold c hc).2).choose_spec.2.2.1
    · intro o ho hk
      have hnf : o.1 ∉ freedBy cs := by
        intro h
        have := (hfrees _).2 h
        simp [isKept, this, hgo o ho] at hk
      exact (hw _ (hn o ho) hnf).choose_spec.2.2.1

end HS.Index.Recover
