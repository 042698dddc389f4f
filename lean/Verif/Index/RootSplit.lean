import Verif.Index.RecoverBugs
/-!
# C75: recovery after a split of the root

The records for a split of the root `p` into `p` and `p2` under a new root `n`: `check_split_root`
(btree_mutate_impl.ipp:199-252) calls `on_root_changed` (index_table.hpp:375-393), which links the superblock and the
new root (`transact_bufs`, wb_cache.cpp:222-313), and then `split_node` (254-), whose parent, being new, is replaced by
the buffer it is linked to, the superblock.
-/
namespace HS.Index.Recover

/-- The journal's records. -/
def rootJournal (p n p2 : Id) : List Rec :=
  [{ parent := some .super, child := none, new := [n], freed := [] }, { parent := some .super, child := some p, new := [p2], freed := [] }]

/-- A checkpoint in which the root was split; `order` is the order in which recovery finds the buffers. -/
structure RootSplitLogged (p n p2 : Id) (order : List Ref) : Prop where
  pn : p ≠ n
  pp2 : p ≠ p2
  np2 : n ≠ p2
  once : order.Nodup
  all : ∀ r, r ∈ order ↔ r = .super ∨ r = .node n ∨ r = .node p ∨ r = .node p2

structure RootBufs (p n p2 : Id) (m : Bufs) : Prop where
  bs : m .super = some { created := false, freed := false, up := none, wait := 2 }
  bn : m (.node n) = some { created := true, freed := false, up := some .super, wait := 0 }
  bp : m (.node p) = some { created := false, freed := false, up := some .super, wait := 1 }
  bp2 : m (.node p2) = some { created := true, freed := false, up := some (.node p), wait := 0 }

theorem root_bufs {p n p2 : Id} {order : List Ref} (h : RootSplitLogged p n p2 order) :
    RootBufs p n p2 ((rootJournal p n p2).foldl Bufs.process (fun _ => none)) := by
  have hpn := node_ne h.pn
  have hpp2 := node_ne h.pp2
  have hnp2 := node_ne h.np2
  have e1 : Bufs.process (fun _ => none) { parent := some .super, child := none, new := [n], freed := [] } =
      (((Bufs.set (fun _ => none) .super { created := false, freed := false, up := none, wait := 0 }).set .super { created := false, freed := false, up := none, wait := 1 }).set (.node n)
        { created := true, freed := false, up := some .super, wait := 0 }) := by
    simp only [Bufs.process, List.foldl_cons, List.foldl_nil]
    rw [recToBuf_fresh rfl, recToBuf_new (ub := { created := false, freed := false, up := none, wait := 0 }) ?_ bset_same rfl bset_same]
    · rfl
    · rw [bset_other (by simp)]
  rw [rootJournal, List.foldl_cons, List.foldl_cons, List.foldl_nil, e1, set_set]
  generalize hm : (Bufs.set (fun _ => none) .super { created := false, freed := false, up := none, wait := 1 }).set (.node n)
    { created := true, freed := false, up := some .super, wait := 0 } = m
  have ms : m .super = some { created := false, freed := false, up := none, wait := 1 } := by
    rw [← hm, bset_other (by simp), bset_same]
  have mn : m (.node n) = some { created := true, freed := false, up := some .super, wait := 0 } := by rw [← hm, bset_same]
  have mo : ∀ i, i ≠ n → m (.node i) = none := by
    intro i hi
    rw [← hm, bset_other (node_ne hi), bset_other (by simp)]
  have e2 : m.process { parent := some .super, child := some p, new := [p2], freed := [] } =
      (((m.set .super { created := false, freed := false, up := none, wait := 2 }).set (.node p) { created := false, freed := false, up := some .super, wait := 1 }).set (.node p2)
        { created := true, freed := false, up := some (.node p), wait := 0 }) := by
    simp only [Bufs.process, List.foldl_cons, List.foldl_nil]
    rw [recToBuf_known ms, recToBuf_new (mo p h.pn) ms rfl ms,
      recToBuf_new (ub := { created := false, freed := false, up := some .super, wait := 0 }) ?_ bset_same rfl bset_same, set_set]
    · rfl
    · rw [bset_other (Ne.symm hpp2), bset_other (by simp)]
      exact mo p2 (Ne.symm h.np2)
  rw [e2]
  refine ⟨?_, ?_, ?_, ?_⟩
  · rw [bset_other (by simp), bset_other (by simp), bset_same]
  · rw [bset_other hnp2, bset_other (Ne.symm hpn), bset_other (by simp)]; exact mn
  · rw [bset_other hpp2, bset_same]
  · rw [bset_same]

theorem root_read {p n p2 : Id} {order : List Ref} {fuel : Nat} (h : RootSplitLogged p n p2 order) (hf : 0 < fuel) :
    readBufs fuel (rootJournal p n p2) order = some ((rootJournal p n p2).foldl Bufs.process (fun _ => none)) := by
  obtain ⟨f, rfl⟩ : ∃ f, fuel = f + 1 := ⟨fuel - 1, by omega⟩
  have hb := root_bufs h
  generalize hm : (rootJournal p n p2).foldl Bufs.process (fun _ => none) = m at hb
  have hmod : ∀ l : List Ref, (∀ r ∈ l, r ∈ order) → Bufs.modifyAll (f + 1) l m = some m := by
    intro l
    induction l with
    | nil => intro _; rfl
    | cons r l ih =>
      intro hl
      have : m.modify (f + 1) r = some m := by
        rcases (h.all r).1 (hl r List.mem_cons_self) with rfl | rfl | rfl | rfl
        · simp [Bufs.modify, hb.bs, Bufs.realUp]
        · simp [Bufs.modify, hb.bn, hb.bs, Bufs.realUp]
        · simp [Bufs.modify, hb.bp, hb.bs, Bufs.realUp]
        · simp [Bufs.modify, hb.bp2, hb.bp, Bufs.realUp]
      rw [Bufs.modifyAll, this]
      exact ih (fun r hr => hl r (List.mem_cons_of_mem _ hr))
  rw [readBufs, hm, hmod order (fun _ h => h)]
  simp only []
  rw [if_pos]
  rw [List.all_eq_true]
  intro r hr
  rcases (h.all r).1 hr with rfl | rfl | rfl | rfl
  · simp [Bufs.sane, hb.bs]
  · simp [Bufs.sane, hb.bn, hb.bs]
  · simp [Bufs.sane, hb.bp, hb.bs]
  · simp [Bufs.sane, hb.bp2, hb.bp]

/-! ## The old root was not written -/

structure InvA (d : Disk) (p n p2 : Id) (s0 : RS) (rest : List Ref) (s : RS) : Prop where
  disk : s.d = d
  same : s.sb = s0.sb ∧ s.sbDisk = s0.sbDisk ∧ s.tree = s0.tree ∧ s.supply = s0.supply ∧ s.pending = [] ∧ s.kept = [] ∧ s.del = s0.del
  bs : s.bufs .super = some { created := false, freed := false, up := none, wait := (if Ref.node n ∈ rest then 1 else 0) + (if Ref.node p2 ∈ rest then 1 else 0) }
  bn : s.bufs (.node n) = some { created := true, freed := false, up := some .super, wait := 0 }
  bp : s.bufs (.node p) = if Ref.node p2 ∈ rest then some { created := false, freed := false, up := some .super, wait := 1 } else some { created := false, freed := false, up := none, wait := 0 }
  bp2 : s.bufs (.node p2) = some { created := true, freed := false, up := some (.node p), wait := 0 }
  prunOnly : ∀ r ∈ s.pruned, r = .node p ∨ r = .super
  prunP : s.pruned.count (.node p) = if Ref.node p2 ∈ rest then 0 else 1

theorem firstA {e : Env} {d : Disk} {p n p2 : Id} {s0 s : RS} {r : Ref} {rest : List Ref}
    (hpn : p ≠ n) (hpp2 : p ≠ p2) (hnp2 : n ≠ p2) (hf : 2 ≤ e.fuel) (hmc : e.mc = false) (hg : committed e d (some (.node p)) = false)
    (hr : r ∉ rest) (hk : r = .super ∨ r = .node n ∨ r = .node p ∨ r = .node p2)
    (hi : InvA d p n p2 s0 (r :: rest) s) : InvA d p n p2 s0 rest (s.first e r) := by
  obtain ⟨f, hf⟩ : ∃ f, e.fuel = f + 2 := ⟨e.fuel - 2, by omega⟩
  have npn := node_ne hpn
  have npp2 := node_ne hpp2
  have nnp2 := node_ne hnp2
  obtain ⟨hsb, hsbd, htr, hsup, hpe, hke⟩ := hi.same
  rcases hk with rfl | rfl | rfl | rfl
  · -- the superblock
    have hs : s.first e .super = s := by simp [RS.first]
    rw [hs]
    exact ⟨hi.disk, hi.same, by simpa using hi.bs, hi.bn, by simpa using hi.bp, hi.bp2, hi.prunOnly, by simpa using hi.prunP⟩
  · -- the new root
    have hbs := hi.bs
    have hbp := hi.bp
    have hprun := hi.prunP
    simp only [List.mem_cons, true_or, if_true, Ne.symm nnp2, false_or] at hbs hbp hprun
    have hw : ∀ x : Int, 1 + x + -1 = x := by intro x; omega
    have hcm : committed e s.d (some .super) = false := hmc
    have hup : upOf (s.bufs.set .super { created := false, freed := false, up := none, wait := (if Ref.node p2 ∈ rest then 1 else 0) }) (.node n) = some .super := by
      rw [upOf, bset_other (by simp), hi.bn]
    have hus : upOf (s.bufs.set .super { created := false, freed := false, up := none, wait := (if Ref.node p2 ∈ rest then 1 else 0) }) .super = none := by
      rw [upOf, bset_same]
    have hws : waitOf (s.bufs.set .super { created := false, freed := false, up := none, wait := (if Ref.node p2 ∈ rest then 1 else 0) }) .super = (if Ref.node p2 ∈ rest then 1 else 0) := by
      rw [waitOf, bset_same]
    have huc : upCounters (s.bufs.set .super { created := false, freed := false, up := none, wait := (if Ref.node p2 ∈ rest then 1 else 0) }) e.fuel .super =
        s.bufs.set .super { created := false, freed := false, up := none, wait := (if Ref.node p2 ∈ rest then 1 else 0) } := by
      rw [hf, upCounters, bset_same]
      simp only []
      split <;> rfl
    have hfirst : s.first e (.node n) = { s with bufs := s.bufs.set .super { created := false, freed := false, up := none, wait := (if Ref.node p2 ∈ rest then 1 else 0) }, pruned := s.pruned ++ (if Ref.node p2 ∈ rest then [] else [.super]), skipped := s.skipped ++ [.node n] } := by
      simp only [RS.first, hi.bn, if_true, hcm, Bool.and_false, Bool.false_eq_true, if_false, addWait_some hbs, hw, RS.prune, hup, hus, hws, huc]
      by_cases hp : Ref.node p2 ∈ rest
      · simp [hp]
      · simp [hp]
    rw [hfirst]
    refine ⟨hi.disk, ⟨hsb, hsbd, htr, hsup, hpe, hke⟩, ?_, ?_, ?_, ?_, ?_, ?_⟩
    · show (s.bufs.set .super _ : Bufs) .super = _
      rw [bset_same, if_neg hr]; simp
    · exact hi.bn
    · exact hbp
    · exact hi.bp2
    · intro r hr'
      change r ∈ s.pruned ++ _ at hr'
      rcases List.mem_append.1 hr' with h | h
      · exact hi.prunOnly r h
      · split at h
        · cases h
        · right; simpa using h
    · show (s.pruned ++ (if Ref.node p2 ∈ rest then ([] : List Ref) else [.super])).count (.node p) = _
      rw [List.count_append, hprun]
      have : (if Ref.node p2 ∈ rest then ([] : List Ref) else [.super]).count (.node p) = 0 := by
        split
        · rfl
        · rw [List.count_eq_zero]; simp
      rw [this]; rfl
  · -- the old root
    have hs : s.first e (.node p) = s := by
      have := hi.bp
      simp only [List.mem_cons, Ne.symm npp2, false_or] at this
      by_cases hp : Ref.node p2 ∈ rest
      · rw [if_pos hp] at this; simp [RS.first, this]
      · rw [if_neg hp] at this; simp [RS.first, this]
    rw [hs]
    refine ⟨hi.disk, hi.same, ?_, hi.bn, ?_, hi.bp2, hi.prunOnly, ?_⟩
    · simpa [Ne.symm npn, Ne.symm npp2] using hi.bs
    · simpa [Ne.symm npp2] using hi.bp
    · simpa [Ne.symm npp2] using hi.prunP
  · -- the new sibling
    have hbs := hi.bs
    have hbp := hi.bp
    have hprun := hi.prunP
    simp only [List.mem_cons, true_or, if_true, nnp2, false_or] at hbs hbp hprun
    have hcm : committed e s.d (some (.node p)) = false := by rw [hi.disk]; exact hg
    have hup : upOf (s.bufs.set (.node p) { created := false, freed := false, up := some .super, wait := 0 }) (.node p2) = some (.node p) := by
      rw [upOf, bset_other (Ne.symm npp2), hi.bp2]
    have hupp : upOf (s.bufs.set (.node p) { created := false, freed := false, up := some .super, wait := 0 }) (.node p) = some .super := by
      rw [upOf, bset_same]
    have hws : waitOf (s.bufs.set (.node p) { created := false, freed := false, up := some .super, wait := 0 }) (.node p) = 0 := by
      rw [waitOf, bset_same]
    have huc : upCounters (s.bufs.set (.node p) { created := false, freed := false, up := some .super, wait := 0 }) e.fuel (.node p) =
        (s.bufs.set .super { created := false, freed := false, up := none, wait := (if Ref.node n ∈ rest then 1 else 0) }).set (.node p) { created := false, freed := false, up := none, wait := 0 } := by
      have hm : (s.bufs.set (.node p) { created := false, freed := false, up := some .super, wait := 0 }) .super = some { created := false, freed := false, up := none, wait := (if Ref.node n ∈ rest then 1 else 0) + 1 } := by
        rw [bset_other (by simp), hbs]
      have hmm : ((s.bufs.set (.node p) { created := false, freed := false, up := some .super, wait := 0 }).addWait .super (-1)).set (.node p) { created := false, freed := false, up := none, wait := 0 } =
          (s.bufs.set .super { created := false, freed := false, up := none, wait := (if Ref.node n ∈ rest then 1 else 0) }).set (.node p) { created := false, freed := false, up := none, wait := 0 } := by
        rw [addWait_some hm]
        have : ∀ x : Int, x + 1 + -1 = x := by intro x; omega
        simp only [this]
        funext x
        simp only [Bufs.set]
        by_cases e1 : x = .node p
        · simp [e1]
        · simp [e1]
      have hpp : (((s.bufs.set .super { created := false, freed := false, up := none, wait := (if Ref.node n ∈ rest then 1 else 0) }).set (.node p) { created := false, freed := false, up := none, wait := 0 }) : Bufs) .super =
          some { created := false, freed := false, up := none, wait := (if Ref.node n ∈ rest then 1 else 0) } := by
        rw [bset_other (by simp), bset_same]
      rw [hf, upCounters, bset_same]
      simp only [ne_eq, not_true, if_false]
      rw [hmm, upCounters, hpp]
      simp only []
      split <;> rfl
    have hfirst : s.first e (.node p2) = { s with bufs := (s.bufs.set .super { created := false, freed := false, up := none, wait := (if Ref.node n ∈ rest then 1 else 0) }).set (.node p) { created := false, freed := false, up := none, wait := 0 }, pruned := s.pruned ++ [.node p], skipped := s.skipped ++ [.node p2] } := by
      have hw : (1 : Int) + -1 = 0 := rfl
      simp only [RS.first, hi.bp2, if_true, hcm, Bool.and_false, Bool.false_eq_true, if_false, addWait_some hbp, hw, RS.prune, hup, hupp, hws, huc]
      simp
    rw [hfirst]
    refine ⟨hi.disk, ⟨hsb, hsbd, htr, hsup, hpe, hke⟩, ?_, ?_, ?_, ?_, ?_, ?_⟩
    · simp [Bufs.set, hr]
    · show ((s.bufs.set .super _).set (.node p) _ : Bufs) (.node n) = _
      rw [bset_other (Ne.symm npn), bset_other (by simp)]; exact hi.bn
    · show ((s.bufs.set .super _).set (.node p) _ : Bufs) (.node p) = _
      rw [bset_same, if_neg hr]
    · show ((s.bufs.set .super _).set (.node p) _ : Bufs) (.node p2) = _
      rw [bset_other (Ne.symm npp2), bset_other (by simp)]; exact hi.bp2
    · intro r hr'
      change r ∈ s.pruned ++ _ at hr'
      rcases List.mem_append.1 hr' with h | h
      · exact hi.prunOnly r h
      · left; simpa using h
    · show (s.pruned ++ _).count (.node p) = _
      rw [List.count_append, hprun, if_neg hr]
      simp

theorem firstA_all {e : Env} {d : Disk} {p n p2 : Id} {s0 : RS} (hpn : p ≠ n) (hpp2 : p ≠ p2) (hnp2 : n ≠ p2)
    (hf : 2 ≤ e.fuel) (hmc : e.mc = false) (hg : committed e d (some (.node p)) = false) :
    ∀ (order : List Ref) (s : RS), order.Nodup → (∀ r ∈ order, r = .super ∨ r = .node n ∨ r = .node p ∨ r = .node p2) →
    InvA d p n p2 s0 order s → InvA d p n p2 s0 [] (order.foldl (RS.first e) s)
  | [], _, _, _, hi => hi
  | r :: order, s, hn, hk, hi => by
    rw [List.nodup_cons] at hn
    rw [List.foldl_cons]
    exact firstA_all hpn hpp2 hnp2 hf hmc hg order _ hn.2 (fun x hx => hk x (List.mem_cons_of_mem _ hx))
      (firstA hpn hpp2 hnp2 hf hmc hg hn.1 (hk r List.mem_cons_self) hi)

theorem third_root {e : Env} {d2 : Disk} {p : Id} : ∀ (l : List Ref) (s : RS), s.repair e (.node p) = { s with d := d2 } →
    l.count (.node p) = 1 → (∀ r ∈ l, r = .node p ∨ r = .super) → l.foldl (RS.repair e) s = { s with d := d2 }
  | [], _, _, hc, _ => by simp at hc
  | r :: l, s, hrep, hc, h => by
    rw [List.foldl_cons]
    rcases h r List.mem_cons_self with rfl | rfl
    · rw [hrep]
      rw [List.count_cons_self] at hc
      have hsup : ∀ r ∈ l, r = .super := by
        intro r hr
        rcases h r (List.mem_cons_of_mem _ hr) with rfl | h
        · have := List.count_pos_iff.2 hr; omega
        · exact h
      have hgen : ∀ (l : List Ref) (s : RS), (∀ r ∈ l, r = .super) → l.foldl (RS.repair e) s = s := by
        intro l
        induction l with
        | nil => intro s _; rfl
        | cons r l ih =>
          intro s hh
          rw [List.foldl_cons, hh r List.mem_cons_self]
          exact ih s (fun r hr => hh r (List.mem_cons_of_mem _ hr))
      exact hgen l _ hsup
    · rw [List.count_cons_of_ne (by simp)] at hc
      exact third_root l s hrep hc (fun r hr => h r (List.mem_cons_of_mem _ hr))

theorem recoverA {e : Env} {d d2 : Disk} {p n p2 : Id} {order : List Ref} {supply : List Id} {root : Id}
    (h : RootSplitLogged p n p2 order) (hf : 2 ≤ e.fuel) (hmc : e.mc = false) (hg : committed e d (some (.node p)) = false)
    (hrep : ∀ s : RS, s.d = d → s.del = e.del → s.sb = root → s.supply = supply → upOf s.bufs (.node p) = none → s.repair e (.node p) = { s with d := d2 }) :
    ∃ s, recover e (rootJournal p n p2) order d root supply = some s ∧ s.d = d2 ∧ s.sb = root ∧ s.sbDisk = root ∧
      s.tree = root ∧ s.supply = supply ∧ s.kept = [] := by
  have hb := root_bufs h
  have hin : ∀ i, (i = n ∨ i = p ∨ i = p2) → Ref.node i ∈ order := by
    intro i hi
    rw [h.all]
    rcases hi with rfl | rfl | rfl <;> simp
  have hi0 : InvA d p n p2
      { d, del := e.del, bufs := (rootJournal p n p2).foldl Bufs.process (fun _ => none), sb := root, sbDisk := root, sbDirty := false, tree := root, supply, pending := [], pruned := [], skipped := [], kept := [], gone := [] }
      order
      { d, del := e.del, bufs := (rootJournal p n p2).foldl Bufs.process (fun _ => none), sb := root, sbDisk := root, sbDirty := false, tree := root, supply, pending := [], pruned := [], skipped := [], kept := [], gone := [] } := by
    refine ⟨rfl, ⟨rfl, rfl, rfl, rfl, rfl, rfl, rfl⟩, ?_, hb.bn, ?_, hb.bp2, (fun r hr => by cases hr), ?_⟩
    · rw [if_pos (hin n (Or.inl rfl)), if_pos (hin p2 (Or.inr (Or.inr rfl)))]; exact hb.bs
    · rw [if_pos (hin p2 (Or.inr (Or.inr rfl)))]; exact hb.bp
    · rw [if_pos (hin p2 (Or.inr (Or.inr rfl)))]; rfl
  have h1 := firstA_all h.pn h.pp2 h.np2 hf hmc hg order _ h.once (fun r hr => (h.all r).1 hr) hi0
  simp only [recover, root_read (fuel := e.fuel) h (by omega)]
  generalize order.foldl (RS.first e) _ = s1 at h1 ⊢
  obtain ⟨hsb, hsbd, htr, hsup, hpe, hke, hdl⟩ := h1.same
  rw [hpe, List.foldl_nil]
  have hbp := h1.bp
  rw [if_neg (by simp)] at hbp
  have hcnt := h1.prunP
  rw [if_neg (by simp)] at hcnt
  rw [third_root s1.pruned s1 (hrep s1 h1.disk hdl hsb hsup (by rw [upOf, hbp])) hcnt h1.prunOnly]
  refine ⟨{ s1 with d := d2 }, ?_, rfl, hsb, hsbd, htr, hsup, hke⟩
  simp [RS.sanity, hpe]

/-! ## The old root and its sibling were written -/

structure InvB (d : Disk) (p n p2 : Id) (s0 : RS) (rest : List Ref) (s : RS) : Prop where
  disk : s.d = d
  same : s.sb = s0.sb ∧ s.sbDisk = s0.sbDisk ∧ s.tree = s0.tree ∧ s.supply = s0.supply ∧ s.sbDirty = s0.sbDirty ∧ s.pruned = []
  bs : s.bufs .super = some { created := false, freed := false, up := none, wait := (if Ref.node n ∈ rest then 1 else 0) + 1 }
  bn : s.bufs (.node n) = some { created := true, freed := false, up := some .super, wait := 0 }
  bp : s.bufs (.node p) = some { created := false, freed := false, up := some .super, wait := 1 }
  bp2 : s.bufs (.node p2) = some { created := true, freed := false, up := some (.node p), wait := 0 }
  pend : s.pending = if Ref.node p2 ∈ rest then [] else [.node p]
  kept : s.kept = if Ref.node p2 ∈ rest then [] else [p2]
  skip : s.skipped = if Ref.node n ∈ rest then [] else [.node n]

theorem firstB {e : Env} {d : Disk} {p n p2 : Id} {s0 s : RS} {r : Ref} {rest : List Ref}
    (hpn : p ≠ n) (hpp2 : p ≠ p2) (hnp2 : n ≠ p2) (hmc : e.mc = false)
    (hg : committed e d (some (.node p)) = true) (hg2 : committed e d (some (.node p2)) = true)
    (hr : r ∉ rest) (hk : r = .super ∨ r = .node n ∨ r = .node p ∨ r = .node p2)
    (hi : InvB d p n p2 s0 (r :: rest) s) : InvB d p n p2 s0 rest (s.first e r) := by
  have npn := node_ne hpn
  have npp2 := node_ne hpp2
  have nnp2 := node_ne hnp2
  obtain ⟨hsb, hsbd, htr, hsup, hdy, hpr⟩ := hi.same
  rcases hk with rfl | rfl | rfl | rfl
  · have hs : s.first e .super = s := by simp [RS.first]
    rw [hs]
    exact ⟨hi.disk, hi.same, by simpa using hi.bs, hi.bn, hi.bp, hi.bp2, by simpa using hi.pend, by simpa using hi.kept, by simpa using hi.skip⟩
  · have hbs := hi.bs
    have hpend := hi.pend
    have hkept := hi.kept
    have hskip := hi.skip
    simp only [List.mem_cons, true_or, if_true, Ne.symm nnp2, false_or] at hbs hpend hkept hskip
    have hw : (1 : Int) + 1 + -1 = 1 := rfl
    have hcm : committed e s.d (some .super) = false := hmc
    have hup : upOf (s.bufs.set .super { created := false, freed := false, up := none, wait := 1 }) (.node n) = some .super := by
      rw [upOf, bset_other (by simp), hi.bn]
    have hws : waitOf (s.bufs.set .super { created := false, freed := false, up := none, wait := 1 }) .super = 1 := by
      rw [waitOf, bset_same]
    have hfirst : s.first e (.node n) = { s with bufs := s.bufs.set .super { created := false, freed := false, up := none, wait := 1 }, skipped := s.skipped ++ [.node n] } := by
      simp only [RS.first, hi.bn, if_true, hcm, Bool.and_false, Bool.false_eq_true, if_false, addWait_some hbs, hw, RS.prune, hup, hws]
      simp
    rw [hfirst]
    refine ⟨hi.disk, hi.same, ?_, ?_, ?_, ?_, hpend, hkept, ?_⟩
    · show (s.bufs.set .super _ : Bufs) .super = _
      rw [bset_same, if_neg hr]; simp
    · exact hi.bn
    · exact hi.bp
    · exact hi.bp2
    · show s.skipped ++ _ = _
      rw [if_neg hr, hskip]; rfl
  · have hs : s.first e (.node p) = s := by simp [RS.first, hi.bp]
    rw [hs]
    refine ⟨hi.disk, hi.same, ?_, hi.bn, hi.bp, hi.bp2, ?_, ?_, ?_⟩
    · simpa [Ne.symm npn] using hi.bs
    · simpa [Ne.symm npp2] using hi.pend
    · simpa [Ne.symm npp2] using hi.kept
    · simpa [Ne.symm npn] using hi.skip
  · have hpend := hi.pend
    have hkept := hi.kept
    simp only [List.mem_cons, true_or, if_true] at hpend hkept
    have hfirst : s.first e (.node p2) = { s with pending := [.node p], kept := [p2] } := by
      simp only [RS.first, hi.bp2, if_true, hi.disk, hg, hg2, Bool.and_self, hpend, hkept]
      simp
    rw [hfirst]
    refine ⟨hi.disk, hi.same, ?_, hi.bn, hi.bp, hi.bp2, ?_, ?_, ?_⟩
    · simpa [nnp2] using hi.bs
    · show [Ref.node p] = _
      rw [if_neg hr]
    · show [p2] = _
      rw [if_neg hr]
    · simpa [nnp2] using hi.skip

theorem firstB_all {e : Env} {d : Disk} {p n p2 : Id} {s0 : RS} (hpn : p ≠ n) (hpp2 : p ≠ p2) (hnp2 : n ≠ p2)
    (hmc : e.mc = false) (hg : committed e d (some (.node p)) = true) (hg2 : committed e d (some (.node p2)) = true) :
    ∀ (order : List Ref) (s : RS), order.Nodup → (∀ r ∈ order, r = .super ∨ r = .node n ∨ r = .node p ∨ r = .node p2) →
    InvB d p n p2 s0 order s → InvB d p n p2 s0 [] (order.foldl (RS.first e) s)
  | [], _, _, _, hi => hi
  | r :: order, s, hn, hk, hi => by
    rw [List.nodup_cons] at hn
    rw [List.foldl_cons]
    exact firstB_all hpn hpp2 hnp2 hmc hg hg2 order _ hn.2 (fun x hx => hk x (List.mem_cons_of_mem _ hx))
      (firstB hpn hpp2 hnp2 hmc hg hg2 hn.1 (hk r List.mem_cons_self) hi)

/-- All the passes; `d2`: what `repair_root_node` makes of the disk. -/
theorem recoverB {e : Env} {d d2 : Disk} {p n p2 : Id} {order : List Ref} {supply : List Id} {root : Id}
    (h : RootSplitLogged p n p2 order) (hf : 2 ≤ e.fuel) (hmc : e.mc = false)
    (hg : committed e d (some (.node p)) = true) (hg2 : committed e d (some (.node p2)) = true)
    (hrep : ∀ s : RS, s.d = d → s.sb = root → s.repairRoot e (.node p) = { s with d := d2 }) :
    ∃ s : RS, s.d = d2 ∧ s.sb = root ∧ s.sbDisk = root ∧ s.tree = root ∧ s.supply = supply ∧ s.kept = [p2] ∧
      recover e (rootJournal p n p2) order d root supply = if validNode d2 p && validNode d2 p2 then some s else none := by
  obtain ⟨f, hf⟩ : ∃ f, e.fuel = f + 2 := ⟨e.fuel - 2, by omega⟩
  have hb := root_bufs h
  have hin : ∀ i, (i = n ∨ i = p ∨ i = p2) → Ref.node i ∈ order := by
    intro i hi
    rw [h.all]
    rcases hi with rfl | rfl | rfl <;> simp
  have hi0 : InvB d p n p2
      { d, del := e.del, bufs := (rootJournal p n p2).foldl Bufs.process (fun _ => none), sb := root, sbDisk := root, sbDirty := false, tree := root, supply, pending := [], pruned := [], skipped := [], kept := [], gone := [] }
      order
      { d, del := e.del, bufs := (rootJournal p n p2).foldl Bufs.process (fun _ => none), sb := root, sbDisk := root, sbDirty := false, tree := root, supply, pending := [], pruned := [], skipped := [], kept := [], gone := [] } := by
    refine ⟨rfl, ⟨rfl, rfl, rfl, rfl, rfl, rfl⟩, ?_, hb.bn, hb.bp, hb.bp2, ?_, ?_, ?_⟩
    · rw [if_pos (hin n (Or.inl rfl))]; exact hb.bs
    · rw [if_pos (hin p2 (Or.inr (Or.inr rfl)))]
    · rw [if_pos (hin p2 (Or.inr (Or.inr rfl)))]
    · rw [if_pos (hin n (Or.inl rfl))]
  have h1 := firstB_all h.pn h.pp2 h.np2 hmc hg hg2 order _ h.once (fun r hr => (h.all r).1 hr) hi0
  simp only [recover, root_read (fuel := e.fuel) h (by omega)]
  generalize order.foldl (RS.first e) _ = s1 at h1 ⊢
  obtain ⟨hsb, hsbd, htr, hsup, hdy, hpr⟩ := h1.same
  have hpend := h1.pend
  have hkept := h1.kept
  have hskip := h1.skip
  have hbs := h1.bs
  rw [if_neg (by simp)] at hpend hkept hskip hbs
  -- the second pass
  have h2 : ∃ m, s1.pending.foldl (RS.recoverBuf e e.fuel) s1 = { s1 with d := d2, bufs := m } ∧
      ∀ i, (i = n ∨ i = p ∨ i = p2) → freedOf m (.node i) = false := by
    rw [hpend, List.foldl_cons, List.foldl_nil, hf, RS.recoverBuf, addWait_some h1.bp]
    have hw : (1 : Int) + -1 = 0 := rfl
    simp only [hw]
    have hw1 : waitOf (s1.bufs.set (.node p) { created := false, freed := false, up := some .super, wait := 0 }) (.node p) = 0 := by
      rw [waitOf, bset_same]
    have hu1 : upOf (s1.bufs.set (.node p) { created := false, freed := false, up := some .super, wait := 0 }) (.node p) = some .super := by
      rw [upOf, bset_same]
    have hcm : committed e s1.d (some (.node p)) = true := by rw [h1.disk]; exact hg
    simp only [hw1, ne_eq, not_true, if_false, hcm, if_true, hu1]
    rw [hrep { s1 with bufs := s1.bufs.set (.node p) { created := false, freed := false, up := some .super, wait := 0 } } h1.disk hsb]
    simp only [hu1]
    rw [RS.recoverBuf]
    have hbs' : (s1.bufs.set (.node p) { created := false, freed := false, up := some .super, wait := 0 }) .super = some { created := false, freed := false, up := none, wait := 0 + 1 } := by
      rw [bset_other (by simp)]; exact hbs
    have hw2 : (0 : Int) + 1 + -1 = 0 := rfl
    simp only [addWait_some hbs', hw2]
    have hw3 : ∀ m : Bufs, waitOf (m.set .super { created := false, freed := false, up := none, wait := 0 }) .super = 0 := by
      intro m; rw [waitOf, bset_same]
    have hu3 : ∀ m : Bufs, upOf (m.set .super { created := false, freed := false, up := none, wait := 0 }) .super = none := by
      intro m; rw [upOf, bset_same]
    have hcs : ∀ d', committed e d' (some .super) = false := fun _ => hmc
    simp only [hw3, ne_eq, not_true, if_false, hcs, Bool.false_eq_true, RS.repair, hu3]
    refine ⟨(s1.bufs.set (.node p) { created := false, freed := false, up := some .super, wait := 0 }).set .super { created := false, freed := false, up := none, wait := 0 }, ?_, ?_⟩
    · rw [hpend]
    · rintro i (rfl | rfl | rfl)
      · rw [freedOf, bset_other (by simp), bset_other (Ne.symm (node_ne h.pn)), h1.bn]
      · rw [freedOf, bset_other (by simp), bset_same]
      · rw [freedOf, bset_other (by simp), bset_other (Ne.symm (node_ne h.pp2)), h1.bp2]
  obtain ⟨m, h2, hfr⟩ := h2
  rw [h2, hpr, List.foldl_nil]
  refine ⟨{ s1 with d := d2, bufs := m, pruned := [] }, rfl, hsb, hsbd, htr, hsup, hkept, ?_⟩
  have hall : ∀ F : Ref → Bool, F .super = true → (∀ i, F (.node i) = (freedOf m (.node i) || [Ref.node n].contains (.node i) || validNode d2 i)) →
      order.all F = (validNode d2 p && validNode d2 p2) := by
    intro F hF1 hF2
    rw [Bool.eq_iff_iff, List.all_eq_true, Bool.and_eq_true]
    constructor
    · intro hh
      have a := hh _ (hin p (Or.inr (Or.inl rfl)))
      have b := hh _ (hin p2 (Or.inr (Or.inr rfl)))
      rw [hF2] at a b
      simp [h.pn, hfr] at a
      simp [Ne.symm h.np2, hfr] at b
      exact ⟨a, b⟩
    · rintro ⟨a, b⟩ r hr
      rcases (h.all r).1 hr with rfl | rfl | rfl | rfl
      · exact hF1
      · rw [hF2]; simp
      · rw [hF2]; simp [a]
      · rw [hF2]; simp [b]
  simp only [RS.sanity, hpend, hskip, List.isEmpty_cons, Bool.false_eq_true, if_false]
  rw [hall _ rfl (fun _ => rfl)]

end HS.Index.Recover
