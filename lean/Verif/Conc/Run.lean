import Verif.Conc.Inv

/-!
# The invariant holds along every run
-/

namespace HS.Conc

variable {s s' : St}

/-- The invariant does not speak of checkpoints. -/
theorem Inv.same (h : Inv s) (hn : s'.nodes = s.nodes) (hf : s'.fresh = s.fresh) (hr : s'.root = s.root) (hnt : s'.nt = s.nt)
    (hp : s'.pcs = s.pcs) (htr : s'.tr = s.tr) : Inv s' := by
  have hF : Frame s s' fun _ => False :=
    ⟨by rw [hf]; exact Nat.le_refl _, fun i _ => by rw [hn], fun i _ => by rw [hn]; exact Nat.le_refl _,
      fun i _ _ => by rw [hn]; exact ⟨rfl, rfl, leB.refl _, rfl⟩, fun i _ _ => by rw [hn]⟩
  refine ⟨by rw [hn, hf, hr]; exact h.tree, fun t ht => ?_, ?_, fun t => ?_, ?_⟩
  · rw [hp]
    exact (h.pcs t (by rw [← hnt]; exact ht)).frame h.tree hF (fun _ _ _ h => h) (Or.inl hr)
  · rw [hnt, hp]
    exact h.mutex
  · rw [htr, hnt, hp]
    exact h.phases t
  · rw [htr, hn, hf]
    exact h.lin

theorem Inv.taken {t n : Nat} {w : Bool} {p : Pc} (h : Inv (s.goto t p)) : Inv ((s.take t n w).goto t p) := by
  cases w
  · exact h
  · exact h.same rfl rfl rfl rfl rfl rfl

/-- A call that must be begun again. -/
theorem Inv.tomove (h : Inv s) {t : Nat} (ht : t < s.nt) {o : Op} (hph : (s.pcs t).phase = .before o) : Inv (s.goto t (.out o)) :=
  h.move ht trivial (fun _ _ _ _ _ _ hm => by cases hm) (by rw [hph]; rfl)

/-- A change of nodes the thread has locked for writing, with the tree and what it holds kept. -/
theorem Inv.change (h : Inv s) {t : Nat} (ht : t < s.nt) {s1 : St} {p : Pc} {W : Nat → Prop} (hnt : s1.nt = s.nt) (hpc : s1.pcs = s.pcs)
    (htr : s1.tr = s.tr) (hT : TInv s1.nodes s1.fresh s1.root) (hF : Frame s s1 W)
    (hW : ∀ n, W n → (n, true) ∈ (s.pcs t).locks) (hroot : s1.root = s.root) (hp : PcOk s1 p)
    (hs : ∀ x ∈ p.locks, x ∈ (s.pcs t).locks) (hph : (s.pcs t).phase = p.phase)
    (hh : ∀ k v, Holds s1.nodes s1.fresh k v ↔ Holds s.nodes s.fresh k v) : Inv (s1.goto t p) := by
  refine h.next (W := W) ht [] hnt hpc (by simp [htr]) hT hF ?_ (Or.inl hroot) hp (h.kept ht hs) (by simp [phase, hph]) (fun _ _ _ => rfl) ?_
  · intro t' ht' hne n w hm hw
    exact h.own ht (hW n hw) ht' hne hm
  · obtain ⟨M, h1, h2⟩ := h.lin
    exact ⟨M, by simpa using h1, fun k v => (h2 k v).trans (hh k v).symm⟩

/-- A change of the root, while no one else is in the tree. -/
theorem Inv.rooted (h : Inv s) {t : Nat} (ht : t < s.nt) {s1 : St} {p : Pc} (hnt : s1.nt = s.nt) (hpc : s1.pcs = s.pcs)
    (htr : s1.tr = s.tr) (hT : TInv s1.nodes s1.fresh s1.root) (hx : s.canExcl t) (hp : PcOk s1 p) (hl : p.locks = [])
    (hF : Frame s s1 fun _ => True) (hph : (s.pcs t).phase = p.phase)
    (hh : ∀ k v, Holds s1.nodes s1.fresh k v ↔ Holds s.nodes s.fresh k v) : Inv (s1.goto t p) := by
  refine h.next (W := fun _ => True) ht [] hnt hpc (by simp [htr]) hT hF ?_ (Or.inr hx.2) hp ?_ (by simp [phase, hph]) (fun _ _ _ => rfl) ?_
  · intro t' ht' hne n w hm _
    have := hx.2 t' ht' hne
    cases hq : s.pcs t' <;> rw [hq] at this hm <;> simp [Pc.shared, Pc.locks] at this hm
  · intro t' _ _ n w w' hm
    rw [hl] at hm
    cases hm
  · obtain ⟨M, h1, h2⟩ := h.lin
    exact ⟨M, by simpa using h1, fun k v => (h2 k v).trans (hh k v).symm⟩

theorem rootSplit_frame {i : Nat} (hT : TInv s.nodes s.fresh s.root) : Frame s (s.splitRoot i) fun _ => True := by
  have hrf : s.root < s.fresh := hT.base.1.1
  have hof : ∀ j, j < s.fresh → j ≠ s.root → (s.splitRoot i).nodes j = s.nodes j := by
    intro j h1 h2
    have h3 : j ≠ s.fresh := by omega
    have h4 : j ≠ s.fresh + 1 := by omega
    simp [St.splitRoot, h2, h3, h4]
  have hon : ((s.splitRoot i).nodes s.root).lev = (s.nodes s.root).lev ∧ ((s.splitRoot i).nodes s.root).gen = (s.nodes s.root).gen + 1 := by
    have h3 : s.root ≠ s.fresh := by omega
    simp [St.splitRoot, h3]
  refine ⟨by simp only [St.splitRoot]; omega, fun j hj => ?_, fun j hj => ?_, fun j hj => ?_, fun _ _ h => absurd trivial h⟩
  · by_cases h : j = s.root
    · subst h; exact hon.1
    · rw [hof j hj h]
  · by_cases h : j = s.root
    · subst h; rw [hon.2]; exact Nat.le_succ _
    · rw [hof j hj h]; exact Nat.le_refl _
  · by_cases h : j = s.root
    · subst h; rw [hon.2]; intro hg; omega
    · rw [hof j hj h]
      exact fun _ => ⟨rfl, rfl, leB.refl _, rfl⟩

theorem collapse_frame {c : Nat} : Frame s (s.collapse c) fun _ => True := by
  refine ⟨Nat.le_refl _, fun j hj => ?_, fun j hj => ?_, fun j hj => ?_, fun _ _ h => absurd trivial h⟩
  · by_cases h : j = s.root
    · subst h; rw [collapse_root]
    · rw [collapse_other h]
  · by_cases h : j = s.root
    · subst h; rw [collapse_root]; exact Nat.le_succ _
    · rw [collapse_other h]; exact Nat.le_refl _
  · by_cases h : j = s.root
    · subst h; rw [collapse_root]; intro hg; simp at hg
    · rw [collapse_other h]
      exact fun _ => ⟨rfl, rfl, leB.refl _, rfl⟩

theorem isPut_writes {o : Op} (h : o.isPut = true) : o.writes = true := by cases o <;> first | rfl | cases h

theorem isRemove_writes {o : Op} (h : o.isRemove = true) : o.writes = true := by cases o <;> first | rfl | cases h

/-- Each step keeps the invariant. -/
theorem inv_step (h : Inv s) {t : Nat} {a : Act} (hs : step s t a = some s') : Inv s' := by
  simp only [step] at hs
  split at hs
  case isFalse => cases hs
  case isTrue ht =>
  have hp := h.pcs t ht
  split at hs
  -- call
  · next o hpc =>
    cases hs
    refine Inv.same (s := (s.emit (.call t o)).goto t (.start o false)) ?_ rfl rfl rfl rfl rfl rfl
    refine h.next (W := fun _ => False) ht [.call t o] rfl rfl rfl h.tree ⟨Nat.le_refl _, fun _ _ => rfl, fun _ _ => Nat.le_refl _,
      fun _ _ _ => ⟨rfl, rfl, leB.refl _, rfl⟩, fun _ _ _ => rfl⟩ (fun _ _ _ _ _ _ h => h) (Or.inl rfl) trivial
      (fun _ _ _ _ _ _ hm => by cases hm) ?_ (fun t' ht' q => ?_) ?_
    · rw [hpc]; simp [phase, Phase.next, Pc.phase]
    · simp [phase, Phase.next, Ne.symm ht']
    · obtain ⟨M, h1, h2⟩ := h.lin
      refine ⟨M, ?_, h2⟩
      rw [points_append]
      simpa [points] using h1
  -- lockRoot
  · next o w hpc =>
    split at hs
    case isFalse => cases hs
    case isTrue hc =>
    split at hs
    case isFalse =>
      cases hs
      exact (h.tomove ht (by rw [hpc]; rfl)).same rfl rfl rfl rfl rfl rfl
    case isTrue =>
    cases hs
    refine Inv.taken ?_
    refine h.move ht ⟨h.tree.base.1, ?_, fun _ _ _ => rfl⟩ (h.more ht hc ?_) (by rw [hpc]; rfl)
    · rw [h.tree.base.2.1, h.tree.base.2.2]
      exact ⟨⟨0, rfl, Nat.zero_le _⟩, fun b hb => by cases hb⟩
    · intro y hy
      left
      simpa [Pc.locks] using hy
  -- rootChange
  · next o n w hpc =>
    split at hs
    case isFalse => cases hs
    case isTrue hc =>
    cases hs
    refine h.move ht ?_ (fun _ _ _ _ _ _ hm => by cases hm) (by rw [hpc]; rfl)
    rcases hc.2 with h' | h'
    · exact isPut_writes h'
    · exact isRemove_writes h'.1
  -- lockAgain
  · next o n w hpc =>
    split at hs
    case isFalse => cases hs
    case isTrue hc =>
    cases hs
    exact h.move ht trivial (fun _ _ _ _ _ _ hm => by cases hm) (by rw [hpc]; rfl)
  -- leaf
  · next o n w hpc =>
    split at hs
    case isFalse => cases hs
    case isTrue hc =>
    cases hs
    exact h.atLeaf ht hpc hc.1 hc.2
  -- child
  · next o n w hpc =>
    split at hs
    case isTrue => cases hs
    case isFalse h0 =>
    rw [hpc] at hp
    split at hs
    · next c hc =>
      split at hs
      case isFalse => cases hs
      case isTrue hl =>
      split at hs
      case isFalse =>
        cases hs
        exact h.tomove ht (by rw [hpc]; rfl)
      case isTrue =>
      cases hs
      refine Inv.taken ?_
      refine h.move ht ⟨⟨hp.1, h0, hp.2.1, hc⟩, fun hw hl0 => by simp [hw, hl0]⟩ (h.more ht hl ?_) (by rw [hpc]; rfl)
      intro y hy
      rw [hpc]
      simp only [Pc.locks, List.mem_cons, List.not_mem_nil, or_false] at hy ⊢
      exact hy.symm
    · cases hs
  -- descend
  · next o n w c wc hpc =>
    cases hs
    rw [hpc] at hp
    obtain ⟨h1, h2, h3⟩ := hp.1.child h.tree
    refine h.move ht ⟨h1, h3, fun hw hf hl => ?_⟩ (h.kept ht ?_) (by rw [hpc]; rfl)
    · have := hp.2 hw hl
      rw [hf] at this
      cases this
    · intro x hx
      rw [hpc]
      simp only [Pc.locks, List.mem_cons, List.not_mem_nil, or_false] at hx ⊢
      exact Or.inr hx
  -- upgrade
  · next o n w c wc hpc =>
    split at hs
    case isFalse => cases hs
    case isTrue hw =>
    cases hs
    rw [hpc] at hp
    obtain ⟨h1, h2, h3⟩ := hp.1.child h.tree
    exact h.move ht ⟨hw, hp.1.live.1, h1.1, h2, Nat.le_refl _, fun _ => ⟨hp.1.kid, fun _ => hp.1.rng⟩⟩ (fun _ _ _ _ _ _ hm => by cases hm)
      (by rw [hpc]; rfl)
  -- lockParent
  · next o n c gn gc hpc =>
    split at hs
    case isFalse => cases hs
    case isTrue hc =>
    split at hs
    case isFalse =>
      cases hs
      exact h.tomove ht (by rw [hpc]; rfl)
    case isTrue =>
    cases hs
    rw [hpc] at hp
    refine Inv.taken ?_
    refine h.move ht hp (h.more ht hc ?_) (by rw [hpc]; rfl)
    intro y hy
    left
    simpa [Pc.locks] using hy
  -- lockChild
  · next o n c gn gc hpc =>
    split at hs
    case isFalse => cases hs
    case isTrue hc =>
    split at hs
    case isFalse =>
      cases hs
      exact h.tomove ht (by rw [hpc]; rfl)
    case isTrue =>
    rw [hpc] at hp
    split at hs
    · cases hs
      refine Inv.taken ?_
      exact h.move ht trivial (fun _ _ _ _ _ _ hm => by cases hm) (by rw [hpc]; rfl)
    · next hno =>
      cases hs
      refine Inv.taken ?_
      have hg : (s.nodes n).gen = gn := by
        by_cases hg : (s.nodes n).gen = gn
        · exact hg
        · exact absurd (Or.inr (Or.inl hg)) hno
      have hd : (s.nodes n).del = false := by
        cases hd : (s.nodes n).del with
        | false => rfl
        | true => exact absurd (Or.inl hd) hno
      obtain ⟨k1, k2⟩ := hp.2.same hg
      refine h.move ht ⟨hp.1, ⟨hp.2.nlt, hd⟩, ?_, k2 hd, k1⟩ (h.more ht hc ?_) (by rw [hpc]; rfl)
      · have := hp.2.lev
        omega
      · intro y hy
        rw [hpc]
        simp only [Pc.locks, List.mem_cons, List.not_mem_nil, or_false] at hy ⊢
        exact hy.symm
  -- split
  · next o n c i hpc =>
    split at hs
    case isFalse => cases hs
    case isTrue hc =>
    cases hs
    rw [hpc] at hp
    refine Inv.same (s := (s.split o.key n c i).goto t (.on o n true)) ?_ rfl rfl rfl rfl rfl rfl
    obtain ⟨b, u, hr, he⟩ := split_redo hp.2 h.tree hc.2.1 hc.2.2
    rw [he]
    have hr' : Redo s n c (splitPlan s o.key n c i b u) b [] (cut b) := hr
    have hF := hr'.frame' h.tree
    have hnc := hr'.ne_nc h.tree
    refine h.change ht (W := fun j => j = n ∨ j = c ∨ j ∈ ids []) rfl rfl rfl (hr'.tinv h.tree) hF ?_ rfl ?_ ?_ (by rw [hpc]; rfl)
      (hr'.holds h.tree)
    · intro m hm
      rw [hpc]
      simp only [ids, List.map_nil, List.not_mem_nil, or_false] at hm
      simp only [Pc.locks, List.mem_cons, List.not_mem_nil, or_false, Prod.mk.injEq, and_true]
      exact hm
    · have hk := hr'.frame h.tree hp.2.live.1 hnc (by simp)
      refine ⟨⟨Nat.lt_of_lt_of_le hp.2.live.1 hF.fresh, ?_⟩, ?_, fun _ h' => by cases h'⟩
      · have := hk.2.1
        simp only [ids, List.map_nil] at this
        rw [this]
        exact hp.2.live.2
      · have h1 := hk.2.2.1
        have h2 := hk.2.2.2.1
        simp only [ids, List.map_nil] at h1 h2
        rw [h1]
        exact hp.2.rng.mono h2 (leB.refl _)
    · intro x hx
      rw [hpc]
      simp only [Pc.locks, List.mem_cons, List.not_mem_nil, or_false] at hx ⊢
      exact Or.inl hx
  -- merge
  · next o n c m hpc =>
    split at hs
    case isFalse => cases hs
    case isTrue hc =>
    cases hs
    rw [hpc] at hp
    refine h.move ht ⟨hp.1, hp.2, ?_⟩ (h.kept ht ?_) (by rw [hpc]; rfl)
    · simp only [List.nil_append, List.length_map, List.length_take, List.length_drop]
      congr 1
      rw [Nat.min_eq_left (by omega)]
    · intro x hx
      rw [hpc]
      simpa [Pc.locks] using hx
  -- notNeeded
  · next o n c hpc =>
    split at hs
    case isFalse => cases hs
    case isTrue hc =>
    cases hs
    rw [hpc] at hp
    refine h.move ht ⟨hp.2, fun _ _ => rfl⟩ (h.kept ht ?_) (by rw [hpc]; rfl)
    intro x hx
    rw [hpc]
    simpa [Pc.locks] using hx
  -- fail
  · next o n c hpc =>
    cases hs
    rw [hpc] at hp
    exact h.failed ht hp.1 (by rw [hpc]; rfl)
  -- lockSibling
  · next o n c olds y want hpc =>
    split at hs
    case isFalse => cases hs
    case isTrue hc =>
    split at hs
    case isFalse =>
      cases hs
      exact h.tomove ht (by rw [hpc]; rfl)
    case isTrue =>
    cases hs
    rw [hpc] at hp
    refine Inv.taken ?_
    refine h.move ht ⟨hp.1, hp.2.1, ?_⟩ (h.more ht hc ?_) (by rw [hpc]; rfl)
    · have : olds ++ [y] ++ want = olds ++ y :: want := by simp
      rw [this]
      exact hp.2.2
    · intro z hz
      rw [hpc]
      simp only [Pc.locks, List.mem_cons, List.map_append, List.mem_append, List.map_cons, List.map_nil, List.not_mem_nil, or_false] at hz ⊢
      rcases hz with hz | hz | hz | hz
      · exact Or.inr (Or.inl hz)
      · exact Or.inr (Or.inr (Or.inl hz))
      · exact Or.inr (Or.inr (Or.inr hz))
      · exact Or.inl hz
  -- commit
  · next o n c olds n0 ns hpc =>
    split at hs
    · next q hq =>
      cases hs
      rw [hpc] at hp
      obtain ⟨hw, hat, ho⟩ := hp
      rw [List.append_nil] at ho
      refine Inv.same (s := (s.merge n c olds q).goto t (.on o n true)) ?_ rfl rfl rfl rfl rfl rfl
      obtain ⟨d, mids, β, rfl, hr⟩ := plan_redo hat h.tree ho hq
      have hF := hr.frame' h.tree
      have hnc := hr.ne_nc h.tree
      refine h.change ht (W := fun j => j = n ∨ j = c ∨ j ∈ ids mids) rfl rfl rfl (hr.tinv h.tree) hF ?_ rfl ?_ ?_ (by rw [hpc]; rfl)
        (hr.holds h.tree)
      · intro m hm
        rw [hpc]
        simp only [Pc.locks, List.mem_cons, Prod.mk.injEq, and_true]
        rcases hm with hm | hm | hm
        · exact Or.inl hm
        · exact Or.inr (Or.inl hm)
        · exact Or.inr (Or.inr (List.mem_map.2 ⟨m, hm, rfl⟩))
      · have hk := hr.frame h.tree hat.live.1 hnc (hr.n_not_mids h.tree)
        refine ⟨⟨Nat.lt_of_lt_of_le hat.live.1 hF.fresh, ?_⟩, ?_, fun _ h' => by cases h'⟩
        · rw [hk.2.1]
          exact hat.live.2
        · rw [hk.2.2.1]
          exact hat.rng.mono hk.2.2.2.1 (leB.refl _)
      · intro x hx
        rw [hpc]
        simp only [Pc.locks, List.mem_cons, List.not_mem_nil, or_false] at hx ⊢
        exact Or.inl hx
    · cases hs
  -- notNeeded
  · next o n c olds hpc =>
    cases hs
    rw [hpc] at hp
    refine h.move ht ⟨hp.2.1, fun _ _ => rfl⟩ (h.kept ht ?_) (by rw [hpc]; rfl)
    intro x hx
    rw [hpc]
    simp only [Pc.locks, List.mem_cons, List.not_mem_nil, or_false] at hx ⊢
    rcases hx with hx | hx
    · exact Or.inl hx
    · exact Or.inr (Or.inl hx)
  -- fail
  · next o n c olds hpc =>
    cases hs
    rw [hpc] at hp
    exact h.failed ht hp.1 (by rw [hpc]; rfl)
  -- rootSplit
  · next o i hpc =>
    split at hs
    case isFalse => cases hs
    case isTrue hc =>
    split at hs
    case isFalse =>
      cases hs
      exact h.tomove ht (by rw [hpc]; rfl)
    case isTrue =>
    cases hs
    obtain ⟨h1, h2⟩ := splitRoot_tinv h.tree hc.2.2.1 hc.2.2.2
    refine Inv.same (s := (s.splitRoot i).goto t (.again o)) ?_ rfl rfl rfl rfl rfl rfl
    exact h.rooted ht rfl rfl rfl h1 hc.1 (isPut_writes hc.2.1) rfl (rootSplit_frame h.tree) (by rw [hpc]; rfl) h2
  -- rootCollapse
  · next o hpc =>
    split at hs
    case isFalse => cases hs
    case isTrue hc =>
    split at hs
    · next e he =>
      split at hs
      case isFalse =>
        cases hs
        exact h.tomove ht (by rw [hpc]; rfl)
      case isTrue =>
      cases hs
      obtain ⟨h1, h2⟩ := collapse_tinv h.tree hc.2.2 he
      refine Inv.same (s := (s.collapse e.2).goto t (.again o)) ?_ rfl rfl rfl rfl rfl rfl
      exact h.rooted ht rfl rfl rfl h1 hc.1 (isRemove_writes hc.2.1) rfl collapse_frame (by rw [hpc]; rfl) h2
    · cases hs
  -- rootKeep
  · next o hpc =>
    split at hs
    case isFalse => cases hs
    case isTrue hc =>
    split at hs
    case isFalse =>
      cases hs
      exact h.tomove ht (by rw [hpc]; rfl)
    case isTrue =>
    cases hs
    rw [hpc] at hp
    refine Inv.taken ?_
    exact h.move ht hp (fun _ _ _ _ _ _ hm => by cases hm) (by rw [hpc]; rfl)
  -- rootMismatch
  · next o hpc =>
    split at hs
    case isFalse => cases hs
    case isTrue hc =>
    cases hs
    exact h.tomove ht (by rw [hpc]; rfl)
  -- fail
  · next o hpc =>
    split at hs
    case isFalse => cases hs
    case isTrue hc =>
    cases hs
    rw [hpc] at hp
    exact h.failed ht hp (by rw [hpc]; rfl)
  -- reenter
  · next o w hpc =>
    cases hs
    exact h.move ht trivial (fun _ _ _ _ _ _ hm => by cases hm) (by rw [hpc]; rfl)
  -- attempt
  · next o hpc =>
    cases hs
    refine Inv.same (s := s.goto t (.start o false)) ?_ rfl rfl rfl rfl rfl rfl
    exact h.move ht trivial (fun _ _ _ _ _ _ hm => by cases hm) (by rw [hpc]; rfl)
  -- ret
  · next r hpc =>
    cases hs
    refine h.next (W := fun _ => False) ht [.ret t r] rfl rfl rfl h.tree ⟨Nat.le_refl _, fun _ _ => rfl, fun _ _ => Nat.le_refl _,
      fun _ _ _ => ⟨rfl, rfl, leB.refl _, rfl⟩, fun _ _ _ => rfl⟩ (fun _ _ _ _ _ _ h => h) (Or.inl rfl) trivial
      (fun _ _ _ _ _ _ hm => by cases hm) ?_ (fun t' ht' q => ?_) ?_
    · rw [hpc]; simp [phase, Phase.next, Pc.phase]
    · simp [phase, Phase.next, Ne.symm ht']
    · obtain ⟨M, h1, h2⟩ := h.lin
      refine ⟨M, ?_, h2⟩
      rw [points_append]
      simpa [points] using h1
  -- switchCp
  · split at hs
    · cases hs
      exact h.same rfl rfl rfl rfl rfl rfl
    · cases hs
  · cases hs

/-- It holds at the start. -/
theorem inv_init (nt : Nat) : Inv (St.init nt) := by
  have hlive : ∀ i, Live (St.init nt).nodes (St.init nt).fresh i → i = 0 := by
    intro i hi
    have := hi.1
    simp only [St.init] at this
    omega
  have hT : TInv (St.init nt).nodes (St.init nt).fresh (St.init nt).root := by
    refine ⟨⟨⟨Nat.zero_lt_one, rfl⟩, rfl, rfl⟩, fun i hi => ?_, fun i hi => ?_, fun i j hi hj _ _ _ _ => ?_⟩
    · rw [hlive i hi]; exact Nat.le_refl _
    · exact ⟨⟨0, rfl, fun b hb => by cases hb⟩, fun _ => trivial, fun h => absurd rfl h⟩
    · rw [hlive i hi, hlive j hj]
  refine ⟨hT, fun _ _ => trivial, fun _ _ _ _ _ _ _ _ hm => (by cases hm), fun t => ?_, fun _ => none, .nil _, fun k v => ⟨fun h => (by cases h), ?_⟩⟩
  · simp only [St.init, phase, Pc.phase]
    by_cases h : t < nt <;> simp [h]
  · rintro ⟨i, _, _, hm⟩
    cases hm

theorem inv_run : ∀ (l : List (Nat × Act)) (s : St), Inv s → run s l = some s' → Inv s'
  | [], s, h, hr => by cases hr; exact h
  | (t, a) :: l, s, h, hr => by
    simp only [run] at hr
    split at hr
    · next s1 hs => exact inv_run l s1 (inv_step h hs) hr
    · cases hr

end HS.Conc
