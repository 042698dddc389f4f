import Verif.Conc.Leaf

/-!
# What holds at every step of every thread
-/

namespace HS.Conc

/-- From `s` to `s'` only the nodes of `W` are changed, up to ranges growing to the left; what is changed is of a new generation. -/
structure Frame (s s' : St) (W : Nat → Prop) : Prop where
  fresh : s.fresh ≤ s'.fresh
  lev : ∀ i, i < s.fresh → (s'.nodes i).lev = (s.nodes i).lev
  gen : ∀ i, i < s.fresh → (s.nodes i).gen ≤ (s'.nodes i).gen
  keep : ∀ i, i < s.fresh → (s'.nodes i).gen = (s.nodes i).gen →
    (s'.nodes i).es = (s.nodes i).es ∧ (s'.nodes i).del = (s.nodes i).del ∧ leB (s'.nodes i).lo (s.nodes i).lo ∧ (s'.nodes i).hi = (s.nodes i).hi
  safe : ∀ i, i < s.fresh → ¬ W i → (s'.nodes i).gen = (s.nodes i).gen

theorem Frame.refl (s : St) (W : Nat → Prop) : Frame s s W :=
  ⟨Nat.le_refl _, fun _ _ => rfl, fun _ _ => Nat.le_refl _, fun _ _ _ => ⟨rfl, rfl, leB.refl _, rfl⟩, fun _ _ _ => rfl⟩

theorem Redo.frame' {s : St} {n c : Nat} {q : Plan} {d : Option Nat} {mids : List Ent} {β : Option Nat} (h : Redo s n c q d mids β)
    (hT : TInv s.nodes s.fresh s.root) : Frame s (s.merge n c (ids mids) q) fun i => i = n ∨ i = c ∨ i ∈ ids mids := by
  have hnc := h.ne_nc hT
  have hall : ∀ i, i < s.fresh → ((s.merge n c (ids mids) q).nodes i).lev = (s.nodes i).lev ∧
      (i = n ∨ i = c ∨ i ∈ ids mids → ((s.merge n c (ids mids) q).nodes i).gen = (s.nodes i).gen + 1) := by
    intro i hi
    by_cases hc : i = c
    · subst hc
      rw [merge_c hnc]
      exact ⟨rfl, fun _ => rfl⟩
    · by_cases hm : i ∈ ids mids
      · have hne : i ≠ n := by rintro rfl; exact h.n_not_mids hT hm
        rw [merge_old hne hc hm]
        exact ⟨rfl, fun _ => rfl⟩
      · refine ⟨(h.frame hT hi hc hm).1, ?_⟩
        rintro (rfl | h' | h')
        · rw [merge_n]
        · exact absurd h' hc
        · exact absurd h' hm
  have hout : ∀ i, i < s.fresh → ¬ (i = n ∨ i = c ∨ i ∈ ids mids) → ((s.merge n c (ids mids) q).nodes i).gen = (s.nodes i).gen := by
    intro i hi hw
    exact ((h.frame hT hi (fun hc => hw (Or.inr (Or.inl hc))) (fun hm => hw (Or.inr (Or.inr hm)))).2.2.2.2 (fun hn => hw (Or.inl hn))).2
  refine ⟨by simp only [St.merge]; omega, fun i hi => (hall i hi).1, fun i hi => ?_, fun i hi hg => ?_, hout⟩
  · by_cases hw : i = n ∨ i = c ∨ i ∈ ids mids
    · rw [(hall i hi).2 hw]; omega
    · rw [hout i hi hw]; exact Nat.le_refl _
  · by_cases hw : i = n ∨ i = c ∨ i ∈ ids mids
    · rw [(hall i hi).2 hw] at hg
      omega
    · have hf := h.frame hT hi (fun hc => hw (Or.inr (Or.inl hc))) (fun hm => hw (Or.inr (Or.inr hm)))
      exact ⟨(hf.2.2.2.2 (fun hn => hw (Or.inl hn))).1, hf.2.1, hf.2.2.2.1, hf.2.2.1⟩

/-- What a thread may rely on while it has no lock in `upgrade_node_locks`: if the generation of the parent is the one it saw, the parent
is as it saw it. -/
structure UpOk (s : St) (k n c gn : Nat) : Prop where
  nlt : n < s.fresh
  clt : c < s.fresh
  lev : (s.nodes c).lev + 1 = (s.nodes n).lev
  gen : gn ≤ (s.nodes n).gen
  same : (s.nodes n).gen = gn → child k (s.nodes n).es = some c ∧ ((s.nodes n).del = false → inR (s.nodes n).lo (s.nodes n).hi k)

/-- What a thread may rely on where it is. -/
def PcOk (s : St) : Pc → Prop
  | .idle => True
  | .start _ _ => True
  | .on o n w => Live s.nodes s.fresh n ∧ inR (s.nodes n).lo (s.nodes n).hi o.key ∧ (o.writes = true → w = false → (s.nodes n).lev = 0 → n = s.root)
  | .both o n _ c wc => At s o.key n c ∧ (o.writes = true → (s.nodes c).lev = 0 → wc = true)
  | .up1 o n c gn _ => o.writes = true ∧ UpOk s o.key n c gn
  | .up2 o n c gn _ => o.writes = true ∧ UpOk s o.key n c gn
  | .upd o n c => o.writes = true ∧ At s o.key n c
  | .mrg o n c olds want =>
    o.writes = true ∧ At s o.key n c ∧ olds ++ want = (((rest o.key (s.nodes n).es).drop 1).take (olds ++ want).length).map (·.2)
  | .excl o => o.writes = true
  | .again o => o.writes = true
  | .out _ => True
  | .fin _ => True

variable {s s' : St} {W : Nat → Prop}

theorem At.frame {k n c} (h : At s k n c) (hF : Frame s s' W) (hn : ¬ W n) : At s' k n c ∧ (s'.nodes n).es = (s.nodes n).es := by
  have hlt : n < s.fresh := h.live.1
  obtain ⟨k1, k2, k3, k4⟩ := hF.keep n hlt (hF.safe n hlt hn)
  refine ⟨⟨⟨Nat.lt_of_lt_of_le hlt hF.fresh, by rw [k2]; exact h.live.2⟩, by rw [hF.lev n hlt]; exact h.lev, ?_, by rw [k1]; exact h.kid⟩, k1⟩
  rw [k4]
  exact h.rng.mono k3 (leB.refl _)

theorem UpOk.frame {k n c gn} (h : UpOk s k n c gn) (hF : Frame s s' W) : UpOk s' k n c gn := by
  refine ⟨Nat.lt_of_lt_of_le h.nlt hF.fresh, Nat.lt_of_lt_of_le h.clt hF.fresh, by rw [hF.lev _ h.nlt, hF.lev _ h.clt]; exact h.lev,
    Nat.le_trans h.gen (hF.gen n h.nlt), fun hg => ?_⟩
  have hge := hF.gen n h.nlt
  have hle := h.gen
  have hsame : (s'.nodes n).gen = (s.nodes n).gen := by omega
  obtain ⟨k1, k2, k3, k4⟩ := hF.keep n h.nlt hsame
  obtain ⟨h1, h2⟩ := h.same (by omega)
  rw [k1, k2, k4]
  exact ⟨h1, fun hd => (h2 hd).mono k3 (leB.refl _)⟩

/-- What a thread relies on is not disturbed by changes of nodes it has not locked. -/
theorem PcOk.frame {p : Pc} (hT : TInv s.nodes s.fresh s.root) (h : PcOk s p) (hF : Frame s s' W) (hW : ∀ n w, (n, w) ∈ p.locks → ¬ W n)
    (hr : s'.root = s.root ∨ p.shared = false) : PcOk s' p := by
  cases p with
  | idle => trivial
  | start o w => trivial
  | fin r => trivial
  | excl o => exact h
  | again o => exact h
  | out o => trivial
  | up1 o n c gn gc => exact ⟨h.1, h.2.frame hF⟩
  | up2 o n c gn gc => exact ⟨h.1, h.2.frame hF⟩
  | on o n w =>
    obtain ⟨h1, h2, h3⟩ := h
    have hlt : n < s.fresh := h1.1
    have hn := hW n w (by simp [Pc.locks])
    obtain ⟨k1, k2, k3, k4⟩ := hF.keep n hlt (hF.safe n hlt hn)
    refine ⟨⟨Nat.lt_of_lt_of_le hlt hF.fresh, by rw [k2]; exact h1.2⟩, by rw [k4]; exact h2.mono k3 (leB.refl _), ?_⟩
    rw [hF.lev n hlt]
    rcases hr with hr | hr
    · rw [hr]; exact h3
    · simp [Pc.shared] at hr
  | both o n w c wc =>
    obtain ⟨h1, h2⟩ := h
    refine ⟨(h1.frame hF (hW n w (by simp [Pc.locks]))).1, ?_⟩
    rw [hF.lev c (h1.child hT).1.1]
    exact h2
  | upd o n c => exact ⟨h.1, (h.2.frame hF (hW n true (by simp [Pc.locks]))).1⟩
  | mrg o n c olds want =>
    obtain ⟨h1, h2, h3⟩ := h
    obtain ⟨a, b⟩ := h2.frame hF (hW n true (by simp [Pc.locks]))
    refine ⟨h1, a, ?_⟩
    rw [b]
    exact h3

/-- The phase of the call a thread is in. -/
def Pc.phase : Pc → Phase
  | .idle => .out
  | .start o _ => .before o
  | .on o _ _ => .before o
  | .both o _ _ _ _ => .before o
  | .up1 o _ _ _ _ => .before o
  | .up2 o _ _ _ _ => .before o
  | .upd o _ _ => .before o
  | .mrg o _ _ _ _ => .before o
  | .excl o => .before o
  | .again o => .before o
  | .out o => .before o
  | .fin r => .after r

/-- What holds in every state. -/
structure Inv (s : St) : Prop where
  tree : TInv s.nodes s.fresh s.root
  pcs : ∀ t, t < s.nt → PcOk s (s.pcs t)
  mutex : ∀ t t', t < s.nt → t' < s.nt → t' ≠ t → ∀ n w w', (n, w) ∈ (s.pcs t).locks → (n, w') ∈ (s.pcs t').locks → w = false ∧ w' = false
  phases : ∀ t, phase t .out s.tr = some (if t < s.nt then (s.pcs t).phase else .out)
  lin : ∃ M, Legal (fun _ => none) (points s.tr) M ∧ ∀ k v, M k = some v ↔ Holds s.nodes s.fresh k v

theorem phase_append (t : Nat) : ∀ (l l' : List Ev) (p : Phase), phase t p (l ++ l') = (phase t p l).bind fun p' => phase t p' l'
  | [], l', p => rfl
  | e :: l, l', p => by
    simp only [List.cons_append, phase]
    cases p.next t e with
    | none => rfl
    | some p' => exact phase_append t l l' p'

theorem points_append : ∀ (l l' : List Ev), points (l ++ l') = points l ++ points l'
  | [], _ => rfl
  | .call _ _ :: l, l' => by simpa [points] using points_append l l'
  | .point _ _ _ :: l, l' => by simpa [points] using points_append l l'
  | .ret _ _ :: l, l' => by simpa [points] using points_append l l'

theorem Legal.append {M M' M'' : Nat → Option Nat} {l l' : List (Op × Res)} (h : Legal M l M') (h' : Legal M' l' M'') : Legal M (l ++ l') M'' := by
  induction h with
  | nil => exact h'
  | ok o _ ih => exact .ok o (ih h')
  | err o ho _ ih => exact .err o ho (ih h')

/-- A thread moves on: what has to be shown. -/
theorem Inv.next (h : Inv s) {t : Nat} (ht : t < s.nt) {s1 : St} {p : Pc} (evs : List Ev) (hnt : s1.nt = s.nt) (hpc : s1.pcs = s.pcs)
    (htr : s1.tr = s.tr ++ evs) (hT : TInv s1.nodes s1.fresh s1.root) (hF : Frame s s1 W)
    (hW : ∀ t', t' < s.nt → t' ≠ t → ∀ n w, (n, w) ∈ (s.pcs t').locks → ¬ W n)
    (hroot : s1.root = s.root ∨ ∀ t', t' < s.nt → t' ≠ t → (s.pcs t').shared = false) (hp : PcOk s1 p)
    (hl : ∀ t', t' < s.nt → t' ≠ t → ∀ n w w', (n, w) ∈ p.locks → (n, w') ∈ (s.pcs t').locks → w = false ∧ w' = false)
    (hph : phase t (s.pcs t).phase evs = some p.phase) (hph' : ∀ t', t' ≠ t → ∀ q, phase t' q evs = some q)
    (hlin : ∃ M, Legal (fun _ => none) (points (s.tr ++ evs)) M ∧ ∀ k v, M k = some v ↔ Holds s1.nodes s1.fresh k v) :
    Inv (s1.goto t p) := by
  have hpt : ∀ t', t' ≠ t → (s1.goto t p).pcs t' = s.pcs t' := by intro t' h'; simp [St.goto, h', hpc]
  have hpe : (s1.goto t p).pcs t = p := by simp [St.goto]
  have hnt' : (s1.goto t p).nt = s.nt := hnt
  refine ⟨hT, fun t' ht' => ?_, fun t1 t2 h1 h2 hne n w w' hm hm' => ?_, fun t' => ?_, ?_⟩
  · rw [hnt'] at ht'
    by_cases he : t' = t
    · subst he
      rw [hpe]
      exact PcOk.frame (s := s1) (s' := s1.goto t' p) (W := fun _ => False) hT hp ⟨Nat.le_refl _, fun _ _ => rfl, fun _ _ => Nat.le_refl _,
        fun _ _ _ => ⟨rfl, rfl, leB.refl _, rfl⟩, fun _ _ _ => rfl⟩ (fun _ _ _ h => h) (Or.inl rfl)
    · rw [hpt t' he]
      refine PcOk.frame (s' := s1.goto t p) h.tree (h.pcs t' ht') ⟨hF.1, hF.2, hF.3, hF.4, hF.5⟩ (hW t' ht' he) ?_
      rcases hroot with hr | hr
      · exact Or.inl hr
      · exact Or.inr (hr t' ht' he)
  · rw [hnt'] at h1 h2
    by_cases e1 : t1 = t
    · subst e1
      rw [hpe] at hm
      rw [hpt t2 hne] at hm'
      exact hl t2 h2 hne n w w' hm hm'
    · rw [hpt t1 e1] at hm
      by_cases e2 : t2 = t
      · subst e2
        rw [hpe] at hm'
        have := hl t1 h1 e1 n w' w hm' hm
        exact ⟨this.2, this.1⟩
      · rw [hpt t2 e2] at hm'
        exact h.mutex t1 t2 h1 h2 hne n w w' hm hm'
  · have : (s1.goto t p).tr = s.tr ++ evs := htr
    rw [this, phase_append, h.phases t', hnt']
    by_cases e : t' = t
    · subst e
      rw [hpe]
      simp only [if_pos ht, Option.bind_some]
      exact hph
    · rw [hpt t' e]
      simp only [Option.bind_some]
      exact hph' t' e _
  · have : (s1.goto t p).tr = s.tr ++ evs := htr
    rw [this]
    exact hlin

/-- A thread moves on, changing nothing but its place. -/
theorem Inv.move (h : Inv s) {t : Nat} (ht : t < s.nt) {p : Pc} (hp : PcOk s p)
    (hl : ∀ t', t' < s.nt → t' ≠ t → ∀ n w w', (n, w) ∈ p.locks → (n, w') ∈ (s.pcs t').locks → w = false ∧ w' = false)
    (hph : (s.pcs t).phase = p.phase) : Inv (s.goto t p) := by
  refine h.next (W := fun _ => False) ht [] rfl rfl (by simp) h.tree (Frame.refl s _) (fun _ _ _ _ _ _ h => h) (Or.inl rfl) hp hl ?_
    (fun _ _ _ => rfl) ?_
  · simp [phase, hph]
  · simpa using h.lin

/-- Locks kept stay compatible. -/
theorem Inv.kept (h : Inv s) {t : Nat} (ht : t < s.nt) {p : Pc} (hs : ∀ x ∈ p.locks, x ∈ (s.pcs t).locks) :
    ∀ t', t' < s.nt → t' ≠ t → ∀ n w w', (n, w) ∈ p.locks → (n, w') ∈ (s.pcs t').locks → w = false ∧ w' = false :=
  fun t' ht' hne n w w' hm hm' => h.mutex t t' ht ht' hne n w w' (hs _ hm) hm'

/-- One more lock. -/
theorem Inv.more (h : Inv s) {t x : Nat} {b : Bool} (ht : t < s.nt) {p : Pc} (hc : s.canLock t x b)
    (hs : ∀ y ∈ p.locks, y = (x, b) ∨ y ∈ (s.pcs t).locks) :
    ∀ t', t' < s.nt → t' ≠ t → ∀ n w w', (n, w) ∈ p.locks → (n, w') ∈ (s.pcs t').locks → w = false ∧ w' = false := by
  intro t' ht' hne n w w' hm hm'
  rcases hs _ hm with he | he
  · cases he
    exact hc t' ht' hne w' hm'
  · exact h.mutex t t' ht ht' hne n w w' he hm'

/-- A failing call: its point, without effect. -/
theorem Inv.failed (h : Inv s) {t : Nat} (ht : t < s.nt) {o : Op} (hw : o.writes = true) (hph : (s.pcs t).phase = .before o) :
    Inv ((s.emit (.point t o .err)).goto t (.fin .err)) := by
  refine h.next (W := fun _ => False) ht [.point t o .err] rfl rfl rfl h.tree ⟨Nat.le_refl _, fun _ _ => rfl, fun _ _ => Nat.le_refl _,
    fun _ _ _ => ⟨rfl, rfl, leB.refl _, rfl⟩, fun _ _ _ => rfl⟩ (fun _ _ _ _ _ _ h => h) (Or.inl rfl) trivial
    (fun _ _ _ _ _ _ hm => by cases hm) ?_ (fun t' ht' q => ?_) ?_
  · rw [hph]; simp [phase, Phase.next, Pc.phase]
  · simp [phase, Phase.next, Ne.symm ht']
  · obtain ⟨M, h1, h2⟩ := h.lin
    refine ⟨M, ?_, h2⟩
    rw [points_append]
    refine h1.append (.err o ?_ (.nil _))
    rintro k rfl
    cases hw

/-- The nodes a thread has locked for writing, no one else has locked. -/
theorem Inv.own (h : Inv s) {t : Nat} (ht : t < s.nt) {n : Nat} (hn : (n, true) ∈ (s.pcs t).locks) {t' w} (ht' : t' < s.nt) (hne : t' ≠ t)
    (hm : (n, w) ∈ (s.pcs t').locks) : False := by
  have := (h.mutex t t' ht ht' hne n true w hn hm).1
  cases this

/-- A call takes its effect. -/
theorem Inv.atLeaf (h : Inv s) {t n : Nat} {o : Op} {w : Bool} (ht : t < s.nt) (hpc : s.pcs t = .on o n w) (h0 : (s.nodes n).lev = 0)
    (hw : w = true ∨ o.writes = false ∨ (o.isRemove = true ∧ (s.nodes n).es = [])) : Inv (s.atLeaf t n o) := by
  have hp := h.pcs t ht
  rw [hpc] at hp
  obtain ⟨hlive, hk, _⟩ := hp
  have hleaf := (h.tree.node n hlive).2.1 h0
  obtain ⟨M, hM1, hM2⟩ := h.lin
  have hMk : ∀ v, M o.key = some v ↔ (some o.key, v) ∈ (s.nodes n).es := fun v => (hM2 _ v).trans (holds_leaf h.tree hlive h0 hk v)
  obtain ⟨hr, hkey, hoth⟩ := leafCall_apply hleaf o hMk
  have hok := leafCall_ok hleaf o hk
  have hphs : (s.pcs t).phase = .before o := by rw [hpc]; rfl
  simp only [St.atLeaf]
  have hlegal : Legal (fun _ => none) (points (s.tr ++ [.point t o (leafCall (s.nodes n).es o).2])) (apply M o).1 := by
    rw [points_append, hr]
    exact hM1.append (.ok o (.nil _))
  by_cases hes : (leafCall (s.nodes n).es o).1 = (s.nodes n).es
  · rw [if_pos hes]
    refine h.next (W := fun _ => False) ht [.point t o (leafCall (s.nodes n).es o).2] rfl rfl rfl h.tree ⟨Nat.le_refl _, fun _ _ => rfl,
      fun _ _ => Nat.le_refl _, fun _ _ _ => ⟨rfl, rfl, leB.refl _, rfl⟩, fun _ _ _ => rfl⟩ (fun _ _ _ _ _ _ h => h) (Or.inl rfl) trivial
      (fun _ _ _ _ _ _ hm => by cases hm) ?_ (fun t' ht' q => ?_) ⟨(apply M o).1, hlegal, fun k v => ?_⟩
    · rw [hphs]; simp [phase, Phase.next, Pc.phase]
    · simp [phase, Phase.next, Ne.symm ht']
    · show _ ↔ Holds s.nodes s.fresh k v
      by_cases hkk : k = o.key
      · subst hkk
        rw [hkey v, hes, ← holds_leaf h.tree hlive h0 hk v]
      · rw [(hoth k hkk).1]
        exact hM2 k v
  · rw [if_neg hes]
    have hwt : w = true := by
      rcases hw with hw | hw | hw
      · exact hw
      · exfalso
        apply hes
        cases o with
        | get k => rfl
        | put ty k v => cases hw
        | remove k => cases hw
      · exfalso
        apply hes
        cases o with
        | get k => rfl
        | put ty k v => cases hw.1
        | remove k => simp [leafCall, hw.2, look]
    subst hwt
    have hT' := set_tinv (g := (s.nodes n).gen + 1) h.tree hlive h0 hok
    refine h.next (W := fun i => i = n) ht [.point t o (leafCall (s.nodes n).es o).2] rfl rfl rfl hT' ?_ ?_ (Or.inl rfl) trivial
      (fun _ _ _ _ _ _ hm => by cases hm) ?_ (fun t' ht' q => ?_) ⟨(apply M o).1, hlegal, fun k v => ?_⟩
    · have hof : ∀ i, i ≠ n → (s.set n { s.nodes n with es := (leafCall (s.nodes n).es o).1, gen := (s.nodes n).gen + 1 }).nodes i = s.nodes i := by
        intro i h
        simp [St.set, h]
      have hon : (s.set n { s.nodes n with es := (leafCall (s.nodes n).es o).1, gen := (s.nodes n).gen + 1 }).nodes n =
        { s.nodes n with es := (leafCall (s.nodes n).es o).1, gen := (s.nodes n).gen + 1 } := by simp [St.set]
      refine ⟨Nat.le_refl _, fun i _ => ?_, fun i _ => ?_, fun i _ => ?_, fun i _ hi => ?_⟩
      · show ((s.set n _).nodes i).lev = _
        by_cases hi : i = n
        · subst hi; rw [hon]
        · rw [hof i hi]
      · show _ ≤ ((s.set n _).nodes i).gen
        by_cases hi : i = n
        · subst hi; rw [hon]; exact Nat.le_succ _
        · rw [hof i hi]; exact Nat.le_refl _
      · show ((s.set n _).nodes i).gen = _ → ((s.set n _).nodes i).es = _ ∧ ((s.set n _).nodes i).del = _ ∧ leB ((s.set n _).nodes i).lo _ ∧ ((s.set n _).nodes i).hi = _
        by_cases hi : i = n
        · subst hi
          rw [hon]
          intro hg
          simp at hg
        · rw [hof i hi]
          exact fun _ => ⟨rfl, rfl, leB.refl _, rfl⟩
      · show ((s.set n _).nodes i).gen = _
        rw [hof i hi]
    · intro t' ht' hne m w hm hmn
      subst hmn
      exact h.own ht (by rw [hpc]; simp [Pc.locks]) ht' hne hm
    · rw [hphs]; simp [phase, Phase.next, Pc.phase]
    · simp [phase, Phase.next, Ne.symm ht']
    · show _ ↔ Holds (s.set n _).nodes s.fresh k v
      by_cases hkk : k = o.key
      · subst hkk
        have hlive' : Live (s.set n { s.nodes n with es := (leafCall (s.nodes n).es o).1, gen := (s.nodes n).gen + 1 }).nodes s.fresh n := by
          refine ⟨hlive.1, ?_⟩
          simp [St.set, hlive.2]
        have := holds_leaf (s := s.set n { s.nodes n with es := (leafCall (s.nodes n).es o).1, gen := (s.nodes n).gen + 1 }) (n := n) (k := o.key)
          hT' hlive' (by simp [St.set, h0]) (by simpa [St.set] using hk) v
        have hfr : (s.set n { s.nodes n with es := (leafCall (s.nodes n).es o).1, gen := (s.nodes n).gen + 1 }).fresh = s.fresh := rfl
        rw [hfr] at this
        rw [hkey v, this]
        simp [St.set]
      · rw [(hoth k hkk).1, set_holds hlive h0 (hoth k hkk).2]
        exact hM2 k v

end HS.Conc
