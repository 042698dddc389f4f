import Verif.Reserve.Model
/-!
# C108: a member that lags by no more than the reserve finds its next entries in the logs of the others
-/
namespace HS.Reserve

/-- The member `q` can be sent the entry after those it has from the log of `m`. -/
def Finds (s : St) (m q : Nat) : Prop := (s.mem m).first ≤ (s.mem q).got

/-- Nobody reads the status of its peers while it does not lead. -/
def Leads (l : List Ev) : Prop := ∀ x, Ev.statusSelf x ∉ l

/-- The log of `m` is cut only to the boundaries of the leaders: it is not told to compact by the application, and gets no snapshot. -/
def OwnLog (m : Nat) (l : List Ev) : Prop := ∀ n, Ev.manual m n ∉ l ∧ Ev.snapshot m n ∉ l

/-- `q` stays a member. -/
def Stays (q : Nat) (l : List Ev) : Prop := Ev.leave q ∉ l

structure Inv (reserve m q : Nat) (s : St) : Prop where
  cfg : q ∈ s.cfg
  com : ∀ p, (s.mem p).committed ≤ (s.mem p).got ∧ (s.mem p).committed ≤ s.top ∧ (s.mem p).ckpt ≤ (s.mem p).committed
  seen : ∀ l v, s.seen l = some v → l ≠ q → ∃ w, v = some w ∧ w ≤ (s.mem q).got
  props : ∀ b ∈ s.props, b ≤ max (s.top - reserve) (s.mem q).got
  limit : (s.mem m).limit ≤ max (s.top - reserve) (s.mem q).got
  first : (s.mem m).first ≤ max (s.top - reserve) (s.mem q).got

theorem minPeers_le {view : Nat → Nat} {me : Nat} {l : List Nat} {q : Nat} (hq : q ∈ l) (hne : q ≠ me) :
    ∃ w, minPeers view me l = some w ∧ w ≤ view q := by
  induction l with
  | nil => cases hq
  | cons p ps ih =>
    unfold minPeers
    by_cases hp : p = me
    · rw [if_pos hp]
      rcases List.mem_cons.1 hq with h | h
      · exact absurd (h.trans hp) hne
      · exact ih h
    · rw [if_neg hp]
      rcases List.mem_cons.1 hq with h | h
      · subst h
        cases hm : minPeers view me ps with
        | none => exact ⟨_, rfl, Nat.le_refl _⟩
        | some v => exact ⟨_, rfl, Nat.min_le_left _ _⟩
      · obtain ⟨w, h1, h2⟩ := ih h
        rw [h1]
        exact ⟨_, rfl, Nat.le_trans (Nat.min_le_right _ _) h2⟩

theorem inv_init {reserve m q : Nat} {cfg : List Nat} (hq : q ∈ cfg) : Inv reserve m q (St.init cfg) :=
  ⟨hq, by intro p; simp [St.init, Mem.fresh], (by intro l v h; cases h), (by intro b h; cases h), Nat.zero_le _, Nat.zero_le _⟩

theorem set_same (s : St) (p : Nat) (m : Mem) : (s.set p m).mem p = m := by simp [St.set]
theorem set_other (s : St) {p q : Nat} (m : Mem) (h : q ≠ p) : (s.set p m).mem q = s.mem q := by simp [St.set, h]

/-- A change of one member that keeps what the invariant says of it. -/
theorem inv_set {reserve m q : Nat} {s : St} (h : Inv reserve m q s) (p : Nat) (x : Mem) (top : Nat) (ht : s.top ≤ top)
    (hg : p = q → (s.mem p).got ≤ x.got) (hc : x.committed ≤ x.got ∧ x.committed ≤ top ∧ x.ckpt ≤ x.committed)
    (hl : p = m → x.limit ≤ max (top - reserve) (max (s.mem q).got (if p = q then x.got else 0)) ∧
      x.first ≤ max (top - reserve) (max (s.mem q).got (if p = q then x.got else 0))) :
    Inv reserve m q { s.set p x with top := top } := by
  obtain ⟨h1, h2, h3, h4, h5, h6⟩ := h
  have hmem : ∀ r, ({ s.set p x with top := top } : St).mem r = if r = p then x else s.mem r := fun r => rfl
  have hgot : (s.mem q).got ≤ (({ s.set p x with top := top } : St).mem q).got := by
    rw [hmem]; split
    · rename_i e; subst e; exact hg rfl
    · exact Nat.le_refl _
  have hb : ∀ b, b ≤ max (s.top - reserve) (s.mem q).got → b ≤ max (top - reserve) (({ s.set p x with top := top } : St).mem q).got := by
    intro b hb; omega
  refine ⟨h1, ?_, ?_, ?_, ?_, ?_⟩
  · intro r
    rw [hmem]; split
    · exact hc
    · have := h2 r; show _ ∧ _ ≤ top ∧ _; omega
  · intro l v hv hne
    obtain ⟨w, e, hw⟩ := h3 l v hv hne
    exact ⟨w, e, Nat.le_trans hw hgot⟩
  · intro b hbm; exact hb b (h4 b hbm)
  · show (({ s.set p x with top := top } : St).mem m).limit ≤ max (top - reserve) (({ s.set p x with top := top } : St).mem q).got
    by_cases e : m = p
    · have := (hl e.symm).1
      rw [hmem m, if_pos e]
      have h7 := hmem q
      by_cases e2 : p = q
      · rw [if_pos e2] at this; rw [h7, if_pos e2.symm]
        have := hg e2; rw [e2] at this; omega
      · rw [if_neg e2] at this; rw [h7, if_neg (fun e => e2 e.symm)]; omega
    · rw [hmem m, if_neg e]; exact hb _ h5
  · show (({ s.set p x with top := top } : St).mem m).first ≤ max (top - reserve) (({ s.set p x with top := top } : St).mem q).got
    by_cases e : m = p
    · have := (hl e.symm).2
      rw [hmem m, if_pos e]
      have h7 := hmem q
      by_cases e2 : p = q
      · rw [if_pos e2] at this; rw [h7, if_pos e2.symm]
        have := hg e2; rw [e2] at this; omega
      · rw [if_neg e2] at this; rw [h7, if_neg (fun e => e2 e.symm)]; omega
    · rw [hmem m, if_neg e]; exact hb _ h6

theorem update_le {x : Mem} {b B : Nat} (hl : x.limit ≤ B) (hb : b ≤ B) :
    (x.update b).limit ≤ B ∧ (x.update b).first = x.first ∧ (x.update b).got = x.got ∧ (x.update b).committed = x.committed ∧ (x.update b).ckpt = x.ckpt := by
  unfold Mem.update
  split
  · exact ⟨hl, rfl, rfl, rfl, rfl⟩
  · exact ⟨Nat.le_trans (Nat.min_le_left _ _) hb, rfl, rfl, rfl, rfl⟩

theorem compact_le {x : Mem} {n B : Nat} (hl : x.limit ≤ B) (hf : x.first ≤ B) :
    (x.compact n).first ≤ B ∧ (x.compact n).limit = x.limit ∧ (x.compact n).got = x.got ∧ (x.compact n).committed = x.committed ∧
      (x.compact n).ckpt = x.ckpt := by
  unfold Mem.compact
  split
  · exact ⟨hf, rfl, rfl, rfl, rfl⟩
  · exact ⟨Nat.le_trans (Nat.min_le_right _ _) hl, rfl, rfl, rfl, rfl⟩

theorem inv_step {reserve m q : Nat} {s s' : St} {e : Ev} (h : Inv reserve m q s) (hs : step reserve s e = some s')
    (h1 : ∀ x, e ≠ .statusSelf x) (h2 : ∀ n, e ≠ .manual m n ∧ e ≠ .snapshot m n) (h3 : e ≠ .leave q) : Inv reserve m q s' := by
  have hI := h
  obtain ⟨i1, i2, i3, i4, i5, i6⟩ := h
  cases e with
  | recv p n =>
    simp only [step] at hs
    split at hs
    · rename_i hn
      injection hs with hs; subst hs
      have hc := i2 p
      refine inv_set hI p _ s.top (Nat.le_refl _) (fun _ => Nat.le_of_lt hn) ⟨by show (s.mem p).committed ≤ n; omega, hc.2.1, hc.2.2⟩ ?_
      intro e; subst e
      constructor
      · show (s.mem p).limit ≤ _; omega
      · show (s.mem p).first ≤ _; omega
    · cases hs
  | commit p n =>
    simp only [step] at hs
    split at hs
    · rename_i hn
      injection hs with hs; subst hs
      have hc := i2 p
      refine inv_set hI p _ (max s.top n) (Nat.le_max_left _ _) (fun _ => Nat.le_refl _)
        ⟨hn.2, Nat.le_max_right _ _, by show (s.mem p).ckpt ≤ n; omega⟩ ?_
      intro e; subst e
      constructor
      · show (s.mem p).limit ≤ _; omega
      · show (s.mem p).first ≤ _; omega
    · cases hs
  | ckpt p =>
    injection hs with hs; subst hs
    have hc := i2 p
    refine inv_set hI p _ s.top (Nat.le_refl _) (fun _ => Nat.le_refl _) ⟨hc.1, hc.2.1, Nat.le_refl _⟩ ?_
    intro e; subst e
    constructor
    · show (s.mem p).limit ≤ _; omega
    · show (s.mem p).first ≤ _; omega
  | status l view =>
    simp only [step] at hs
    split at hs
    · rename_i hv
      injection hs with hs; subst hs
      refine ⟨i1, i2, ?_, i4, i5, i6⟩
      intro r v hr hne
      have hr : (if r = l then some (minPeers view l s.cfg) else s.seen r) = some v := hr
      split at hr
      · rename_i e
        injection hr with hr; subst hr
        obtain ⟨w, hw1, hw2⟩ := minPeers_le (view := view) (me := l) i1 (fun e2 => hne (e.trans e2.symm))
        exact ⟨w, hw1, Nat.le_trans hw2 (hv q i1)⟩
      · exact i3 r v hr hne
    · cases hs
  | statusSelf l => exact absurd rfl (h1 l)
  | propose l =>
    simp only [step] at hs
    cases hv : s.seen l with
    | none => rw [hv] at hs; cases hs
    | some v =>
      rw [hv] at hs
      injection hs with hs; subst hs
      have hc := i2 l
      have hb : boundary reserve (s.mem l).committed v ≤ max (s.top - reserve) (s.mem q).got := by
        unfold boundary
        by_cases e : l = q
        · subst e
          cases v with
          | none => show max _ (s.mem l).committed ≤ _; omega
          | some w => show max _ (min _ w) ≤ _; omega
        · obtain ⟨w, e1, e2⟩ := i3 l v hv e
          subst e1
          show max _ (min _ w) ≤ _; omega
      refine ⟨i1, i2, ?_, ?_, i5, i6⟩
      · intro r w hr hne
        have hr : (if r = l then none else s.seen r) = some w := hr
        split at hr
        · cases hr
        · exact i3 r w hr hne
      · intro b hbm
        have hbm : b ∈ (if 0 < boundary reserve (s.mem l).committed v then boundary reserve (s.mem l).committed v :: s.props else s.props) := hbm
        split at hbm
        · rcases List.mem_cons.1 hbm with h | h
          · rw [h]; exact hb
          · exact i4 b h
        · exact i4 b hbm
  | apply p b =>
    simp only [step] at hs
    split at hs
    · rename_i hb
      injection hs with hs; subst hs
      have hc := i2 p
      have hu := fun (B : Nat) => @update_le (s.mem p) b B
      have hz := hu (max (s.mem p).limit b) (Nat.le_max_left _ _) (Nat.le_max_right _ _)
      refine inv_set hI p _ s.top (Nat.le_refl _) (fun _ => by rw [hz.2.2.1]; exact Nat.le_refl _)
        (by rw [hz.2.2.1, hz.2.2.2.1, hz.2.2.2.2]; exact hc) ?_
      intro e; subst e
      have := hu _ i5 (i4 b hb)
      constructor
      · have := this.1; omega
      · rw [this.2.1]; omega
    · cases hs
  | compact p n =>
    injection hs with hs; subst hs
    have hc := i2 p
    have hu := fun (B : Nat) => @compact_le (s.mem p) n B
    have hz := hu (max (s.mem p).limit (s.mem p).first) (Nat.le_max_left _ _) (Nat.le_max_right _ _)
    refine inv_set hI p _ s.top (Nat.le_refl _) (fun _ => by rw [hz.2.2.1]; exact Nat.le_refl _)
      (by rw [hz.2.2.1, hz.2.2.2.1, hz.2.2.2.2]; exact hc) ?_
    intro e; subst e
    have := hu _ i5 i6
    constructor
    · rw [this.2.1]; omega
    · have := this.1; omega
  | manual p n =>
    injection hs with hs; subst hs
    have hc := i2 p
    have hz := @update_le (s.mem p) n (max (s.mem p).limit n) (Nat.le_max_left _ _) (Nat.le_max_right _ _)
    refine inv_set hI p _ s.top (Nat.le_refl _) (fun _ => by rw [hz.2.2.1]; exact Nat.le_refl _)
      (by rw [hz.2.2.1, hz.2.2.2.1, hz.2.2.2.2]; exact hc) ?_
    intro e; subst e
    exact absurd rfl (h2 n).1
  | snapshot p n =>
    simp only [step] at hs
    split at hs
    · rename_i hn
      injection hs with hs; subst hs
      have hc := i2 p
      refine inv_set hI p _ s.top (Nat.le_refl _) (fun _ => Nat.le_of_lt hn.1) ⟨Nat.le_refl _, hn.2, by show (s.mem p).ckpt ≤ n; omega⟩ ?_
      intro e; subst e
      exact absurd rfl (h2 n).2
    · cases hs
  | crash p =>
    injection hs with hs; subst hs
    have hc := i2 p
    have hk := inv_set hI p { s.mem p with committed := (s.mem p).ckpt, limit := 0 } s.top (Nat.le_refl _) (fun _ => Nat.le_refl _)
      ⟨by show (s.mem p).ckpt ≤ (s.mem p).got; omega, by show (s.mem p).ckpt ≤ s.top; omega, Nat.le_refl _⟩ (by
        intro e; subst e
        constructor
        · exact Nat.zero_le _
        · show (s.mem p).first ≤ _; omega)
    refine ⟨hk.cfg, hk.com, ?_, hk.props, hk.limit, hk.first⟩
    intro r v hr hne
    have hr : (if r = p then none else s.seen r) = some v := hr
    split at hr
    · cases hr
    · exact hk.seen r v hr hne
  | join p =>
    simp only [step] at hs
    split at hs
    · cases hs
    · rename_i hp
      injection hs with hs; subst hs
      have hk := inv_set hI p .fresh s.top (Nat.le_refl _) (fun e => absurd (e ▸ i1) hp)
        ⟨Nat.le_refl _, Nat.zero_le _, Nat.le_refl _⟩ (fun _ => ⟨Nat.zero_le _, Nat.zero_le _⟩)
      exact ⟨List.mem_cons_of_mem _ i1, hk.com, hk.seen, hk.props, hk.limit, hk.first⟩
  | leave p =>
    injection hs with hs; subst hs
    refine ⟨?_, i2, i3, i4, i5, i6⟩
    refine List.mem_filter.2 ⟨i1, ?_⟩
    simp only [decide_eq_true_eq]
    intro e; exact h3 (by rw [e])

theorem inv_run {reserve m q : Nat} {l : List Ev} : ∀ {s s' : St}, Inv reserve m q s → run reserve s l = some s' →
    Leads l → OwnLog m l → Stays q l → Inv reserve m q s' := by
  induction l with
  | nil => intro s s' h hs _ _ _; injection hs with hs; subst hs; exact h
  | cons e l ih =>
    intro s s' h hs h1 h2 h3
    simp only [run] at hs
    split at hs
    · rename_i s1 he
      refine ih (inv_step h he ?_ ?_ ?_) hs (fun x hx => h1 x (List.mem_cons_of_mem _ hx))
        (fun n => ⟨fun hx => (h2 n).1 (List.mem_cons_of_mem _ hx), fun hx => (h2 n).2 (List.mem_cons_of_mem _ hx)⟩)
        (fun hx => h3 (List.mem_cons_of_mem _ hx))
      · intro x e'; exact h1 x (e' ▸ List.mem_cons_self)
      · intro n; exact ⟨fun e' => (h2 n).1 (e' ▸ List.mem_cons_self), fun e' => (h2 n).2 (e' ▸ List.mem_cons_self)⟩
      · intro e'; exact h3 (e' ▸ List.mem_cons_self)
    · cases hs

/-- **C108 (part)**.  A member `q` of the group that lags by no more than the reserve behind what is committed anywhere can be sent its next
entries from the log of each member `m`, whatever was proposed, applied, compacted and lost in crashes, if no leader read the
status of its peers while it did not lead and the log of `m` was cut only to the boundaries of leaders. -/
theorem C108_reserve_partial {reserve m q : Nat} {cfg : List Nat} {l : List Ev} {s : St} (hq : q ∈ cfg)
    (hr : run reserve (St.init cfg) l = some s) (h1 : Leads l) (h2 : OwnLog m l) (h3 : Stays q l)
    (hlag : s.top ≤ (s.mem q).got + reserve) : Finds s m q := by
  have := (inv_run (inv_init (m := m) hq) hr h1 h2 h3).first
  unfold Finds
  omega

/-- **C108**.  Logs do not grow for ever because of a member that lags: after a proposal, a member that has the leader's commit index in a
checkpoint and is asked to compact keeps no more than the reserve below it, and nothing that all peers have. -/
theorem C108_reclaims {reserve l p n : Nat} {s : St} {view : Nat → Nat} (hv : ∀ q ∈ s.cfg, view q ≤ (s.mem q).got)
    (hc : (s.mem l).committed ≤ (s.mem p).ckpt) (hn : (s.mem l).committed ≤ n) (hpos : reserve < (s.mem l).committed) :
    ∃ s', run reserve s [.status l view, .propose l, .apply p (boundary reserve (s.mem l).committed (minPeers view l s.cfg)), .compact p n] = some s' ∧
      (s.mem l).committed ≤ (s'.mem p).first + reserve ∧
      ∀ x, (∀ q ∈ s.cfg, q ≠ l → x ≤ view q) → x ≤ (s.mem l).committed → x ≤ (s'.mem p).first := by
  have hb : 0 < boundary reserve (s.mem l).committed (minPeers view l s.cfg) := by unfold boundary; omega
  have hble : boundary reserve (s.mem l).committed (minPeers view l s.cfg) ≤ (s.mem l).committed := by
    unfold boundary; split <;> omega
  have hmin : ∀ x, (∀ q ∈ s.cfg, q ≠ l → x ≤ view q) → x ≤ (s.mem l).committed → x ≤ boundary reserve (s.mem l).committed (minPeers view l s.cfg) := by
    intro x hx hxc
    have key : ∀ cfg : List Nat, (∀ q ∈ cfg, q ≠ l → x ≤ view q) → ∀ w, minPeers view l cfg = some w → x ≤ w := by
      intro cfg
      induction cfg with
      | nil => intro _ w h; cases h
      | cons a as ih =>
        intro hx w h
        unfold minPeers at h
        have ih := ih (fun q hq => hx q (List.mem_cons_of_mem _ hq))
        split at h
        · exact ih w h
        · rename_i ha
          have ha := hx a List.mem_cons_self ha
          cases hm : minPeers view l as with
          | none => rw [hm] at h; injection h with h; rw [← h]; exact ha
          | some v => rw [hm] at h; injection h with h; have := ih v hm; rw [← h]; omega
    have := key s.cfg hx
    unfold boundary
    cases hm : minPeers view l s.cfg with
    | none => show x ≤ max _ (s.mem l).committed; omega
    | some w => have := this w hm; show x ≤ max _ (min _ w); omega
  have hge : (s.mem l).committed ≤ boundary reserve (s.mem l).committed (minPeers view l s.cfg) + reserve := by unfold boundary; omega
  revert hb hble hmin hge
  generalize hB : boundary reserve (s.mem l).committed (minPeers view l s.cfg) = B
  intro hb hble hmin hge
  have hf : B ≤ ((((s.mem p).update B).compact n).first) := by
    have hu : B ≤ ((s.mem p).update B).limit := by
      unfold Mem.update
      split
      · omega
      · show B ≤ min B (s.mem p).ckpt; omega
    unfold Mem.compact
    split
    · omega
    · show B ≤ min n _; omega
  have hrun : ∃ s', run reserve s [.status l view, .propose l, .apply p B, .compact p n] = some s' ∧
      s'.mem p = ((s.mem p).update B).compact n := by
    simp only [run, step, if_pos hv, if_true, hB, if_pos hb, List.mem_cons, true_or]
    refine ⟨_, rfl, ?_⟩
    simp [St.set]
  obtain ⟨s', h1, h2⟩ := hrun
  refine ⟨s', h1, ?_, ?_⟩
  · rw [h2]; omega
  · intro x hx hxc; rw [h2]; exact Nat.le_trans (hmin x hx hxc) hf

/-! ## What is missing -/

/-- Three members; all have and commit five entries except member 2, which has three. -/
def lagging : List Ev :=
  [.recv 0 5, .recv 1 5, .recv 2 3, .commit 0 5, .commit 1 5, .commit 2 3, .ckpt 0, .ckpt 1, .ckpt 2]

/-- **C108 (violated)**.  A member that is leader, loses the lead and gets it back while it proposes reads only its own status; the
boundary is its commit index, and a member two entries behind does not find its next entry, with a reserve of ten. -/
theorem C108_lost_lead_violated :
    ∃ s, run 10 (St.init [0, 1, 2]) (lagging ++ [.statusSelf 0, .propose 0, .apply 0 5, .compact 0 5]) = some s ∧
      s.top ≤ (s.mem 2).got + 10 ∧ ¬ Finds s 0 2 :=
  ⟨_, rfl, by decide, by unfold Finds; decide⟩

/-- **C108 (violated)**.  A member that has received a snapshot has no entries before it; if it becomes leader, members that lag a little
do not find theirs. -/
theorem C108_after_snapshot_violated :
    ∃ s, run 10 (St.init [0, 1, 2]) ([.recv 0 5, .recv 2 3, .commit 0 5] ++ [.snapshot 1 5]) = some s ∧
      s.top ≤ (s.mem 2).got + 10 ∧ ¬ Finds s 1 2 :=
  ⟨_, rfl, by decide, by unfold Finds; decide⟩

/-- **C108 (violated)**.  A new member does not find the first entries although no more than the reserve is committed. -/
theorem C108_new_member_violated :
    ∃ s, run 10 (St.init [0, 1]) ([.recv 0 5, .recv 1 5, .commit 0 5, .ckpt 0, .status 0 (fun _ => 5), .propose 0, .apply 0 5, .compact 0 5] ++ [.join 2]) = some s ∧
      s.top ≤ (s.mem 2).got + 10 ∧ ¬ Finds s 0 2 :=
  ⟨_, rfl, by decide, by unfold Finds; decide⟩

/-! ## A case that meets the hypotheses: member 2 lags, boundaries are proposed, applied, lost in a crash and applied again -/

def good : List Ev :=
  lagging ++ [.status 0 (fun p => if p = 2 then 3 else 5), .recv 0 9, .commit 0 9, .propose 0, .ckpt 0, .apply 0 5, .compact 0 8, .apply 1 5, .crash 1, .apply 1 5,
    .compact 1 9, .join 7]

example : ∃ s, run 4 (St.init [0, 1, 2]) good = some s ∧ (s.mem 0).first = 5 ∧ ¬ (s.top ≤ (s.mem 2).got + 4) ∧ Finds s 0 1 := by
  have hg : ∃ s, run 4 (St.init [0, 1, 2]) good = some s ∧ (s.mem 0).first = 5 ∧ ¬ (s.top ≤ (s.mem 2).got + 4) ∧ s.top ≤ (s.mem 1).got + 4 :=
    ⟨_, rfl, rfl, by decide, by decide⟩
  obtain ⟨s, h1, h2, h3, h4⟩ := hg
  exact ⟨s, h1, h2, h3, C108_reserve_partial (q := 1) (by decide) h1 (by intro x; simp [good, lagging]) (by intro n; simp [good, lagging]) (by simp [good, lagging, Stays]) h4⟩

example : ∃ s, run 10 (St.init [0, 1, 2]) (lagging ++ [.status 0 (fun p => if p = 2 then 3 else 5), .propose 0, .apply 0 3, .compact 0 5]) = some s ∧
    (s.mem 0).first = 3 ∧ Finds s 0 2 := by
  have hg : ∃ s, run 10 (St.init [0, 1, 2]) (lagging ++ [.status 0 (fun p => if p = 2 then 3 else 5), .propose 0, .apply 0 3, .compact 0 5]) = some s ∧
      (s.mem 0).first = 3 ∧ s.top ≤ (s.mem 2).got + 10 := ⟨_, rfl, rfl, by decide⟩
  obtain ⟨s, h1, h2, h3⟩ := hg
  exact ⟨s, h1, h2, C108_reserve_partial (q := 2) (by decide) h1 (by intro x; simp [lagging]) (by intro n; simp [lagging]) (by simp [lagging, Stays]) h3⟩

end HS.Reserve
