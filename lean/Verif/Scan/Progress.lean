import Verif.Scan.Run

/-!
# Queries and other calls do not block one another for ever
-/

namespace HS.Scan

open HS.Conc

/-- The node a query is about to lock (always for reading). -/
def Sys.qAwaits (y : Sys) : QPc → Option Nat
  | .start _ => some y.s.root
  | .on q _ n _ => if q.sweep = true ∧ (y.s.nodes n).lev ≠ 0 then child q.lo (y.s.nodes n).es else none
  | .next _ _ z _ => some z
  | .loop _ ((_, c :: _) :: _) _ _ => some c
  | _ => none

/-- Thread `t` has to wait: for another thread (`Verif.Conc`), for a node a query holds, or, wanting the tree lock exclusively, for a query. -/
def Sys.BlockedT (y : Sys) (t : Nat) : Prop :=
  Blocked y.s t ∨ (∃ x, y.s.awaits (y.s.pcs t) = some (x, true) ∧ ¬ y.unread x) ∨ ∃ o, y.s.pcs t = .excl o ∧ ¬ y.empty

/-- Query `i` has to wait for a node that a thread holds for writing, or that a thread waits for to write. -/
def Sys.BlockedQ (y : Sys) (i : Nat) : Prop :=
  ∃ x, y.qAwaits (y.qs i) = some x ∧ (¬ y.canRead x ∨ ∃ t < y.s.nt, y.s.awaits (y.s.pcs t) = some (x, true))

/-! ## No circle of those who wait -/

/-- Those who wait, each for a node that another one holds who waits for a node that comes after it, cannot be finitely many. -/
theorem no_circle {A : Type} (L : List A) (aw : A → Option (Nat × Bool)) (holds : A → Nat → Prop) (lev pos : Nat → Nat)
    (h1 : ∀ a ∈ L, ∀ x w, aw a = some (x, w) → (∃ b ∈ L, holds b x) ∨ (w = false ∧ ∃ b ∈ L, aw b = some (x, true)))
    (h2 : ∀ a ∈ L, ∀ x, holds a x → ∃ y w, aw a = some (y, w) ∧ (lev y < lev x ∨ (lev y = lev x ∧ pos x < pos y))) :
    ∀ a ∈ L, aw a = none := by
  have hB : ∃ B, ∀ a ∈ L, ∀ x w, aw a = some (x, w) → pos x ≤ B := by
    clear h1 h2
    induction L with
    | nil => exact ⟨0, fun a ha => by cases ha⟩
    | cons b L ih =>
      obtain ⟨B, hB⟩ := ih
      cases hb : aw b with
      | none =>
        refine ⟨B, fun a ha x w haw => ?_⟩
        rcases List.mem_cons.1 ha with rfl | ha
        · rw [hb] at haw; cases haw
        · exact hB a ha x w haw
      | some z =>
        refine ⟨B + pos z.1, fun a ha x w haw => ?_⟩
        rcases List.mem_cons.1 ha with rfl | ha
        · rw [hb] at haw; cases haw; exact Nat.le_add_left _ _
        · have := hB a ha x w haw
          omega
  obtain ⟨B, hB⟩ := hB
  have key : ∀ (m n : Nat), ∀ a ∈ L, ∀ x w, aw a = some (x, w) → lev x = m → B - pos x = n → False := by
    intro m
    induction m using Nat.strongRecOn with
    | ind m ihm =>
      intro n
      induction n using Nat.strongRecOn with
      | ind n ihn =>
        intro a ha x w haw hm hn
        have hh : ∃ b ∈ L, holds b x := by
          rcases h1 a ha x w haw with h | ⟨_, b, hb, hbw⟩
          · exact h
          · rcases h1 b hb x true hbw with h | ⟨h, _⟩
            · exact h
            · cases h
        obtain ⟨b, hb, hbx⟩ := hh
        obtain ⟨z, w', hz, hlt | ⟨heq, hlt⟩⟩ := h2 b hb x hbx
        · exact ihm (lev z) (by omega) _ b hb z w' hz rfl rfl
        · have := hB b hb z w' hz
          exact ihn (B - pos z) (by omega) b hb z w' hz (by omega) rfl
  intro a ha
  cases haw : aw a with
  | none => rfl
  | some z => exact (key _ _ a ha z.1 z.2 haw rfl rfl).elim

/-! ## What is awaited comes after what is held -/

theorem Chain.before {nd : Nat → Node} {fresh l : Nat} {a t : List Ent} {f : Ent} {lo hi : Option Nat}
    (h : Chain (Kid nd fresh l) lo (a ++ f :: t) hi) {e : Ent} (he : e ∈ a) : ltB (nd e.2).lo (nd f.2).lo := by
  obtain ⟨m, h1, h2⟩ := Chain.append.1 h
  obtain ⟨x, k1, k2, _, k4⟩ := h1.mem he
  rw [k1.2.2.1, h2.2.1.2.2.1]
  exact k2.of_leB_right k4

/-- Where the range of a node begins. -/
def startOf (s : St) (x : Nat) : Nat := (s.nodes x).lo.getD 0

theorem startOf_lt {s : St} (hT : TInv s.nodes s.fresh s.root) {x y : Nat} (hy : Live s.nodes s.fresh y) (h : ltB (s.nodes x).lo (s.nodes y).lo) :
    startOf s x < startOf s y := by
  obtain ⟨a, ha, hlt⟩ := h
  obtain ⟨b, hb⟩ := lo_some hT hy
  have := hlt b hb
  simp only [startOf, ha, hb, Option.getD_some]
  exact this

/-- Beneath, or to the right. -/
def After (s : St) (x y : Nat) : Prop :=
  (s.nodes y).lev < (s.nodes x).lev ∨ ((s.nodes y).lev = (s.nodes x).lev ∧ startOf s x < startOf s y)

variable {s : St}

theorem thread_after (h : Inv s) {t : Nat} (ht : t < s.nt) {x y : Nat} {w w' : Bool} (hx : (x, w) ∈ (s.pcs t).locks)
    (ha : s.awaits (s.pcs t) = some (y, w')) : After s x y := by
  have hpok := h.pcs t ht
  cases hp : s.pcs t with
  | on o n w1 =>
    rw [hp] at hpok hx ha
    simp only [Pc.locks, List.mem_cons, Prod.mk.injEq, List.not_mem_nil, or_false] at hx
    obtain ⟨rfl, rfl⟩ := hx
    simp only [St.awaits] at ha
    split at ha
    · cases ha
    · next h0 =>
      obtain ⟨c, hc⟩ := h.tree.at hpok.1 h0 hpok.2.1
      rw [hc.kid] at ha
      simp only [Option.map_some, Option.some.injEq, Prod.mk.injEq] at ha
      obtain ⟨rfl, _⟩ := ha
      have := (hc.child h.tree).2.1
      left
      omega
  | up2 o n c gn gc =>
    rw [hp] at hpok hx ha
    simp only [Pc.locks, List.mem_cons, Prod.mk.injEq, List.not_mem_nil, or_false] at hx
    obtain ⟨rfl, rfl⟩ := hx
    simp only [St.awaits, Option.some.injEq, Prod.mk.injEq] at ha
    obtain ⟨rfl, _⟩ := ha
    have := hpok.2.lev
    left
    omega
  | mrg o n c olds want =>
    cases want with
    | nil => rw [hp] at ha; cases ha
    | cons z want =>
      rw [hp] at hpok hx ha
      simp only [St.awaits, Option.some.injEq, Prod.mk.injEq] at ha
      obtain ⟨rfl, _⟩ := ha
      obtain ⟨_, hat, hw⟩ := hpok
      obtain ⟨ey, hy1, hy2, hy3⟩ := kid_of h hat (Or.inr (mem_want hw (Or.inr (List.mem_cons_self ..))))
      simp only [Pc.locks, List.mem_cons, Prod.mk.injEq, List.mem_map] at hx
      rcases hx with ⟨rfl, _⟩ | hx
      · left; omega
      · right
        have hx' : x = c ∨ x ∈ olds := by
          rcases hx with ⟨rfl, _⟩ | ⟨u, hu, hu', _⟩
          · exact Or.inl rfl
          · subst hu'
            exact Or.inr hu
        obtain ⟨ex, hx1, hx2, hx3⟩ := kid_of h hat (hx'.imp id fun hx' => mem_want hw (Or.inl hx'))
        refine ⟨by omega, ?_⟩
        obtain ⟨b, tl, m, g1, g2, g3, g4, g5⟩ := hat.find h.tree
        rw [g1, List.drop_succ_cons, List.drop_zero] at hw
        obtain ⟨l1, l2, k1, k2, k3⟩ := List.map_eq_append_iff.1 hw.symm
        obtain ⟨f, l3, k4, k5, k6⟩ := List.map_eq_cons_iff.1 k3
        have htl : tl = l1 ++ f :: (l3 ++ tl.drop (olds ++ z :: want).length) := by
          have := (List.take_append_drop (olds ++ z :: want).length tl).symm
          rw [k1, k4] at this
          simpa using this
        have hch : Chain (Kid s.nodes s.fresh ((s.nodes n).lev - 1)) m (((b, c) :: l1) ++ f :: (l3 ++ tl.drop (olds ++ z :: want).length)) (s.nodes n).hi := by
          rw [List.cons_append, ← htl]
          exact ⟨ltB.of_inR g4, g3, g5⟩
        have hf : Live s.nodes s.fresh f.2 := by
          obtain ⟨_, hk, _⟩ := Chain.mem hch (e := f) (by simp)
          exact hk.1
        rw [← k5]
        refine startOf_lt h.tree hf ?_
        rcases hx' with rfl | hx'
        · exact Chain.before hch (e := (b, x)) (by simp)
        · rw [← k2] at hx'
          obtain ⟨e, he, rfl⟩ := List.mem_map.1 hx'
          exact Chain.before hch (List.mem_cons_of_mem _ he)
  | idle => rw [hp] at ha; cases ha
  | start o w => rw [hp] at hx; cases hx
  | both o n w c wc => rw [hp] at ha; cases ha
  | up1 o n c gn gc => rw [hp] at hx; cases hx
  | upd o n c => rw [hp] at ha; cases ha
  | excl o => rw [hp] at ha; cases ha
  | again o => rw [hp] at ha; cases ha
  | out o => rw [hp] at ha; cases ha
  | fin r => rw [hp] at ha; cases ha

/-- The nodes a query holds are one above the other. -/
def LInv (y : Sys) : Prop := ∀ i, i < y.nq → (y.qs i).locks.Pairwise fun a b => (y.s.nodes a).lev < (y.s.nodes b).lev

theorem linv_op {y : Sys} (h : SInv y) (hL : LInv y) {t : Nat} {a : Act} {s' : St} (hs : step y.s t a = some s') (hh : ¬ y.held t a) :
    LInv (y.opStep t a s') := by
  obtain ⟨_, e2⟩ := op_effect h.conc h.linked hs
  intro i hi
  refine List.Pairwise.imp_of_mem ?_ (hL i hi)
  have hlev : ∀ n ∈ (y.qs i).locks, (s'.nodes n).lev = (y.s.nodes n).lev := by
    intro n hn
    have ht : t < y.s.nt := by
      unfold step at hs
      split at hs
      · assumption
      · cases hs
    refine (e2 n (h.live hi hn) (h.mutex i hi n hn t ht) fun o ho => ?_).1.lev
    refine Decidable.byContradiction fun ha => hh (Or.inr ⟨⟨o, ho⟩, ha, fun hemp => ?_⟩)
    have := hemp i hi
    rw [QPc.shared_of_locks hn] at this
    cases this
  intro x z hx hz hlt
  show (s'.nodes x).lev < (s'.nodes z).lev
  rw [hlev x hx, hlev z hz]
  exact hlt

theorem LInv.goto {y : Sys} (hL : LInv y) {i : Nat} {p : QPc} (tr : List Ev)
    (hp : p.locks.Pairwise fun a b => (y.s.nodes a).lev < (y.s.nodes b).lev) : LInv (({ y with tr := tr } : Sys).goto i p) := by
  intro j hj
  by_cases hji : j = i
  · subst hji
    simpa only [Sys.goto, if_true] using hp
  · simpa only [Sys.goto, if_neg hji] using hL j hj

/-- The child a traversal visits. -/
theorem StackOk.lev {q : Query} {p : Option Nat} {n c : Nat} {rem : List Nat} {st : List (Nat × List Nat)} (hT : TInv s.nodes s.fresh s.root)
    (h : StackOk s q p ((n, c :: rem) :: st)) : (s.nodes c).lev < (s.nodes n).lev := by
  obtain ⟨hlive, hlev, ⟨a, mid, z, m, g1, g2, _⟩, _⟩ := h
  cases mid with
  | nil => simp at g2
  | cons f mid =>
    simp only [List.map_cons, List.cons.injEq] at g2
    obtain ⟨rfl, _⟩ := g2
    obtain ⟨_, hk, _⟩ := (hT.chain hlive hlev).mem (e := f) (by rw [g1]; simp)
    have := hk.2.1
    omega

theorem keepTop_pairwise {n : Nat} {rem : List Nat} {st : List (Nat × List Nat)} {R : Nat → Nat → Prop} (h : (n :: st.map (·.1)).Pairwise R) :
    ((keepTop n rem st).map (·.1)).Pairwise R := by
  unfold keepTop
  split
  · exact (List.pairwise_cons.1 h).2
  · exact h

theorem finish_locks (q : Query) (out : List (Nat × Nat)) (r : Status) : (finish q out r).locks = [] := by
  obtain ⟨r', h, _⟩ := finish_fin q out r
  rw [h]
  rfl

theorem linv_query {y y' : Sys} {i : Nat} (h : SInv y) (hL : LInv y) {a : QAct} (hs : y.qStep i a = some y') : LInv y' := by
  unfold Sys.qStep at hs
  split at hs
  case isFalse => cases hs
  case isTrue hi =>
  have hq := h.qs i hi
  have hl := hL i hi
  have hT := h.conc.tree
  split at hs
  · cases hs
    refine hL.goto _ ?_
    split <;> exact List.Pairwise.nil
  · split at hs
    · cases hs; exact hL.goto y.tr (List.pairwise_singleton _ _)
    · cases hs
  · cases hs; exact hL.goto _ List.Pairwise.nil
  · next q st n out hpc =>
    rw [hpc] at hq
    obtain ⟨b, p, ha, hcov, hon⟩ := hq
    split at hs
    · next hw =>
      split at hs
      · split at hs
        · cases hs
          obtain ⟨rfl, _⟩ := hon.sweep hw.1
          exact hL.goto y.tr (List.pairwise_singleton _ _)
        · cases hs
      · cases hs
    · cases hs
  · next q st n out hpc =>
    rw [hpc] at hl
    split at hs
    · cases hs
      exact hL.goto y.tr (keepTop_pairwise hl)
    · cases hs
  · next q st n out hpc =>
    rw [hpc] at hl
    have hst : (st.map (·.1)).Pairwise fun a b => (y.s.nodes a).lev < (y.s.nodes b).lev := (List.pairwise_cons.1 hl).2
    split at hs
    case isFalse => cases hs
    case isTrue h0 =>
    obtain ⟨ext, hy'⟩ : ∃ ext : List Ev,
        (if q.batch - out.length < (inside q (y.s.nodes n).es).length then y.emit (.trim i) else y) = ({ y with tr := y.tr ++ ext } : Sys) := by
      split
      · exact ⟨[.trim i], rfl⟩
      · exact ⟨[], by simp⟩
    simp only [hy'] at hs
    split at hs
    · split at hs
      · split at hs
        · cases hs
          exact hL.goto _ (by rw [finish_locks]; exact List.Pairwise.nil)
        · split at hs
          · cases hs
            exact hL.goto _ (by rw [finish_locks]; exact List.Pairwise.nil)
          · cases hs
            exact hL.goto _ (List.pairwise_singleton _ _)
      · cases hs
        exact hL.goto _ hst
    · cases hs
      exact hL.goto _ (by rw [finish_locks]; exact List.Pairwise.nil)
  · split at hs
    · cases hs
      exact hL.goto _ (by rw [finish_locks]; exact List.Pairwise.nil)
    · cases hs
  · split at hs
    · cases hs
      exact hL.goto y.tr (List.pairwise_singleton _ _)
    · cases hs
  · cases hs
    exact hL.goto _ (by rw [finish_locks]; exact List.Pairwise.nil)
  · next q n c rem st out r hpc =>
    rw [hpc] at hq hl
    obtain ⟨b, p, ha, hcov, hstk, _⟩ := hq
    split at hs
    · cases hs
      refine hL.goto y.tr ?_
      simp only [QPc.locks, List.map_cons] at hl ⊢
      have hlev := hstk.lev hT
      refine List.pairwise_cons.2 ⟨fun x hx => ?_, keepTop_pairwise hl⟩
      have hx' : x ∈ n :: st.map (·.1) := by
        unfold keepTop at hx
        split at hx
        · exact List.mem_cons_of_mem _ hx
        · exact hx
      rcases List.mem_cons.1 hx' with rfl | hx'
      · exact hlev
      · exact Nat.lt_trans hlev ((List.pairwise_cons.1 hl).1 x hx')
    · cases hs
  · next q n c rem st out r hpc =>
    rw [hpc] at hl
    cases hs
    exact hL.goto _ (List.pairwise_cons.1 hl).2
  · cases hs
    exact hL.goto y.tr (by rw [finish_locks]; exact List.Pairwise.nil)
  · cases hs
    exact hL.goto _ List.Pairwise.nil
  · cases hs

theorem linv_reach {y y' : Sys} {l : List Move} (hr : Sys.Reach y l y') (h : SInv y) (hL : LInv y) : LInv y' := by
  induction hr with
  | nil => exact hL
  | cons hs _ ih =>
    cases hs with
    | op h1 h2 => exact ih (sinv_op h h1 h2) (linv_op h hL h1 h2)
    | query h1 => exact ih (sinv_query h h1) (linv_query h hL h1)

theorem query_after {y : Sys} (h : SInv y) (hL : LInv y) {i : Nat} (hi : i < y.nq) {x z : Nat} (hx : x ∈ (y.qs i).locks)
    (ha : y.qAwaits (y.qs i) = some z) : After y.s x z := by
  have hq := h.qs i hi
  have hl := hL i hi
  have hT := h.conc.tree
  cases hp : y.qs i with
  | idle => rw [hp] at hx; cases hx
  | start q => rw [hp] at hx; cases hx
  | fin out r => rw [hp] at hx; cases hx
  | on q st n out =>
    rw [hp] at hq hx ha
    obtain ⟨b, p, _, _, hon⟩ := hq
    simp only [Sys.qAwaits] at ha
    split at ha
    · next hw =>
      obtain ⟨rfl, hsw⟩ := hon.sweep hw.1
      simp only [QPc.locks, List.map_nil, List.mem_singleton] at hx
      subst hx
      have hat : At y.s q.lo x z := ⟨hon.live, hw.2, (hsw hw.2).2, ha⟩
      have := (hat.child hT).2.1
      left
      have := hw.2
      omega
    · cases ha
  | next q n z' out =>
    rw [hp] at hq hx ha
    obtain ⟨b, _, _, hlive, hlev, hlk, _⟩ := hq
    simp only [QPc.locks, List.mem_singleton] at hx
    simp only [Sys.qAwaits, Option.some.injEq] at ha
    subst hx ha
    rcases h.linked x hlive with ⟨_, g⟩ | ⟨w, g1, g2, g3, g4⟩
    · rw [hlk] at g; cases g
    · rw [hlk] at g1
      cases g1
      exact Or.inr ⟨g3, startOf_lt hT g2 (by rw [g4]; exact (hT.node _ hlive).1)⟩
  | loop q st out r =>
    rw [hp] at hq hx ha hl
    obtain ⟨b, p, _, _, hstk, _⟩ := hq
    match st, hstk, hx, ha, hl with
    | (n, c :: rem) :: st, hstk, hx, ha, hl =>
      simp only [Sys.qAwaits, Option.some.injEq] at ha
      subst ha
      have hlev := hstk.lev hT
      simp only [QPc.locks, List.map_cons] at hx hl
      left
      rcases List.mem_cons.1 hx with rfl | hx
      · exact hlev
      · exact Nat.lt_trans hlev ((List.pairwise_cons.1 hl).1 x hx)
    | (n, []) :: st, hstk, hx, ha, hl => simp [Sys.qAwaits] at ha
    | [], hstk, hx, ha, hl => simp [Sys.qAwaits] at ha

theorem qAwaits_shared {y : Sys} {p : QPc} {x : Nat} (h : y.qAwaits p = some x) : p.shared = true := by
  cases p <;> first | rfl | simp [Sys.qAwaits] at h

/-- Is this thread, or query, waiting? -/
def Sys.Stuck (y : Sys) : Nat ⊕ Nat → Prop
  | .inl t => y.BlockedT t
  | .inr i => y.BlockedQ i

/-- In a call? -/
def Sys.Busy (y : Sys) : Nat ⊕ Nat → Prop
  | .inl t => t < y.s.nt ∧ y.s.pcs t ≠ .idle
  | .inr i => i < y.nq ∧ y.qs i ≠ .idle

theorem some_goes_on {y : Sys} (h : SInv y) (hL : LInv y) (hlk : y.s.leaks = 0) (hex : ∃ a, y.Busy a) : ∃ a, y.Busy a ∧ ¬ y.Stuck a := by
  apply Classical.byContradiction
  intro hno
  have hall : ∀ a, y.Busy a → y.Stuck a := by
    intro a ha
    apply Classical.byContradiction
    exact fun hb => hno ⟨a, ha, hb⟩
  let aw : Nat ⊕ Nat → Option (Nat × Bool) := fun a => match a with
    | .inl t => y.s.awaits (y.s.pcs t)
    | .inr i => (y.qAwaits (y.qs i)).map fun x => (x, false)
  let holds : Nat ⊕ Nat → Nat → Prop := fun a x => match a with
    | .inl t => ∃ w, (x, w) ∈ (y.s.pcs t).locks
    | .inr i => x ∈ (y.qs i).locks
  let L : List (Nat ⊕ Nat) := (List.range y.s.nt).map .inl ++ (List.range y.nq).map .inr
  have hLt : ∀ t, .inl t ∈ L ↔ t < y.s.nt := fun t => by simp [L]
  have hLq : ∀ i, .inr i ∈ L ↔ i < y.nq := fun i => by simp [L]
  -- who is in the tree waits for a node
  have hawT : ∀ t, t < y.s.nt → (y.s.pcs t).shared = true → ∃ x w, y.s.awaits (y.s.pcs t) = some (x, w) ∧
      (¬ y.s.canLock t x w ∨ (w = false ∧ ∃ t' < y.s.nt, t' ≠ t ∧ y.s.awaits (y.s.pcs t') = some (x, true)) ∨ (w = true ∧ ¬ y.unread x)) := by
    intro t ht hsh
    rcases hall (.inl t) ⟨ht, not_idle_of_shared hsh⟩ with (⟨x, w, h1, h2⟩ | ⟨o, h1, _⟩ | ⟨o, h1, _⟩) | ⟨x, h1, h2⟩ | ⟨o, h1, _⟩
    · exact ⟨x, w, h1, h2.imp id Or.inl⟩
    · rw [h1] at hsh; cases hsh
    · rcases h1 with h1 | h1 <;> rw [h1] at hsh <;> cases hsh
    · exact ⟨x, true, h1, Or.inr (Or.inr ⟨rfl, h2⟩)⟩
    · rw [h1] at hsh; cases hsh
  have hawQ : ∀ i, i < y.nq → (y.qs i).shared = true → ∃ x, y.qAwaits (y.qs i) = some x ∧
      (¬ y.canRead x ∨ ∃ t < y.s.nt, y.s.awaits (y.s.pcs t) = some (x, true)) := by
    intro i hi hsh
    exact hall (.inr i) ⟨hi, fun hp => by rw [hp] at hsh; cases hsh⟩
  have hnone : ∀ a ∈ L, aw a = none := by
    refine no_circle L aw holds (fun x => (y.s.nodes x).lev) (startOf y.s) ?_ ?_
    · intro a ha x w haw
      cases a with
      | inl t =>
        have ht := (hLt t).1 ha
        obtain ⟨x', w', k1, k2⟩ := hawT t ht (awaits_shared haw)
        have : (x', w') = (x, w) := Option.some.inj (k1.symm.trans haw)
        cases this
        rcases k2 with k2 | ⟨k2, u, hu, _, hua⟩ | ⟨_, k2⟩
        · left
          apply Classical.byContradiction
          intro hn
          exact k2 fun u hu hne w' hm => absurd ⟨.inl u, (hLt u).2 hu, w', hm⟩ hn
        · exact Or.inr ⟨k2, .inl u, (hLt u).2 hu, hua⟩
        · left
          apply Classical.byContradiction
          intro hn
          exact k2 fun i hi hm => hn ⟨.inr i, (hLq i).2 hi, hm⟩
      | inr i =>
        have hi := (hLq i).1 ha
        obtain ⟨x0, hx0, hxe⟩ := Option.map_eq_some_iff.1 haw
        cases hxe
        obtain ⟨x', k1, k2⟩ := hawQ i hi (qAwaits_shared hx0)
        rw [hx0] at k1
        cases k1
        rcases k2 with k2 | ⟨u, hu, hua⟩
        · left
          apply Classical.byContradiction
          intro hn
          exact k2 fun u hu hm => hn ⟨.inl u, (hLt u).2 hu, true, hm⟩
        · exact Or.inr ⟨rfl, .inl u, (hLt u).2 hu, hua⟩
    · intro a ha x hx
      cases a with
      | inl t =>
        have ht := (hLt t).1 ha
        obtain ⟨w, hm⟩ := hx
        obtain ⟨z, w', k1, _⟩ := hawT t ht (locks_shared hm)
        exact ⟨z, w', k1, thread_after h.conc ht hm k1⟩
      | inr i =>
        have hi := (hLq i).1 ha
        obtain ⟨z, k1, _⟩ := hawQ i hi (QPc.shared_of_locks hx)
        exact ⟨z, false, by simp only [aw, k1, Option.map_some], query_after h hL hi hx k1⟩
  -- so nobody is in the tree
  have hoT : ∀ t, t < y.s.nt → (y.s.pcs t).shared = false := by
    intro t ht
    cases hsh : (y.s.pcs t).shared with
    | false => rfl
    | true =>
      obtain ⟨x, w, k1, _⟩ := hawT t ht hsh
      have := hnone (.inl t) ((hLt t).2 ht)
      simp only [aw, k1] at this
      cases this
  have hoQ : ∀ i, i < y.nq → (y.qs i).shared = false := by
    intro i hi
    cases hsh : (y.qs i).shared with
    | false => rfl
    | true =>
      obtain ⟨x, k1, _⟩ := hawQ i hi hsh
      have := hnone (.inr i) ((hLq i).2 hi)
      simp only [aw, k1] at this
      cases this
  have hexcl : ∀ t, t < y.s.nt → ∀ o, y.s.pcs t ≠ .excl o := by
    intro t ht o ho
    rcases hall (.inl t) ⟨ht, by rw [ho]; simp⟩ with (⟨x, w, h1, _⟩ | ⟨_, _, h1⟩ | ⟨o', h1, _⟩) | ⟨x, h1, _⟩ | ⟨_, _, h1⟩
    · rw [ho] at h1; cases h1
    · exact h1 ⟨hlk, fun u hu _ => hoT u hu⟩
    · rcases h1 with h1 | h1 <;> rw [ho] at h1 <;> cases h1
    · rw [ho] at h1; cases h1
    · exact h1 hoQ
  obtain ⟨a, ha⟩ := hex
  have hb := hall a ha
  cases a with
  | inl t =>
    rcases hb with (⟨x, w, h1, _⟩ | ⟨o, h1, _⟩ | ⟨_, _, u, hu, _, o, h1⟩) | ⟨x, h1, _⟩ | ⟨o, h1, _⟩
    · have := hoT t ha.1
      rw [awaits_shared h1] at this
      cases this
    · exact hexcl t ha.1 o h1
    · exact hexcl u hu o h1
    · have := hoT t ha.1
      rw [awaits_shared h1] at this
      cases this
    · exact hexcl t ha.1 o h1
  | inr i =>
    obtain ⟨x, h1, _⟩ := hb
    have := hoQ i ha.1
    rw [qAwaits_shared h1] at this
    cases this

/-! ## Who need not wait goes on -/

theorem thread_goes_on {y : Sys} (h : SInv y) {t : Nat} (ht : t < y.s.nt) (hi : y.s.pcs t ≠ .idle) (hb : ¬ y.BlockedT t) :
    ∃ a y', (∀ o, a ≠ .call o) ∧ a ≠ .switchCp ∧ Sys.Step y (.op t a) y' := by
  obtain ⟨a, s', h1, h2, h3⟩ := step_of_free h.conc ht hi fun hb' => hb (Or.inl hb')
  refine ⟨a, _, h1, h2, .op h3 ?_⟩
  rintro (⟨_, n, k1, k2⟩ | ⟨⟨o, ho⟩, _, k⟩)
  · exact hb (Or.inr (Or.inl ⟨n, k1, k2⟩))
  · exact hb (Or.inr (Or.inr ⟨o, ho, k⟩))

theorem query_goes_on {y : Sys} (h : SInv y) {i : Nat} (hi : i < y.nq) (hid : y.qs i ≠ .idle) (hb : ¬ y.BlockedQ i) :
    ∃ a y', (∀ q, a ≠ .ask q) ∧ a ≠ .fail ∧ Sys.Step y (.query i a) y' := by
  have hq := h.qs i hi
  have hc : ∀ x, y.qAwaits (y.qs i) = some x → y.canRead x := by
    intro x hx
    exact Decidable.byContradiction fun hc => hb ⟨x, hx, Or.inl hc⟩
  have go : ∀ a, (∀ q, a ≠ .ask q) → a ≠ .fail → (∃ y', y.qStep i a = some y') → ∃ a y', (∀ q, a ≠ .ask q) ∧ a ≠ .fail ∧ Sys.Step y (.query i a) y' :=
    fun a h1 h2 ⟨y', h3⟩ => ⟨a, y', h1, h2, .query h3⟩
  cases hp : y.qs i with
  | idle => exact absurd hp hid
  | start q =>
    have := hc y.s.root (by rw [hp]; rfl)
    exact go .lockRoot (by simp) (by simp) (by simp only [Sys.qStep, if_pos hi, hp, if_pos this]; exact ⟨_, rfl⟩)
  | fin out r => exact go .answer (by simp) (by simp) (by simp only [Sys.qStep, if_pos hi, hp]; exact ⟨_, rfl⟩)
  | next q n z out =>
    have := hc z (by rw [hp]; rfl)
    exact go .follow (by simp) (by simp) (by simp only [Sys.qStep, if_pos hi, hp, if_pos this]; exact ⟨_, rfl⟩)
  | loop q st out r =>
    rw [hp] at hq
    obtain ⟨b, p, _, _, hstk, _⟩ := hq
    match st, hstk, hp with
    | [], _, hp => exact go .done (by simp) (by simp) (by simp only [Sys.qStep, if_pos hi, hp]; exact ⟨_, rfl⟩)
    | (n, []) :: st, hstk, _ =>
      obtain ⟨_, _, ⟨_, _, _, _, _, _, h3, _⟩, _⟩ := hstk
      exact absurd rfl h3
    | (n, c :: rem) :: st, _, hp =>
      have := hc c (by rw [hp]; rfl)
      exact go .visit (by simp) (by simp) (by simp only [Sys.qStep, if_pos hi, hp, if_pos this]; exact ⟨_, rfl⟩)
  | on q st n out =>
    rw [hp] at hq
    obtain ⟨b, p, _, _, hon⟩ := hq
    by_cases h0 : (y.s.nodes n).lev = 0
    · have : ∃ y', y.qStep i .read = some y' := by
        simp only [Sys.qStep, if_pos hi, hp, if_pos h0]
        split
        · split
          · split
            · exact ⟨_, rfl⟩
            · split <;> exact ⟨_, rfl⟩
          · exact ⟨_, rfl⟩
        · exact ⟨_, rfl⟩
      obtain ⟨y', hy'⟩ := this
      exact ⟨.read, y', by simp, by simp, .query hy'⟩
    · cases hsw : q.sweep with
      | true =>
        have hw : q.sweep = true ∧ (y.s.nodes n).lev ≠ 0 := ⟨hsw, h0⟩
        obtain ⟨c, hat⟩ := h.conc.tree.at hon.live h0 ((hon.sweep hsw).2 h0).2
        have := hc c (by rw [hp]; simp only [Sys.qAwaits, if_pos hw]; exact hat.kid)
        exact go .down (by simp) (by simp) (by simp only [Sys.qStep, if_pos hi, hp, if_pos hw, hat.kid, if_pos this]; exact ⟨_, rfl⟩)
      | false =>
        have hw : q.sweep = false ∧ (y.s.nodes n).lev ≠ 0 := ⟨hsw, h0⟩
        exact go .enter (by simp) (by simp) (by simp only [Sys.qStep, if_pos hi, hp, if_pos hw]; exact ⟨_, rfl⟩)

/-- The calls of threads among the steps. -/
def opsOf : List Move → List (Nat × Act)
  | [] => []
  | .op t a :: l => (t, a) :: opsOf l
  | .query _ _ :: l => opsOf l

/-- The queries do not change the tree. -/
theorem qStep_s {y y' : Sys} {i : Nat} {a : QAct} (hs : y.qStep i a = some y') : y'.s = y.s := by
  unfold Sys.qStep at hs
  split at hs
  case isFalse => cases hs
  case isTrue =>
  split at hs
  case h_6 q st n out hpc =>
    split at hs
    case isFalse => cases hs
    case isTrue h0 =>
    obtain ⟨ext, hy'⟩ : ∃ ext : List Ev,
        (if q.batch - out.length < (inside q (y.s.nodes n).es).length then y.emit (.trim i) else y) = ({ y with tr := y.tr ++ ext } : Sys) := by
      split
      · exact ⟨[.trim i], rfl⟩
      · exact ⟨[], by simp⟩
    simp only [hy'] at hs
    repeat' first
      | (cases hs; rfl)
      | split at hs
  all_goals
    repeat' first
      | (cases hs; rfl)
      | (cases hs; done)
      | split at hs

theorem reach_run {y y' : Sys} {l : List Move} (hr : Sys.Reach y l y') : run y.s (opsOf l) = some y'.s := by
  induction hr with
  | nil => rfl
  | cons hs _ ih =>
    cases hs with
    | op h1 h2 =>
      simp only [opsOf, run, h1]
      exact ih
    | query h1 =>
      rw [qStep_s h1] at ih
      exact ih

end HS.Scan
