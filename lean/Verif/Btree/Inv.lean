import Verif.Btree.Search
import Mathlib.Data.List.Nodup

/-!
# Invariant of a tree, level by level

`Lvl` collects, for the nodes of one level, what "covers the keys in `(lo, hi]`" means (`Q`), which leaves
are below a node (`lv`), and the facts about them that splitting and merging need.  `levels n` builds it for
every level.
-/

namespace HS.Btree

/-! ## Bounds -/

section
variable {K : Type} [LinearOrder K]

/-- `lo < k`, where `none` is below every key. -/
def ltLo (lo : Option K) (k : K) : Prop := ∀ l, lo = some l → l < k

/-- `k ≤ hi`, where `none` is above every key. -/
def leHi (k : K) (hi : Option K) : Prop := ∀ h, hi = some h → k ≤ h

/-- `lo' ≤ lo` for lower bounds. -/
def leLo (lo' lo : Option K) : Prop := ∀ a, lo' = some a → ∃ b, lo = some b ∧ a ≤ b

@[simp] theorem ltLo_none (k : K) : ltLo none k := fun _ h => by cases h
@[simp] theorem ltLo_some (a k : K) : ltLo (some a) k ↔ a < k :=
  ⟨fun h => h a rfl, fun h l hl => by cases hl; exact h⟩
@[simp] theorem leHi_none (k : K) : leHi k none := fun _ h => by cases h
@[simp] theorem leHi_some (a k : K) : leHi k (some a) ↔ k ≤ a :=
  ⟨fun h => h a rfl, fun h l hl => by cases hl; exact h⟩

theorem leLo.refl (lo : Option K) : leLo lo lo := fun a h => ⟨a, h, le_rfl⟩

theorem ltLo.mono {lo lo' : Option K} {k : K} (h : leLo lo' lo) (hk : ltLo lo k) : ltLo lo' k := by
  intro a ha
  obtain ⟨b, hb, hab⟩ := h a ha
  exact lt_of_le_of_lt hab (hk b hb)

theorem ltLo.trans {lo : Option K} {a b : K} (h : ltLo lo a) (hab : a ≤ b) : ltLo lo b :=
  fun l hl => lt_of_lt_of_le (h l hl) hab

theorem leHi.trans {hi : Option K} {a b : K} (h : leHi b hi) (hab : a ≤ b) : leHi a hi :=
  fun l hl => le_trans hab (h l hl)

end

/-! ## Leaf chain -/

section
variable {K A : Type}

/-- Id of the first node of the list, or `nx` when there is none. -/
def headId (nx : Option Nat) : List (Node K A) → Option Nat
  | [] => nx
  | x :: _ => some x.id

/-- Every node's sibling link points to the next one of the list, the last one's is `nx`. -/
def Chain (nx : Option Nat) : List (Node K A) → Prop
  | [] => True
  | x :: r => x.next = headId nx r ∧ Chain nx r

/-- Node ids. -/
def ids (ls : List (Node K A)) : List Nat := ls.map (·.id)

theorem headId_append (nx : Option Nat) (a b : List (Node K A)) :
    headId nx (a ++ b) = headId (headId nx b) a := by
  cases a <;> rfl

theorem Chain_append (nx : Option Nat) (a b : List (Node K A)) :
    Chain nx (a ++ b) ↔ Chain (headId nx b) a ∧ Chain nx b := by
  induction a with
  | nil => simp [Chain]
  | cons x r ih => simp [Chain, headId_append, ih, and_assoc]

theorem Chain.last {nx : Option Nat} {a : List (Node K A)} {x : Node K A} (h : Chain nx a)
    (hx : a.getLast? = some x) : x.next = nx := by
  obtain ⟨l, rfl⟩ := List.getLast?_eq_some_iff.mp hx
  rw [Chain_append] at h
  simpa [Chain, headId] using h.2

/-- The leaves `ls` may be replaced by `ls'` in the chain when the next free id grows from `n` to `n'`. -/
structure Step (ls ls' : List (Node K A)) (n n' : Nat) : Prop where
  le : n ≤ n'
  head : ∀ nx, headId nx ls' = headId nx ls
  chain : ∀ nx, Chain nx ls → Chain nx ls'
  fresh : ∀ i ∈ ids ls', i ∈ ids ls ∨ n ≤ i ∧ i < n'
  nodup : (ids ls).Nodup → (∀ i ∈ ids ls, i < n) → (ids ls').Nodup

theorem Step.refl (ls : List (Node K A)) {n n' : Nat} (h : n ≤ n') : Step ls ls n n' :=
  ⟨h, fun _ => rfl, fun _ h => h, fun _ h => Or.inl h, fun h _ => h⟩

theorem Step.trans {l1 l2 l3 : List (Node K A)} {a b c : Nat} (h : Step l1 l2 a b) (h' : Step l2 l3 b c) :
    Step l1 l3 a c where
  le := h.le.trans h'.le
  head nx := (h'.head nx).trans (h.head nx)
  chain nx hc := h'.chain nx (h.chain nx hc)
  fresh i hi := by
    have h1 := h.le
    have h2 := h'.le
    rcases h'.fresh i hi with h3 | h3
    · rcases h.fresh i h3 with h4 | h4
      · exact Or.inl h4
      · exact Or.inr (by omega)
    · exact Or.inr (by omega)
  nodup hn hlt := by
    apply h'.nodup (h.nodup hn hlt)
    intro i hi
    have h1 := h.le
    rcases h.fresh i hi with h4 | h4
    · have := hlt i h4; omega
    · exact h4.2

theorem Step.ctx {ls ls' : List (Node K A)} {n n' : Nat} (h : Step ls ls' n n') (a b : List (Node K A)) :
    Step (a ++ ls ++ b) (a ++ ls' ++ b) n n' where
  le := h.le
  head nx := by simp only [headId_append, h.head]
  chain nx := by
    simp only [Chain_append, headId_append, h.head]
    rintro ⟨⟨h1, h2⟩, h3⟩
    exact ⟨⟨h1, h.chain _ h2⟩, h3⟩
  fresh i := by
    simp only [ids, List.map_append, List.mem_append]
    rintro ((h1 | h1) | h1)
    · exact Or.inl (Or.inl (Or.inl h1))
    · rcases h.fresh i h1 with h2 | h2
      · exact Or.inl (Or.inl (Or.inr h2))
      · exact Or.inr h2
    · exact Or.inl (Or.inr h1)
  nodup := by
    simp only [ids, List.map_append]
    intro hn hlt
    rw [List.nodup_append, List.nodup_append] at hn ⊢
    obtain ⟨⟨h1, h2, h3⟩, h4, h5⟩ := hn
    have hlt' : ∀ i ∈ ids ls, i < n := fun i hi =>
      hlt i (List.mem_append_left _ (List.mem_append_right _ hi))
    refine ⟨⟨h1, h.nodup h2 hlt', ?_⟩, h4, ?_⟩
    · intro x hx y hy
      rcases h.fresh y hy with hf | hf
      · exact h3 x hx y hf
      · have := hlt x (by simp only [List.mem_append]; exact Or.inl (Or.inl hx))
        omega
    · intro x hx y hy
      rcases List.mem_append.mp hx with hx | hx
      · exact h5 x (List.mem_append_left _ hx) y hy
      · rcases h.fresh x hx with hf | hf
        · exact h5 x (List.mem_append_right _ hf) y hy
        · have := hlt y (by simp only [List.mem_append]; exact Or.inr hy)
          omega

/-- All entries of a list of leaves. -/
def cont (ls : List (Node K A)) : List (K × A) := ls.flatMap (·.es)

@[simp] theorem cont_nil : cont ([] : List (Node K A)) = [] := rfl
@[simp] theorem cont_cons (x : Node K A) (l : List (Node K A)) : cont (x :: l) = x.es ++ cont l := by
  simp [cont]
@[simp] theorem cont_append (a b : List (Node K A)) : cont (a ++ b) = cont a ++ cont b := by
  simp [cont]

end

/-! ## One level -/

/-- Replacing the consecutive nodes `xs` of one level by `ys`, which hold the same entries in the same
order: what a split and a merge do. -/
structure Regroup {K A : Type} (xs ys : List (Node K A)) (n n' : Nat) : Prop where
  le : n ≤ n'
  same : ys.flatMap (·.es) = xs.flatMap (·.es)
  xne : xs ≠ []
  yne : ys ≠ []
  edgeX : ∀ x ∈ xs.dropLast, x.edge = none
  edgeY : ∀ x ∈ ys.dropLast, x.edge = none
  edge : (ys.getLast?).bind (·.edge) = (xs.getLast?).bind (·.edge)
  head : ys.head?.map (·.id) = xs.head?.map (·.id)
  chain : Chain ((xs.getLast?).bind (·.next)) ys
  fresh : ∀ y ∈ ys.tail, n ≤ y.id ∧ y.id < n'
  nodup : (ids ys.tail).Nodup

/-- Facts about the nodes of one level. -/
structure Lvl (K V A : Type) [LinearOrder K] where
  /-- Entries and edge cover the keys in `(lo, hi]`. -/
  Q : Option K → List (K × A) → Option A → Option K → Prop
  /-- Leaves below a node, left to right. -/
  lv : Node K A → List (Node K V)
  mono : ∀ {lo lo' es e hi}, leLo lo' lo → Q lo es e hi → Q lo' es e hi
  app : ∀ {lo m a b e hi}, ltLo lo m → leHi m hi → Q lo a none (some m) → Q (some m) b e hi →
    Q lo (a ++ b) e hi
  cut : ∀ {lo a b e hi} {x : K × A}, a.getLast? = some x → (b ≠ [] ∨ e.isSome) → Q lo (a ++ b) e hi →
    Q lo a none (some x.1) ∧ Q (some x.1) b e hi
  shrink : ∀ {lo a hi} {x : K × A}, a.getLast? = some x → Q lo a none hi → Q lo a none (some x.1)
  asc : ∀ {lo es e hi}, Q lo es e hi → Asc es
  bnd : ∀ {lo es e hi} {x : K × A}, Q lo es e hi → x ∈ es → ltLo lo x.1 ∧ leHi x.1 hi
  edgeHi : ∀ {lo es c hi}, Q lo es (some c) hi → hi = none
  cont_asc : ∀ {lo hi} {nd : Node K A}, Q lo nd.es nd.edge hi → Asc (cont (lv nd))
  cont_bnd : ∀ {lo hi} {nd : Node K A} {x}, Q lo nd.es nd.edge hi → x ∈ cont (lv nd) →
    ltLo lo x.1 ∧ leHi x.1 hi
  /-- Only leaves can be empty without an edge, and leaves have no edge. -/
  empty : ∀ {lo hi}, Q lo [] none hi → ∀ {lo' es e hi'}, Q lo' es e hi' → e = none
  regroup_step : ∀ {xs ys n n'}, Regroup xs ys n n' → Step (xs.flatMap lv) (ys.flatMap lv) n n'
  regroup_cont : ∀ {xs ys n n'}, Regroup xs ys n n' → cont (ys.flatMap lv) = cont (xs.flatMap lv)

section
variable {K V A : Type} [LinearOrder K]

/-- A leaf covers `(lo, hi]` when its keys are ascending and lie there. -/
def leafQ (lo : Option K) (es : List (K × V)) (e : Option V) (hi : Option K) : Prop :=
  e = none ∧ Asc es ∧ ∀ x ∈ es, ltLo lo x.1 ∧ leHi x.1 hi

theorem Asc_append {a b : List (K × A)} :
    Asc (a ++ b) ↔ Asc a ∧ Asc b ∧ ∀ x ∈ a, ∀ y ∈ b, x.1 < y.1 := by
  unfold Asc
  rw [List.pairwise_append]

theorem Asc_cons {x : K × A} {b : List (K × A)} :
    Asc (x :: b) ↔ (∀ y ∈ b, x.1 < y.1) ∧ Asc b := by
  unfold Asc
  rw [List.pairwise_cons]

theorem le_last {a : List (K × A)} {x : K × A} (h : Asc a) (hx : a.getLast? = some x) {y : K × A}
    (hy : y ∈ a) : y.1 ≤ x.1 := by
  obtain ⟨l, rfl⟩ := List.getLast?_eq_some_iff.mp hx
  rcases List.mem_append.mp hy with hy | hy
  · exact ((Asc_append.mp h).2.2 y hy x (by simp)).le
  · simp at hy; rw [hy]

/-- The leaf level. -/
def leafLvl : Lvl K V V where
  Q := leafQ
  lv nd := [nd]
  mono := by
    rintro lo lo' es e hi hl ⟨h1, h2, h3⟩
    exact ⟨h1, h2, fun x hx => ⟨(h3 x hx).1.mono hl, (h3 x hx).2⟩⟩
  app := by
    rintro lo m a b e hi hl hm ⟨-, h2, h3⟩ ⟨h4, h5, h6⟩
    refine ⟨h4, Asc_append.mpr ⟨h2, h5, fun x hx y hy => ?_⟩, fun x hx => ?_⟩
    · have h7 := (h3 x hx).2
      have h8 := (h6 y hy).1
      simp at h7 h8
      exact lt_of_le_of_lt h7 h8
    · rcases List.mem_append.mp hx with hx | hx
      · have h7 := (h3 x hx).2
        simp at h7
        exact ⟨(h3 x hx).1, hm.trans h7⟩
      · have h7 := (h6 x hx).1
        simp at h7
        exact ⟨hl.trans h7.le, (h6 x hx).2⟩
  cut := by
    rintro lo a b e hi x hx - ⟨h1, h2, h3⟩
    obtain ⟨h4, h5, h6⟩ := Asc_append.mp h2
    refine ⟨⟨rfl, h4, fun y hy => ⟨(h3 y (List.mem_append_left _ hy)).1, ?_⟩⟩,
      ⟨h1, h5, fun y hy => ⟨?_, (h3 y (List.mem_append_right _ hy)).2⟩⟩⟩
    · simpa using le_last h4 hx hy
    · simpa using h6 x (List.mem_of_getLast? hx) y hy
  shrink := by
    rintro lo a hi x hx ⟨h1, h2, h3⟩
    exact ⟨rfl, h2, fun y hy => ⟨(h3 y hy).1, by simpa using le_last h2 hx hy⟩⟩
  asc h := h.2.1
  bnd h hx := h.2.2 _ hx
  edgeHi h := by cases h.1
  cont_asc h := by simpa using h.2.1
  cont_bnd h hx := h.2.2 _ (by simpa using hx)
  empty _ _ _ _ _ h := h.1
  regroup_step := by
    intro xs ys n n' h
    have e1 : xs.flatMap (fun nd => [nd]) = xs := by simp
    have e2 : ys.flatMap (fun nd => [nd]) = ys := by simp
    rw [e1, e2]
    obtain ⟨x, xr, rfl⟩ := List.exists_cons_of_ne_nil h.xne
    obtain ⟨y, yr, rfl⟩ := List.exists_cons_of_ne_nil h.yne
    have hid : y.id = x.id := by simpa using h.head
    refine ⟨h.le, fun nx => by simp [headId, hid], fun nx hc => ?_, fun i hi => ?_, fun hn hlt => ?_⟩
    · have hl : ∃ z, (x :: xr).getLast? = some z := by
        rw [List.getLast?_cons]; exact ⟨_, rfl⟩
      obtain ⟨z, hz⟩ := hl
      have h1 := hc.last hz
      have h2 := h.chain
      rw [hz] at h2
      simp only [Option.bind_some, h1] at h2
      exact h2
    · simp only [ids, List.map_cons, List.mem_cons] at hi ⊢
      rcases hi with hi | hi
      · exact Or.inl (Or.inl (hi.trans hid))
      · right
        obtain ⟨w, hw, rfl⟩ := List.mem_map.mp hi
        exact h.fresh w hw
    · simp only [ids, List.map_cons, List.nodup_cons]
      refine ⟨?_, h.nodup⟩
      intro hm
      obtain ⟨w, hw, hwe⟩ := List.mem_map.mp hm
      have h1 := h.fresh w hw
      have h2 := hlt x.id (by simp [ids])
      omega
  regroup_cont := by
    intro xs ys n n' h
    have e1 : xs.flatMap (fun nd => [nd]) = xs := by simp
    have e2 : ys.flatMap (fun nd => [nd]) = ys := by simp
    rw [e1, e2]
    exact h.same

/-! ## An interior level -/

/-- The children of `es` cover `(lo, m]` one after the other, each up to its key. -/
def Seg (P : A → Option K → Option K → Prop) : Option K → List (K × A) → Option K → Prop
  | lo, [], m => lo = m
  | lo, x :: r, m => ltLo lo x.1 ∧ P x.2 lo (some x.1) ∧ Seg P (some x.1) r m

/-- Entries and edge of an interior node cover `(lo, hi]`: without an edge up to the last key, with an edge
everything above `lo`. -/
def Kids (P : A → Option K → Option K → Prop) (lo : Option K) (es : List (K × A)) (e : Option A)
    (hi : Option K) : Prop :=
  match e with
  | none => es ≠ [] ∧ Seg P lo es hi
  | some c => hi = none ∧ ∃ m, Seg P lo es m ∧ P c m none

theorem Seg_append {P : A → Option K → Option K → Prop} {lo m : Option K} {a b : List (K × A)} :
    Seg P lo (a ++ b) m ↔ ∃ q, Seg P lo a q ∧ Seg P q b m := by
  induction a generalizing lo with
  | nil => simp [Seg]
  | cons x r ih => simp [Seg, ih, and_assoc]

theorem Seg.last {P : A → Option K → Option K → Prop} {lo m : Option K} {a : List (K × A)} {x : K × A}
    (h : Seg P lo a m) (hx : a.getLast? = some x) : m = some x.1 := by
  obtain ⟨l, rfl⟩ := List.getLast?_eq_some_iff.mp hx
  obtain ⟨q, -, hq⟩ := Seg_append.mp h
  simp only [Seg] at hq
  exact hq.2.2.symm

theorem Seg.bnd {P : A → Option K → Option K → Prop} {lo m : Option K} {a : List (K × A)}
    (h : Seg P lo a m) {x : K × A} (hx : x ∈ a) : ltLo lo x.1 ∧ ∃ k, m = some k ∧ x.1 ≤ k := by
  induction a generalizing lo x with
  | nil => simp at hx
  | cons y r ih =>
    obtain ⟨h1, -, h3⟩ := h
    rcases List.mem_cons.mp hx with rfl | hx
    · refine ⟨h1, ?_⟩
      cases r with
      | nil => exact ⟨x.1, h3.symm, le_rfl⟩
      | cons z r' =>
        obtain ⟨h4, k, hk, hle⟩ := ih h3 (x := z) (by simp)
        simp at h4
        exact ⟨k, hk, h4.le.trans hle⟩
    · obtain ⟨h4, k, hk, hle⟩ := ih h3 hx
      simp at h4
      exact ⟨h1.trans h4.le, k, hk, hle⟩

theorem Seg.asc {P : A → Option K → Option K → Prop} {lo m : Option K} {a : List (K × A)}
    (h : Seg P lo a m) : Asc a := by
  induction a generalizing lo with
  | nil => exact List.Pairwise.nil
  | cons y r ih =>
    refine Asc_cons.mpr ⟨fun z hz => ?_, ih h.2.2⟩
    simpa using (h.2.2.bnd hz).1

theorem Seg.mono {P : A → Option K → Option K → Prop}
    (hP : ∀ {c lo lo' hi}, leLo lo' lo → P c lo hi → P c lo' hi)
    {lo lo' m : Option K} {a : List (K × A)} (hne : a ≠ []) (hl : leLo lo' lo) (h : Seg P lo a m) :
    Seg P lo' a m := by
  cases a with
  | nil => exact absurd rfl hne
  | cons x r => exact ⟨h.1.mono hl, hP hl h.2.1, h.2.2⟩

/-- Leaves below the children of a list of entries. -/
def kidLeaves (L : Lvl K V A) (es : List (K × Node K A)) : List (Node K V) :=
  es.flatMap (fun x => L.lv x.2)

/-- Leaves below an edge. -/
def edgeLeaves (L : Lvl K V A) (e : Option (Node K A)) : List (Node K V) := e.elim [] L.lv

@[simp] theorem kidLeaves_nil (L : Lvl K V A) : kidLeaves L [] = [] := rfl
@[simp] theorem kidLeaves_cons (L : Lvl K V A) (x : K × Node K A) (r : List (K × Node K A)) :
    kidLeaves L (x :: r) = L.lv x.2 ++ kidLeaves L r := by simp [kidLeaves]
@[simp] theorem kidLeaves_append (L : Lvl K V A) (a b : List (K × Node K A)) :
    kidLeaves L (a ++ b) = kidLeaves L a ++ kidLeaves L b := by simp [kidLeaves]

/-- The child `c` covers `(lo, hi]`. -/
def Lvl.P (L : Lvl K V A) (c : Node K A) (lo hi : Option K) : Prop := L.Q lo c.es c.edge hi

theorem Lvl.P_mono (L : Lvl K V A) {c : Node K A} {lo lo' hi : Option K} (h : leLo lo' lo)
    (hc : L.P c lo hi) : L.P c lo' hi := L.mono h hc

theorem Seg.cont (L : Lvl K V A) {lo m : Option K} {es : List (K × Node K A)} (h : Seg L.P lo es m) :
    Asc (cont (kidLeaves L es)) ∧ ∀ x ∈ Btree.cont (kidLeaves L es), ltLo lo x.1 ∧ leHi x.1 m := by
  induction es generalizing lo with
  | nil => exact ⟨List.Pairwise.nil, by simp⟩
  | cons y r ih =>
    obtain ⟨h1, h2, h3⟩ := h
    obtain ⟨h4, h5⟩ := ih h3
    have hy : leHi y.1 m := by
      cases r with
      | nil => cases h3; simp
      | cons z r' =>
        obtain ⟨h6, k, hk, hle⟩ := h3.bnd (x := z) (by simp)
        simp at h6
        rw [hk]; simp
        exact h6.le.trans hle
    rw [kidLeaves_cons, cont_append]
    refine ⟨Asc_append.mpr ⟨L.cont_asc h2, h4, fun a ha b hb => ?_⟩, fun a ha => ?_⟩
    · have h7 := (L.cont_bnd h2 ha).2
      have h8 := (h5 b hb).1
      simp at h7 h8
      exact lt_of_le_of_lt h7 h8
    · rcases List.mem_append.mp ha with ha | ha
      · have h7 := L.cont_bnd h2 ha
        exact ⟨h7.1, hy.trans (by simpa using h7.2)⟩
      · have h7 := h5 a ha
        have h8 := h7.1
        simp at h8
        exact ⟨h1.trans h8.le, h7.2⟩

theorem lv_regroup (L : Lvl K V A) (xs : List (Node K (Node K A)))
    (h : ∀ x ∈ xs.dropLast, x.edge = none) :
    xs.flatMap (fun nd => kidLeaves L nd.es ++ edgeLeaves L nd.edge) =
      kidLeaves L (xs.flatMap (·.es)) ++ edgeLeaves L ((xs.getLast?).bind (·.edge)) := by
  induction xs with
  | nil => rfl
  | cons x r ih =>
    cases r with
    | nil => simp
    | cons y r' =>
      have h1 : x.edge = none := h x (by simp)
      have h2 := ih (fun z hz => h z (by simp [List.dropLast_cons_cons]; right; exact hz))
      rw [List.flatMap_cons, h2, h1]
      simp [edgeLeaves, List.getLast?_cons_cons]

/-- The level above `L`. -/
def intLvl (L : Lvl K V A) : Lvl K V (Node K A) where
  Q := Kids L.P
  lv nd := kidLeaves L nd.es ++ edgeLeaves L nd.edge
  mono := by
    intro lo lo' es e hi hl h
    cases e with
    | none => exact ⟨h.1, Seg.mono (P := L.P) L.P_mono h.1 hl h.2⟩
    | some c =>
      obtain ⟨h1, m, h2, h3⟩ := h
      cases es with
      | nil => cases h2; exact ⟨h1, lo', rfl, L.mono hl h3⟩
      | cons x r => exact ⟨h1, m, Seg.mono (P := L.P) L.P_mono (by simp) hl h2, h3⟩
  app := by
    intro lo m a b e hi hl hm ha hb
    cases e with
    | none => exact ⟨by simp [ha.1], Seg_append.mpr ⟨_, ha.2, hb.2⟩⟩
    | some c =>
      obtain ⟨h1, q, h2, h3⟩ := hb
      exact ⟨h1, q, Seg_append.mpr ⟨_, ha.2, h2⟩, h3⟩
  cut := by
    intro lo a b e hi x hx hb h
    have hne : a ≠ [] := by rintro rfl; simp at hx
    cases e with
    | none =>
      obtain ⟨q, h1, h2⟩ := Seg_append.mp h.2
      cases h1.last hx
      exact ⟨⟨hne, h1⟩, ⟨by simpa using hb, h2⟩⟩
    | some c =>
      obtain ⟨h0, q', h3, h4⟩ := h
      obtain ⟨q, h1, h2⟩ := Seg_append.mp h3
      cases h1.last hx
      exact ⟨⟨hne, h1⟩, ⟨h0, q', h2, h4⟩⟩
  shrink := by
    intro lo a hi x hx h
    cases h.2.last hx
    exact h
  asc := by
    intro lo es e hi h
    cases e with
    | none => exact h.2.asc
    | some c => obtain ⟨_, q, h1, _⟩ := h; exact h1.asc
  bnd := by
    intro lo es e hi x h hx
    cases e with
    | none =>
      obtain ⟨h1, k, hk, h2⟩ := h.2.bnd hx
      rw [hk]; exact ⟨h1, by simpa using h2⟩
    | some c =>
      obtain ⟨h0, q, h1, _⟩ := h
      rw [h0]; exact ⟨(h1.bnd hx).1, by simp⟩
  edgeHi h := h.1
  cont_asc := by
    intro lo hi nd h
    simp only [cont_append]
    cases he : nd.edge with
    | none => rw [he] at h; simpa [edgeLeaves] using (h.2.cont L).1
    | some c =>
      rw [he] at h
      obtain ⟨h0, q, h1, h2⟩ := h
      refine Asc_append.mpr ⟨(h1.cont L).1, L.cont_asc h2, fun x hx y hy => ?_⟩
      have h3 := ((h1.cont L).2 x hx).2
      have h4 := (L.cont_bnd h2 hy).1
      cases q with
      | none =>
        cases hes : nd.es with
        | nil => rw [hes] at hx; simp at hx
        | cons z r =>
          rw [hes] at h1
          obtain ⟨_, k, hk, _⟩ := h1.bnd (x := z) (by simp)
          cases hk
      | some q =>
        simp at h3 h4
        exact lt_of_le_of_lt h3 h4
  cont_bnd := by
    intro lo hi nd x h hx
    simp only [cont_append] at hx
    cases he : nd.edge with
    | none =>
      rw [he] at h hx
      simp only [edgeLeaves, Option.elim_none, cont_nil, List.append_nil] at hx
      exact (h.2.cont L).2 x hx
    | some c =>
      rw [he] at h hx
      obtain ⟨h0, q, h1, h2⟩ := h
      subst h0
      refine ⟨?_, by simp⟩
      rcases List.mem_append.mp hx with hx | hx
      · exact ((h1.cont L).2 x hx).1
      · have h4 := (L.cont_bnd h2 hx).1
        cases hes : nd.es with
        | nil => rw [hes] at h1; cases h1; exact h4
        | cons z r =>
          rw [hes] at h1
          obtain ⟨h5, k, hk, h6⟩ := h1.bnd (x := z) (by simp)
          subst hk
          simp at h4
          exact h5.trans (h6.trans h4.le)
  empty h := absurd rfl h.1
  regroup_step := by
    intro xs ys n n' h
    rw [lv_regroup L xs h.edgeX, lv_regroup L ys h.edgeY, h.same, h.edge]
    exact Step.refl _ h.le
  regroup_cont := by
    intro xs ys n n' h
    rw [lv_regroup L xs h.edgeX, lv_regroup L ys h.edgeY, h.same, h.edge]

/-- All levels. -/
def levels (K V : Type) [LinearOrder K] : (n : Nat) → Lvl K V (Val K V n)
  | 0 => leafLvl
  | n + 1 => intLvl (levels K V n)

end
end HS.Btree
