import Verif.Conc.Model

/-!
# What the nodes of a tree are like, whatever the threads do

Each node in use is responsible for a range of keys.  The children of an interior node share its range among them, in order;
no two nodes of one level have a key in common.
-/

namespace HS.Conc

/-- `k` is in the range from `lo` on, before `hi`. -/
def inR (lo hi : Option Nat) (k : Nat) : Prop := (∃ a, lo = some a ∧ a ≤ k) ∧ ∀ b, hi = some b → k < b

/-- A range that is not empty. -/
def ltB (lo hi : Option Nat) : Prop := ∃ a, lo = some a ∧ ∀ b, hi = some b → a < b

/-- A bound is not after another one. -/
def leB (a b : Option Nat) : Prop := ∀ y, b = some y → ∃ x, a = some x ∧ x ≤ y

theorem ltB.inR {lo hi} (h : ltB lo hi) : ∃ k, inR lo hi k := by
  obtain ⟨a, h1, h2⟩ := h
  exact ⟨a, ⟨a, h1, Nat.le_refl _⟩, h2⟩

theorem ltB.of_inR {lo hi k} (h : HS.Conc.inR lo hi k) : ltB lo hi := by
  obtain ⟨⟨a, h1, h2⟩, h3⟩ := h
  exact ⟨a, h1, fun b hb => Nat.lt_of_le_of_lt h2 (h3 b hb)⟩

theorem leB.refl (a : Option Nat) : leB a a := fun y h => ⟨y, h, Nat.le_refl _⟩

theorem leB.trans {a b c : Option Nat} (h1 : leB a b) (h2 : leB b c) : leB a c := by
  intro z hz
  obtain ⟨y, hy, l2⟩ := h2 z hz
  obtain ⟨x, hx, l1⟩ := h1 y hy
  exact ⟨x, hx, by omega⟩

theorem ltB.leB {a b} (h : ltB a b) : leB a b := by
  obtain ⟨x, h1, h2⟩ := h
  intro y hy
  exact ⟨x, h1, Nat.le_of_lt (h2 y hy)⟩

theorem ltB.of_leB_right {a b c} (h : ltB a b) (h' : HS.Conc.leB b c) : ltB a c := by
  obtain ⟨x, h1, h2⟩ := h
  refine ⟨x, h1, fun z hz => ?_⟩
  obtain ⟨y, hy, l⟩ := h' z hz
  have := h2 y hy
  omega

theorem ltB.of_leB_left {a b c} (h : ltB b c) (h' : HS.Conc.leB a b) : ltB a c := by
  obtain ⟨x, h1, h2⟩ := h
  obtain ⟨w, hw, l⟩ := h' x h1
  refine ⟨w, hw, fun z hz => ?_⟩
  have := h2 z hz
  omega

theorem ltB.trans {a b c} (h : ltB a b) (h' : ltB b c) : ltB a c := h.of_leB_right h'.leB

theorem ltB.irrefl {a} (h : ltB a a) : False := by
  obtain ⟨x, h1, h2⟩ := h
  exact absurd (h2 x h1) (Nat.lt_irrefl _)

theorem inR.mono {lo hi lo' hi' k} (h : inR lo hi k) (h1 : leB lo' lo) (h2 : leB hi hi') : inR lo' hi' k := by
  obtain ⟨⟨a, ha, l⟩, h3⟩ := h
  obtain ⟨x, hx, l1⟩ := h1 a ha
  refine ⟨⟨x, hx, by omega⟩, fun b hb => ?_⟩
  obtain ⟨y, hy, l2⟩ := h2 b hb
  have := h3 y hy
  omega

/-- Two ranges, one before the other, have no key in common. -/
theorem inR.disjoint {lo m m' hi k} (h : inR lo m k) (h' : inR m' hi k) (hm : leB m m') : False := by
  obtain ⟨_, h2⟩ := h
  obtain ⟨⟨a, ha, l⟩, _⟩ := h'
  obtain ⟨x, hx, l'⟩ := hm a ha
  have := h2 x hx
  omega

/-- The entries of a leaf: keys in the range, in order. -/
def LeafOk : Option Nat → List Ent → Option Nat → Prop
  | _, [], _ => True
  | lo, e :: t, hi => ∃ k, e.1 = some k ∧ inR lo hi k ∧ LeafOk (some (k + 1)) t hi

/-- The entries of an interior node: children that share the range among them. -/
def Chain (P : Nat → Option Nat → Option Nat → Prop) : Option Nat → List Ent → Option Nat → Prop
  | lo, [], hi => lo = hi
  | lo, e :: t, hi => ltB lo (cut e.1) ∧ P e.2 lo (cut e.1) ∧ Chain P (cut e.1) t hi

section Chain
variable {P Q : Nat → Option Nat → Option Nat → Prop}

theorem Chain.append {a b : List Ent} {lo hi} : Chain P lo (a ++ b) hi ↔ ∃ m, Chain P lo a m ∧ Chain P m b hi := by
  induction a generalizing lo with
  | nil => exact ⟨fun h => ⟨lo, rfl, h⟩, fun ⟨m, h1, h2⟩ => by cases h1; exact h2⟩
  | cons e t ih =>
    constructor
    · rintro ⟨h1, h2, h3⟩
      obtain ⟨m, h4, h5⟩ := ih.1 h3
      exact ⟨m, ⟨h1, h2, h4⟩, h5⟩
    · rintro ⟨m, ⟨h1, h2, h4⟩, h5⟩
      exact ⟨h1, h2, ih.2 ⟨m, h4, h5⟩⟩

theorem Chain.le {a : List Ent} {lo hi} (h : Chain P lo a hi) : leB lo hi := by
  induction a generalizing lo with
  | nil => cases h; exact leB.refl _
  | cons e t ih => exact h.1.leB.trans (ih h.2.2)

theorem Chain.lt {a : List Ent} {lo hi} (h : Chain P lo a hi) (hn : a ≠ []) : ltB lo hi := by
  cases a with
  | nil => exact absurd rfl hn
  | cons e t => exact h.1.of_leB_right h.2.2.le

/-- The bound a chain ends with is the key of its last entry. -/
theorem Chain.last {a : List Ent} {lo hi} (h : Chain P lo a hi) (hn : a ≠ []) (d : Option Nat) : hi = cut (lastKey d a) := by
  induction a generalizing lo with
  | nil => exact absurd rfl hn
  | cons e t ih =>
    cases t with
    | nil => exact h.2.2.symm
    | cons f t =>
      have := ih h.2.2 (by simp)
      simpa [lastKey, List.getLast?_cons_cons] using this

theorem Chain.imp {a : List Ent} {lo hi} (h : Chain P lo a hi) (hPQ : ∀ e ∈ a, ∀ x y, P e.2 x y → Q e.2 x y) : Chain Q lo a hi := by
  induction a generalizing lo with
  | nil => exact h
  | cons e t ih => exact ⟨h.1, hPQ e (by simp) _ _ h.2.1, ih h.2.2 fun f hf => hPQ f (by simp [hf])⟩

/-- Every child has a range within. -/
theorem Chain.mem {a : List Ent} {lo hi} (h : Chain P lo a hi) {e} (he : e ∈ a) :
    ∃ x, P e.2 x (cut e.1) ∧ ltB x (cut e.1) ∧ leB lo x ∧ leB (cut e.1) hi := by
  induction a generalizing lo with
  | nil => cases he
  | cons f t ih =>
    rcases List.mem_cons.1 he with rfl | he
    · exact ⟨lo, h.2.1, h.1, leB.refl _, h.2.2.le⟩
    · obtain ⟨x, h1, h2, h3, h4⟩ := ih h.2.2 he
      exact ⟨x, h1, h2, h.1.leB.trans h3, h4⟩

/-- The child `find` yields is responsible for the key. -/
theorem Chain.child {a : List Ent} {lo hi} (h : Chain P lo a hi) {k} (hk : inR lo hi k) :
    ∃ e t m, rest k a = e :: t ∧ a = front k a ++ e :: t ∧ Chain P lo (front k a) m ∧ P e.2 m (cut e.1) ∧ inR m (cut e.1) k ∧
      Chain P (cut e.1) t hi := by
  induction a generalizing lo with
  | nil => cases h; exact absurd (ltB.of_inR hk) ltB.irrefl
  | cons e t ih =>
    by_cases hc : covers e.1 k = true
    · refine ⟨e, t, lo, by simp [rest, List.dropWhile, hc], by simp [front, List.takeWhile, hc], by simp [front, List.takeWhile, hc, Chain],
        h.2.1, ⟨hk.1, ?_⟩, h.2.2⟩
      intro b hb
      cases he : e.1 with
      | none => rw [he] at hb; cases hb
      | some s =>
        rw [he] at hb hc
        simp [covers] at hc
        simp [cut] at hb
        omega
    · simp only [Bool.not_eq_true] at hc
      cases he : e.1 with
      | none => rw [he] at hc; simp [covers] at hc
      | some s =>
        rw [he] at hc
        simp [covers] at hc
        have hk' : inR (cut e.1) hi k := ⟨⟨s + 1, by simp [cut, he], by omega⟩, hk.2⟩
        obtain ⟨f, u, m, h1, h2, h3, h4, h5, h6⟩ := ih h.2.2 hk'
        have hc' : covers e.1 k = false := by rw [he]; simp [covers]; omega
        refine ⟨f, u, m, ?_, ?_, ?_, h4, h5, h6⟩
        · simpa [rest, List.dropWhile, hc'] using h1
        · have : front k (e :: t) = e :: front k t := by simp [front, List.takeWhile, hc']
          rw [this, List.cons_append, ← h2]
        · have : front k (e :: t) = e :: front k t := by simp [front, List.takeWhile, hc']
          rw [this]
          exact ⟨h.1, h.2.1, h3⟩

end Chain

theorem LeafOk.mono {a : List Ent} {lo hi lo' hi'} (h : LeafOk lo a hi) (h1 : leB lo' lo) (h2 : leB hi hi') : LeafOk lo' a hi' := by
  induction a generalizing lo lo' with
  | nil => trivial
  | cons e t ih =>
    obtain ⟨k, he, hk, ht⟩ := h
    exact ⟨k, he, hk.mono h1 h2, ih ht (leB.refl _)⟩

theorem LeafOk.join {a b : List Ent} {lo m hi} (h : LeafOk lo a m) (h' : LeafOk m b hi) (h1 : leB lo m) (h2 : leB m hi) :
    LeafOk lo (a ++ b) hi := by
  induction a generalizing lo with
  | nil => exact h'.mono h1 (leB.refl _)
  | cons e t ih =>
    obtain ⟨k, he, hk, ht⟩ := h
    refine ⟨k, he, hk.mono (leB.refl _) h2, ih ht ?_⟩
    intro y hy
    have := hk.2 y hy
    exact ⟨k + 1, rfl, by omega⟩

/-- A leaf cut in two: the first part ends with its last key. -/
theorem LeafOk.cut {a b : List Ent} {lo hi} (h : LeafOk lo (a ++ b) hi) (ha : a ≠ []) (d : Option Nat) :
    ∃ x, lastKey d a = some x ∧ inR lo hi x ∧ LeafOk lo a (some (x + 1)) ∧ LeafOk (some (x + 1)) b hi := by
  induction a generalizing lo with
  | nil => exact absurd rfl ha
  | cons e t ih =>
    obtain ⟨k, he, hk, ht⟩ := h
    cases t with
    | nil => exact ⟨k, by simp [lastKey, he], hk, ⟨k, he, ⟨hk.1, by intro b hb; cases hb; omega⟩, trivial⟩, ht⟩
    | cons f t =>
      obtain ⟨x, h1, h2, h3, h4⟩ := ih ht (by simp)
      have hkx : k < x := by
        obtain ⟨⟨a, ha, l⟩, _⟩ := h2
        cases ha
        omega
      refine ⟨x, by simpa [lastKey, List.getLast?_cons_cons] using h1, ⟨?_, h2.2⟩, ?_, h4⟩
      · obtain ⟨⟨a, ha, l⟩, _⟩ := hk
        exact ⟨a, ha, by omega⟩
      · exact ⟨k, he, ⟨hk.1, by intro b hb; cases hb; omega⟩, h3⟩

theorem LeafOk.key {a : List Ent} {lo hi} (h : LeafOk lo a hi) {e} (he : e ∈ a) : ∃ k, e.1 = some k ∧ inR lo hi k := by
  induction a generalizing lo with
  | nil => cases he
  | cons f t ih =>
    obtain ⟨k, hf, hk, ht⟩ := h
    rcases List.mem_cons.1 he with rfl | he
    · exact ⟨k, hf, hk⟩
    · obtain ⟨k', h1, h2⟩ := ih ht he
      refine ⟨k', h1, h2.mono ?_ (leB.refl _)⟩
      intro y hy
      cases hy
      obtain ⟨⟨a, ha, l⟩, _⟩ := hk
      exact ⟨a, ha, by omega⟩

/-- Node `i` is in use. -/
def Live (nd : Nat → Node) (fresh i : Nat) : Prop := i < fresh ∧ (nd i).del = false

/-- Node `c` is in use, on level `l`, with this range. -/
def Kid (nd : Nat → Node) (fresh l : Nat) (c : Nat) (lo hi : Option Nat) : Prop :=
  Live nd fresh c ∧ (nd c).lev = l ∧ (nd c).lo = lo ∧ (nd c).hi = hi

/-- Entries for a node of level `lev` and a range. -/
def Ok (nd : Nat → Node) (fresh lev : Nat) (lo : Option Nat) (es : List Ent) (hi : Option Nat) : Prop :=
  (lev = 0 → LeafOk lo es hi) ∧ (lev ≠ 0 → Chain (Kid nd fresh (lev - 1)) lo es hi)

/-- A tree. -/
structure TInv (nd : Nat → Node) (fresh root : Nat) : Prop where
  base : Live nd fresh root ∧ (nd root).lo = some 0 ∧ (nd root).hi = none
  top : ∀ i, Live nd fresh i → (nd i).lev ≤ (nd root).lev
  node : ∀ i, Live nd fresh i → ltB (nd i).lo (nd i).hi ∧ Ok nd fresh (nd i).lev (nd i).lo (nd i).es (nd i).hi
  uniq : ∀ i j, Live nd fresh i → Live nd fresh j → (nd i).lev = (nd j).lev → ∀ k, inR (nd i).lo (nd i).hi k →
    inR (nd j).lo (nd j).hi k → i = j

variable {nd : Nat → Node} {fresh root : Nat}

/-- Entries cut in two. -/
theorem Ok.cut {lev lo a b hi} (h : Ok nd fresh lev lo (a ++ b) hi) (ha : a ≠ []) (hb : b ≠ []) (d : Option Nat) :
    ∃ x, lastKey d a = some x ∧ Ok nd fresh lev lo a (some (x + 1)) ∧ Ok nd fresh lev (some (x + 1)) b hi ∧
      ltB lo (some (x + 1)) ∧ ltB (some (x + 1)) hi := by
  by_cases hl : lev = 0
  · obtain ⟨x, h1, h2, h3, h4⟩ := LeafOk.cut (h.1 hl) ha d
    refine ⟨x, h1, ⟨fun _ => h3, fun n => absurd hl n⟩, ⟨fun _ => h4, fun n => absurd hl n⟩, ?_, ?_⟩
    · obtain ⟨⟨y, hy, l⟩, _⟩ := h2
      exact ⟨y, hy, by intro b hb; cases hb; omega⟩
    · cases b with
      | nil => exact absurd rfl hb
      | cons e t =>
        obtain ⟨k, _, hk, _⟩ := h4
        exact ltB.of_inR hk
  · obtain ⟨m, h1, h2⟩ := Chain.append.1 (h.2 hl)
    have hm := h1.last ha d
    have hlt := h2.lt hb
    cases hx : lastKey d a with
    | none =>
      rw [hx] at hm
      obtain ⟨y, hy, _⟩ := hlt
      rw [hm] at hy
      cases hy
    | some x =>
      rw [hx] at hm
      have hm' : m = some (x + 1) := hm
      subst hm'
      exact ⟨x, rfl, ⟨fun n => absurd n hl, fun _ => h1⟩, ⟨fun n => absurd n hl, fun _ => h2⟩, h1.lt ha, hlt⟩

/-- Entries of neighbours put together. -/
theorem Ok.join {lev lo m hi a b} (h : Ok nd fresh lev lo a m) (h' : Ok nd fresh lev m b hi) (h1 : leB lo m) (h2 : leB m hi) :
    Ok nd fresh lev lo (a ++ b) hi :=
  ⟨fun hl => (h.1 hl).join (h'.1 hl) h1 h2, fun hl => Chain.append.2 ⟨m, h.2 hl, h'.2 hl⟩⟩

/-- Pieces that share a range among them. -/
def Segs (nd : Nat → Node) (fresh lev : Nat) : Option Nat → List (Option Nat × List Ent) → Option Nat → Prop
  | lo, [], hi => lo = hi
  | lo, p :: t, hi => ltB lo (HS.Conc.cut p.1) ∧ Ok nd fresh lev lo p.2 (HS.Conc.cut p.1) ∧ Segs nd fresh lev (HS.Conc.cut p.1) t hi

/-- The keys a merge gives the pieces are right. -/
theorem label_ok {lev : Nat} {bm : Option Nat} {fix : Bool} :
    ∀ (ps : List (List Ent)) (p : List Ent) (lo d : Option Nat), (∀ q ∈ ps, q ≠ []) →
      Ok nd fresh lev lo (p ++ ps.flatten) (HS.Conc.cut bm) → ltB lo (HS.Conc.cut bm) →
      (p ≠ [] ∨ lev = 0 ∧ Ok nd fresh lev (HS.Conc.cut d) ps.flatten (HS.Conc.cut bm) ∧ ltB lo (HS.Conc.cut d) ∧
        leB (HS.Conc.cut d) (HS.Conc.cut bm) ∧ (ps ≠ [] → ltB (HS.Conc.cut d) (HS.Conc.cut bm))) →
      ∃ β, Segs nd fresh lev lo (label d bm fix (p :: ps)) β ∧ leB β (HS.Conc.cut bm) ∧ (fix = true → β = HS.Conc.cut bm) ∧
        (lev ≠ 0 → β = HS.Conc.cut bm)
  | [], p, lo, d, _, hok, hlt, hp => by
    simp only [List.flatten_nil, List.append_nil] at hok
    by_cases hf : fix = true
    · refine ⟨HS.Conc.cut bm, ?_, leB.refl _, fun _ => rfl, fun _ => rfl⟩
      simp only [label, hf, if_true, Segs]
      exact ⟨hlt, hok, trivial⟩
    · by_cases hl : lev = 0
      · by_cases hpe : p = []
        · subst hpe
          rcases hp with hp | ⟨_, _, h1, h2, _⟩
          · exact absurd rfl hp
          · refine ⟨HS.Conc.cut d, ?_, h2, fun h => absurd h hf, fun h => absurd hl h⟩
            simp only [label, if_neg hf, Segs, lastKey, List.getLast?_nil]
            exact ⟨h1, ⟨fun _ => trivial, fun h => absurd hl h⟩, trivial⟩
        · obtain ⟨x, h1, h2, h3, _⟩ := LeafOk.cut (b := []) (by simpa using hok.1 hl) hpe d
          refine ⟨some (x + 1), ?_, ?_, fun h => absurd h hf, fun h => absurd hl h⟩
          · simp only [label, if_neg hf, Segs, h1]
            obtain ⟨⟨y, hy, l⟩, _⟩ := h2
            exact ⟨⟨y, hy, by intro b hb; simp [HS.Conc.cut] at hb; omega⟩, ⟨fun _ => h3, fun h => absurd hl h⟩, rfl⟩
          · intro y hy
            have := h2.2 y hy
            exact ⟨x + 1, rfl, by omega⟩
      · have hpe : p ≠ [] := by
          rcases hp with hp | hp
          · exact hp
          · exact absurd hp.1 hl
        have := (hok.2 hl).last hpe d
        refine ⟨HS.Conc.cut bm, ?_, leB.refl _, fun _ => rfl, fun _ => rfl⟩
        simp only [label, if_neg hf, Segs]
        rw [← this]
        exact ⟨hlt, hok, rfl⟩
  | q :: ps, p, lo, d, hne, hok, hlt, hp => by
    have hq : q ≠ [] := hne q (by simp)
    have hps : ∀ r ∈ ps, r ≠ [] := fun r hr => hne r (by simp [hr])
    have hflat : (q :: ps).flatten ≠ [] := by simp [hq]
    by_cases hpe : p = []
    · subst hpe
      rcases hp with hp | ⟨hl, h0, h1, h2, h3⟩
      · exact absurd rfl hp
      · obtain ⟨β, hs, hb⟩ := label_ok ps q (HS.Conc.cut d) none hps (by simpa using h0) (h3 (by simp)) (Or.inl hq)
        refine ⟨β, ?_, hb⟩
        simp only [label, Segs, lastKey, List.getLast?_nil]
        exact ⟨h1, ⟨fun _ => trivial, fun h => absurd hl h⟩, hs⟩
    · obtain ⟨x, h1, h2, h3, h4, h5⟩ := hok.cut hpe hflat d
      obtain ⟨β, hs, hb⟩ := label_ok ps q (some (x + 1)) none hps (by simpa using h3) h5 (Or.inl hq)
      refine ⟨β, ?_, hb⟩
      simp only [label, Segs, h1]
      exact ⟨h4, h2, hs⟩

end HS.Conc
