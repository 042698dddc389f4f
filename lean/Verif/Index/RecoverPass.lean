import Verif.Index.RepairTree
/-!
# The buffers of recovery after splits and merges of leaves under one node
-/
namespace HS.Index.Recover

/-! ## The journal -/

/-- The old leaf that a leaf made in this checkpoint comes from, or that an old leaf was merged into. -/
def ownerOf (own : List (Id × Id)) (x : Id) : Option Id := (own.find? (fun o => o.1 == x)).map (·.2)

/-- A change of the leaves under a node: the leaf `x` gets entries, or gives some, and is in use after it; the leaves `new`
are made (a split, or a merge that needs more than one leaf) and the leaves `freed` are merged into `x` and `new`. -/
structure Chg where
  x : Id
  new : List Id
  freed : List Id
  deriving DecidableEq, Repr

/-- The old leaf that a change is recorded with. -/
def Chg.owner (own : List (Id × Id)) (c : Chg) : Id := (ownerOf own c.x).getD c.x

/-- A leaf merged into others is recorded with `w`, unless it was made in this checkpoint. -/
def addFreed (w : Id) (own : List (Id × Id)) (f : Id) : List (Id × Id) :=
  if f ∈ own.map (·.1) then own else (f, w) :: own

/-- The leaves made and merged so far, each with the old leaf it is recorded with, after a change. -/
def Chg.own (own : List (Id × Id)) (c : Chg) : List (Id × Id) :=
  c.freed.foldl (addFreed (c.owner own)) (c.new.foldl (fun l n => (n, c.owner own) :: l) own)

/-- The journal's records for changes under `p`.  The parent in the record is the buffer that `x` is linked to
(wb_cache.cpp:307-308, index_internal.hpp): `p`, or the old leaf that `x` comes from (`link_buf`, wb_cache.cpp:373-431).
`own`: the leaves made and merged so far. -/
def journal (p : Id) : List (Id × Id) → List Chg → List Rec
  | _, [] => []
  | own, c :: cs =>
    { parent := some (.node ((ownerOf own c.x).getD p)), child := some c.x, new := c.new, freed := c.freed } ::
      journal p (c.own own) cs

/-- The leaves made and merged by the changes, each with the old leaf that it is recorded with. -/
def origins : List (Id × Id) → List Chg → List (Id × Id)
  | own, [] => own
  | own, c :: cs => origins (c.own own) cs

/-- The leaves made by the changes. -/
def madeBy (cs : List Chg) : List Id := cs.flatMap (·.new)

/-- The leaves merged into others by the changes. -/
def freedBy (cs : List Chg) : List Id := cs.flatMap (·.freed)

/-- Each change is of a leaf in use, makes leaves with ids not in use, and merges other leaves in use.  Not covered: merging a
leaf that was changed in this checkpoint before, but for merging a leaf made in it into a leaf that comes from the same one. -/
def Changes (p : Id) : List Id → List Id → List (Id × Id) → List Chg → Prop
  | _, _, _, [] => True
  | used, dead, own, c :: cs =>
    (c.x ∈ used ∧ c.x ∉ dead ∧ c.x ≠ p) ∧ c.new ++ c.freed ≠ [] ∧
    c.new.Nodup ∧ (∀ n ∈ c.new, n ∉ used) ∧
    c.freed.Nodup ∧ (∀ f ∈ c.freed, f ∈ used ∧ f ∉ dead ∧ f ≠ p ∧ f ≠ c.x ∧ (∀ o ∈ own, o.2 ≠ f) ∧
      (f ∈ own.map (·.1) → (f, c.owner own) ∈ own)) ∧
    Changes p (c.new ++ used) (c.freed ++ dead) (c.own own) cs

/-! ## The buffers after reading the journal -/

theorem set_set_same {m : Bufs} {r : Ref} {b : Buf} (h : m r = some b) : m.set r b = m := by
  funext x
  simp only [Bufs.set]
  split
  · rename_i e; rw [e, h]
  · rfl

theorem bset_same {m : Bufs} {r : Ref} {b : Buf} : m.set r b r = some b := by simp [Bufs.set]

theorem bset_other {m : Bufs} {r x : Ref} {b : Buf} (h : x ≠ r) : m.set r b x = m x := by simp [Bufs.set, h]

theorem set_set {m : Bufs} {r : Ref} {b c : Buf} : (m.set r b).set r c = m.set r c := by
  funext x
  simp only [Bufs.set]
  split <;> rfl

theorem recToBuf_known {m : Bufs} {r : Ref} {b : Buf} (h : m r = some b) : m.recToBuf r none false = m := by
  simp only [Bufs.recToBuf, h, Option.getD_some, Bool.or_false]
  rw [set_set, set_set_same h]

theorem recToBuf_fresh {m : Bufs} {r : Ref} (h : m r = none) :
    m.recToBuf r none false = m.set r { created := false, freed := false, up := none, wait := 0 } := by
  simp only [Bufs.recToBuf, h, Option.getD_none, Bool.or_false]
  rw [set_set]

theorem recToBuf_same {m : Bufs} {r u : Ref} {b ub : Buf} (h : m r = some b) (hu : m u = some ub)
    (hc : (ub.created || ub.freed) = false) (hup : b.up = some u) : m.recToBuf r (some u) false = m := by
  simp only [Bufs.recToBuf, h, Option.getD_some, Bool.or_false]
  rw [set_set_same h]
  simp only [hu, hc, Bool.false_eq_true, if_false, hup, if_true, h]
  rw [set_set_same]
  rw [h, ← hup]

theorem recToBuf_new {m : Bufs} {r u v : Ref} {ub vb : Buf} {cr : Bool} (h : m r = none) (hu : m u = some ub)
    (hv : (if ub.created || ub.freed then ub.up else some u) = some v) (hvb : m v = some vb) :
    m.recToBuf r (some u) cr = (m.set v { vb with wait := vb.wait + 1 }).set r { created := cr, freed := false, up := some v, wait := 0 } := by
  have hru : u ≠ r := by intro e; rw [e, h] at hu; cases hu
  have hrv : v ≠ r := by intro e; rw [e, h] at hvb; cases hvb
  simp only [Bufs.recToBuf, h, Option.getD_none]
  rw [bset_other hru, hu]
  simp only [hv]
  rw [if_neg (by simp)]
  simp only [Bufs.addWait]
  rw [bset_other hrv, hvb]
  simp only []
  rw [bset_other (Ne.symm hrv), bset_same]
  simp only []
  rw [bset_same]
  simp only [Bool.false_or]
  rw [set_set]
  funext x
  simp only [Bufs.set]
  by_cases e1 : x = r
  · simp [e1]
  · by_cases e2 : x = v
    · simp [e1, e2]
    · simp [e1, e2]

/-- What the map of buffers looks like. -/
structure Shape (p : Id) (own : List (Id × Id)) (olds news frees : List Id) (m : Bufs) : Prop where
  nodupN : (own.map (·.1)).Nodup
  nodupO : olds.Nodup
  ownOld : ∀ o ∈ own, o.2 ∈ olds
  newOld : ∀ o ∈ own, o.1 ∉ olds
  newP : ∀ o ∈ own, o.1 ≠ p
  oldP : p ∉ olds
  kind : ∀ o ∈ own, o.1 ∈ news ∨ o.1 ∈ frees
  news_ : ∀ i ∈ news, i ∈ own.map (·.1)
  frees_ : ∀ i ∈ frees, i ∈ own.map (·.1)
  super : m .super = none
  mp : m (.node p) = if olds = [] then none else some { created := false, freed := false, up := none, wait := olds.length }
  mc : ∀ c ∈ olds, m (.node c) = some { created := false, freed := false, up := some (.node p), wait := own.countP (fun o => o.2 == c) }
  mn : ∀ o ∈ own, m (.node o.1) = some { created := decide (o.1 ∈ news), freed := decide (o.1 ∈ frees), up := some (.node o.2), wait := 0 }
  mo : ∀ i, i ≠ p → i ∉ olds → i ∉ own.map (·.1) → m (.node i) = none

theorem ownerOf_some {own : List (Id × Id)} {x c : Id} (h : ownerOf own x = some c) : (x, c) ∈ own := by
  simp only [ownerOf, Option.map_eq_some_iff] at h
  obtain ⟨o, h1, h2⟩ := h
  have h3 := List.mem_of_find?_eq_some h1
  have h4 := List.find?_some h1
  simp only [beq_iff_eq] at h4
  rw [← h4, ← h2]
  exact h3

theorem ownerOf_none {own : List (Id × Id)} {x : Id} (h : ownerOf own x = none) : x ∉ own.map (·.1) := by
  simp only [ownerOf, Option.map_eq_none_iff, List.find?_eq_none] at h
  intro hx
  obtain ⟨o, ho, rfl⟩ := List.mem_map.1 hx
  exact h o ho (by simp)

theorem node_ne {a b : Id} (h : a ≠ b) : (Ref.node a) ≠ (Ref.node b) := fun e => h (by injection e)

theorem nodup_fst {own : List (Id × Id)} (h : (own.map (·.1)).Nodup) {a b : Id × Id} (ha : a ∈ own) (hb : b ∈ own)
    (e : a.1 = b.1) : a = b := by
  induction own with
  | nil => cases ha
  | cons x l ih =>
    rw [List.map_cons, List.nodup_cons] at h
    rcases List.mem_cons.1 ha with h1 | h1
    · rcases List.mem_cons.1 hb with h2 | h2
      · rw [h1, h2]
      · exact absurd (List.mem_map.2 ⟨b, h2, by rw [← e, h1]⟩) h.1
    · rcases List.mem_cons.1 hb with h2 | h2
      · exact absurd (List.mem_map.2 ⟨a, h1, by rw [e, h2]⟩) h.1
      · exact ih h.2 h1 h2

/-- What is linked to `x` is linked to `w`. -/
def Up (m : Bufs) (x w : Id) : Prop :=
  ∃ b, m (.node x) = some b ∧ (if b.created || b.freed then b.up else some (.node x)) = some (.node w)

theorem up_set {m : Bufs} {x w : Id} {r : Ref} {b c : Buf} (h : Up m x w) (hb : m r = some b)
    (he : c.created = b.created ∧ c.freed = b.freed ∧ c.up = b.up) : Up (m.set r c) x w := by
  obtain ⟨a, h1, h2⟩ := h
  by_cases e : Ref.node x = r
  · subst e
    rw [hb] at h1
    injection h1 with h1
    subst h1
    exact ⟨c, bset_same, by rw [he.1, he.2.1, he.2.2]; exact h2⟩
  · exact ⟨a, by rw [bset_other e]; exact h1, h2⟩

theorem up_other {m : Bufs} {x w : Id} {r : Ref} {c : Buf} (h : Up m x w) (hb : Ref.node x ≠ r) : Up (m.set r c) x w := by
  obtain ⟨a, h1, h2⟩ := h
  exact ⟨a, by rw [bset_other hb]; exact h1, h2⟩

/-- The parent and the child of a record. -/
theorem shape_child {p x : Id} {own : List (Id × Id)} {olds news frees : List Id} {m : Bufs} (h : Shape p own olds news frees m)
    (hxp : x ≠ p) (hxf : x ∉ frees) :
    ∃ olds', Shape p own olds' news frees
        ((m.recToBuf (.node ((ownerOf own x).getD p)) none false).recToBuf (.node x) (some (.node ((ownerOf own x).getD p))) false) ∧
      Up ((m.recToBuf (.node ((ownerOf own x).getD p)) none false).recToBuf (.node x) (some (.node ((ownerOf own x).getD p))) false)
        x ((ownerOf own x).getD x) ∧
      (ownerOf own x).getD x ∈ olds' ∧ (∀ i, i ∈ olds' → i ∈ olds ∨ (i = x ∧ ownerOf own x = none)) := by
  cases hox : ownerOf own x with
  | some c =>
    have hxc := ownerOf_some hox
    have hc := h.ownOld _ hxc
    have hmc := h.mc c hc
    have hmx := h.mn _ hxc
    have hxn : x ∈ news := by
      rcases h.kind _ hxc with e | e
      · exact e
      · exact absurd e hxf
    refine ⟨olds, ?_, ?_, hc, fun i hi => Or.inl hi⟩
    · simp only [Option.getD_some]
      rw [recToBuf_known hmc, recToBuf_same hmx hmc rfl rfl]
      exact h
    · simp only [Option.getD_some]
      rw [recToBuf_known hmc, recToBuf_same hmx hmc rfl rfl]
      exact ⟨_, hmx, by simp [hxn]⟩
  | none =>
    have hxn := ownerOf_none hox
    simp only [Option.getD_none]
    by_cases hxo : x ∈ olds
    · have hmc := h.mc x hxo
      have hne : olds ≠ [] := fun e => by rw [e] at hxo; cases hxo
      have hmp := h.mp
      rw [if_neg hne] at hmp
      rw [recToBuf_known hmp, recToBuf_same hmc hmp rfl rfl]
      exact ⟨olds, h, ⟨_, hmc, rfl⟩, hxo, fun i hi => Or.inl hi⟩
    · have hmx : m (.node x) = none := h.mo x hxp hxo hxn
      have hproc : (m.recToBuf (.node p) none false).recToBuf (.node x) (some (.node p)) false =
          (m.set (.node p) { created := false, freed := false, up := none, wait := ((x :: olds).length : Int) }).set (.node x)
            { created := false, freed := false, up := some (.node p), wait := 0 } := by
        obtain ⟨m1, hm1, hp1, hx1⟩ : ∃ m1 : Bufs, m.recToBuf (.node p) none false = m1 ∧
            m1 = m.set (.node p) { created := false, freed := false, up := none, wait := (olds.length : Int) } ∧
            m1 (.node x) = none := by
          by_cases he : olds = []
          · have hmp := h.mp
            rw [if_pos he] at hmp
            refine ⟨_, recToBuf_fresh hmp, by rw [he]; rfl, ?_⟩
            rw [bset_other (node_ne hxp)]; exact hmx
          · have hmp := h.mp
            rw [if_neg he] at hmp
            exact ⟨m, recToBuf_known hmp, (set_set_same hmp).symm, hmx⟩
        have hpp : m1 (.node p) = some { created := false, freed := false, up := none, wait := (olds.length : Int) } := by
          rw [hp1, bset_same]
        rw [hm1, recToBuf_new hx1 hpp rfl hpp, hp1, set_set]
        rfl
      rw [hproc]
      have hcnt : own.countP (fun o => o.2 == x) = 0 := by
        rw [List.countP_eq_zero]
        intro o ho e
        simp only [beq_iff_eq] at e
        exact hxo (e ▸ h.ownOld o ho)
      refine ⟨x :: olds, ⟨h.nodupN, List.nodup_cons.2 ⟨hxo, h.nodupO⟩, ?_, ?_, h.newP, ?_, h.kind, h.news_, h.frees_, ?_, ?_, ?_, ?_, ?_⟩,
        ⟨_, bset_same, rfl⟩, List.mem_cons_self, ?_⟩
      · intro o ho; exact List.mem_cons_of_mem _ (h.ownOld o ho)
      · intro o ho
        simp only [List.mem_cons, not_or]
        exact ⟨fun e => hxn (e ▸ List.mem_map.2 ⟨o, ho, rfl⟩), h.newOld o ho⟩
      · simp only [List.mem_cons, not_or]; exact ⟨Ne.symm hxp, h.oldP⟩
      · rw [bset_other (by simp), bset_other (by simp)]; exact h.super
      · rw [bset_other (node_ne (Ne.symm hxp)), bset_same, if_neg (by simp)]
      · intro c' hc'
        rcases List.mem_cons.1 hc' with rfl | hc'
        · rw [bset_same]
          simp [hcnt]
        · have hx' : c' ≠ x := fun e => hxo (e ▸ hc')
          have hp' : c' ≠ p := fun e => h.oldP (e ▸ hc')
          rw [bset_other (node_ne hx'), bset_other (node_ne hp'), h.mc c' hc']
      · intro o ho
        have e2 : o.1 ≠ x := fun e => hxn (e ▸ List.mem_map.2 ⟨o, ho, rfl⟩)
        rw [bset_other (node_ne e2), bset_other (node_ne (h.newP o ho))]
        exact h.mn o ho
      · intro i hi1 hi2 hi3
        simp only [List.mem_cons, not_or] at hi2
        rw [bset_other (node_ne hi2.1), bset_other (node_ne hi1)]
        exact h.mo i hi1 hi2.2 hi3
      · intro i hi
        rcases List.mem_cons.1 hi with e | e
        · exact Or.inr ⟨e, trivial⟩
        · exact Or.inl e

/-- A buffer is added. -/
theorem shape_add {p x w n : Id} {own : List (Id × Id)} {olds news frees : List Id} {m : Bufs} (h : Shape p own olds news frees m)
    (hup : Up m x w) (hw : w ∈ olds) (hnp : n ≠ p) (hno : n ∉ olds) (hnn : n ∉ own.map (·.1)) {news' frees' : List Id} {cr fr : Bool}
    (hk : n ∈ news' ∨ n ∈ frees') (hcr : cr = decide (n ∈ news')) (hfr : fr = decide (n ∈ frees'))
    (hn' : ∀ i, i ≠ n → (i ∈ news' ↔ i ∈ news)) (hf' : ∀ i, i ≠ n → (i ∈ frees' ↔ i ∈ frees)) :
    let m' := (m.set (.node w) { created := false, freed := false, up := some (.node p), wait := (own.countP (fun o => o.2 == w)) + 1 }).set (.node n)
      { created := cr, freed := fr, up := some (.node w), wait := 0 }
    Shape p ((n, w) :: own) olds news' frees' m' ∧ Up m' x w := by
  have hmn : m (.node n) = none := h.mo n hnp hno hnn
  have hmw := h.mc w hw
  have hxn : Ref.node x ≠ Ref.node n := by
    obtain ⟨b, hb, -⟩ := hup
    intro e; rw [e, hmn] at hb; cases hb
  have hmem : ∀ o ∈ own, o.1 ≠ n := fun o ho e => hnn (e ▸ List.mem_map.2 ⟨o, ho, rfl⟩)
  refine ⟨⟨?_, h.nodupO, ?_, ?_, ?_, h.oldP, ?_, ?_, ?_, ?_, ?_, ?_, ?_, ?_⟩, ?_⟩
  · rw [List.map_cons, List.nodup_cons]; exact ⟨hnn, h.nodupN⟩
  · intro o ho
    rcases List.mem_cons.1 ho with rfl | ho
    · exact hw
    · exact h.ownOld o ho
  · intro o ho
    rcases List.mem_cons.1 ho with rfl | ho
    · exact hno
    · exact h.newOld o ho
  · intro o ho
    rcases List.mem_cons.1 ho with rfl | ho
    · exact hnp
    · exact h.newP o ho
  · intro o ho
    rcases List.mem_cons.1 ho with rfl | ho
    · exact hk
    · rcases h.kind o ho with e | e
      · exact Or.inl ((hn' _ (hmem o ho)).2 e)
      · exact Or.inr ((hf' _ (hmem o ho)).2 e)
  · intro i hi
    by_cases e : i = n
    · simp [e]
    · exact List.mem_cons_of_mem _ (h.news_ i ((hn' i e).1 hi))
  · intro i hi
    by_cases e : i = n
    · simp [e]
    · exact List.mem_cons_of_mem _ (h.frees_ i ((hf' i e).1 hi))
  · rw [bset_other (by simp), bset_other (by simp)]; exact h.super
  · have hpw : p ≠ w := fun e => h.oldP (e ▸ hw)
    rw [bset_other (node_ne (Ne.symm hnp)), bset_other (node_ne hpw)]; exact h.mp
  · intro c' hc'
    have hcn : c' ≠ n := fun e => hno (e ▸ hc')
    rw [bset_other (node_ne hcn)]
    by_cases e : c' = w
    · subst e
      rw [bset_same]
      simp
    · rw [bset_other (node_ne e), h.mc c' hc']
      simp [Ne.symm e]
  · intro o ho
    rcases List.mem_cons.1 ho with rfl | ho
    · rw [bset_same, hcr, hfr]
    · have e2 : o.1 ≠ w := fun e => h.newOld o ho (e ▸ hw)
      rw [bset_other (node_ne (hmem o ho)), bset_other (node_ne e2), h.mn o ho]
      simp only [hn' _ (hmem o ho), hf' _ (hmem o ho)]
  · intro i hi1 hi2 hi3
    simp only [List.map_cons, List.mem_cons, not_or] at hi3
    have e2 : i ≠ w := fun e => hi2 (e ▸ hw)
    rw [bset_other (node_ne hi3.1), bset_other (node_ne e2)]
    exact h.mo i hi1 hi2 hi3.2
  · exact up_other (up_set hup hmw ⟨rfl, rfl, rfl⟩) hxn

theorem recToBuf_add {p x w n : Id} {own : List (Id × Id)} {olds news frees : List Id} {m : Bufs} (h : Shape p own olds news frees m)
    (hup : Up m x w) (hw : w ∈ olds) (hnp : n ≠ p) (hno : n ∉ olds) (hnn : n ∉ own.map (·.1)) (cr : Bool) :
    m.recToBuf (.node n) (some (.node x)) cr =
      (m.set (.node w) { created := false, freed := false, up := some (.node p), wait := (own.countP (fun o => o.2 == w)) + 1 }).set (.node n)
        { created := cr, freed := false, up := some (.node w), wait := 0 } := by
  obtain ⟨b, hb, hr⟩ := hup
  exact recToBuf_new (h.mo n hnp hno hnn) hb hr (h.mc w hw)

/-- The new leaves of a record. -/
theorem shape_news {p x w : Id} {olds : List Id} (hw : w ∈ olds) : ∀ (ns : List Id) (own : List (Id × Id)) (news frees : List Id) (m : Bufs),
    Shape p own olds news frees m → Up m x w → ns.Nodup → (∀ n ∈ ns, n ≠ p ∧ n ∉ olds ∧ n ∉ own.map (·.1)) →
    ∃ news', Shape p (ns.foldl (fun l n => (n, w) :: l) own) olds news' frees (ns.foldl (fun m i => m.recToBuf (.node i) (some (.node x)) true) m) ∧
      Up (ns.foldl (fun m i => m.recToBuf (.node i) (some (.node x)) true) m) x w ∧ ∀ i, i ∈ news' ↔ i ∈ news ∨ i ∈ ns
  | [], own, news, frees, m, h, hu, _, _ => ⟨news, h, hu, by simp⟩
  | n :: ns, own, news, frees, m, h, hu, hnd, hn => by
    obtain ⟨h1, h2, h3⟩ := hn n List.mem_cons_self
    rw [List.nodup_cons] at hnd
    have hnf : n ∉ frees := fun e => h3 (h.frees_ n e)
    obtain ⟨hs, hu'⟩ := shape_add (news' := n :: news) (frees' := frees) (cr := true) (fr := false) h hu hw h1 h2 h3 (Or.inl List.mem_cons_self)
      (by simp) (by simp [hnf]) (fun i hi => by simp [hi]) (fun i _ => Iff.rfl)
    rw [List.foldl_cons, List.foldl_cons, recToBuf_add h hu hw h1 h2 h3]
    obtain ⟨news', r1, r2, r3⟩ := shape_news hw ns ((n, w) :: own) (n :: news) frees _ hs hu' hnd.2 (fun k hk => by
      obtain ⟨k1, k2, k3⟩ := hn k (List.mem_cons_of_mem _ hk)
      refine ⟨k1, k2, ?_⟩
      simp only [List.map_cons, List.mem_cons, not_or]
      exact ⟨fun e => hnd.1 (e ▸ hk), k3⟩)
    refine ⟨news', r1, r2, ?_⟩
    intro i
    rw [r3 i, List.mem_cons, List.mem_cons]
    constructor
    · rintro ((h | h) | h)
      · exact Or.inr (Or.inl h)
      · exact Or.inl h
      · exact Or.inr (Or.inr h)
    · rintro (h | h | h)
      · exact Or.inl (Or.inr h)
      · exact Or.inl (Or.inl h)
      · exact Or.inr h

/-- The merged leaves of a record. -/
theorem shape_freeds {p x w : Id} {olds : List Id} (hw : w ∈ olds) : ∀ (fs : List Id) (own : List (Id × Id)) (news frees : List Id) (m : Bufs),
    Shape p own olds news frees m → Up m x w → fs.Nodup →
    (∀ f ∈ fs, f ≠ p ∧ f ∉ olds ∧ f ∉ frees ∧ f ≠ x ∧ (f ∈ own.map (·.1) → (f, w) ∈ own)) →
    ∃ frees', Shape p (fs.foldl (addFreed w) own) olds news frees'
        (fs.foldl (fun m i => (m.recToBuf (.node i) (some (.node x)) false).markFreed (.node i)) m) ∧
      ∀ i, i ∈ frees' ↔ i ∈ frees ∨ i ∈ fs
  | [], own, news, frees, m, h, hu, _, _ => ⟨frees, h, by simp⟩
  | f :: fs, own, news, frees, m, h, hu, hnd, hf => by
    obtain ⟨h1, h2, h3, h4, h5⟩ := hf f List.mem_cons_self
    rw [List.nodup_cons] at hnd
    rw [List.foldl_cons, List.foldl_cons]
    have hiff : ∀ frees' : List Id, (∀ i, i ∈ frees' ↔ i ∈ f :: frees ∨ i ∈ fs) → ∀ i, i ∈ frees' ↔ i ∈ frees ∨ i ∈ f :: fs := by
      intro frees' r3 i
      rw [r3 i, List.mem_cons, List.mem_cons]
      constructor
      · rintro ((h | h) | h)
        · exact Or.inr (Or.inl h)
        · exact Or.inl h
        · exact Or.inr (Or.inr h)
      · rintro (h | h | h)
        · exact Or.inl (Or.inr h)
        · exact Or.inl (Or.inl h)
        · exact Or.inr h
    by_cases hin : f ∈ own.map (·.1)
    · have hfw := h5 hin
      have hmf := h.mn _ hfw
      have hfn : f ∈ news := by
        rcases h.kind _ hfw with e | e
        · exact e
        · exact absurd e h3
      have hsame : m.recToBuf (.node f) (some (.node x)) false = m := by
        obtain ⟨b, hb, hr⟩ := hu
        simp only [Bufs.recToBuf, hmf, Option.getD_some, Bool.or_false]
        rw [set_set_same hmf]
        simp only [hb, hr, if_true, hmf]
        exact set_set_same hmf
      have hmark : m.markFreed (.node f) = m.set (.node f) { created := decide (f ∈ news), freed := true, up := some (.node w), wait := 0 } := by
        rw [Bufs.markFreed, hmf]
      have hadd : addFreed w own f = own := by rw [addFreed, if_pos hin]
      have hs : Shape p own olds news (f :: frees) (m.set (.node f) { created := decide (f ∈ news), freed := true, up := some (.node w), wait := 0 }) := by
        refine ⟨h.nodupN, h.nodupO, h.ownOld, h.newOld, h.newP, h.oldP, ?_, h.news_, ?_, ?_, ?_, ?_, ?_, ?_⟩
        · intro o ho
          rcases h.kind o ho with e | e
          · exact Or.inl e
          · exact Or.inr (List.mem_cons_of_mem _ e)
        · intro i hi
          rcases List.mem_cons.1 hi with rfl | hi
          · exact hin
          · exact h.frees_ i hi
        · rw [bset_other (by simp)]; exact h.super
        · rw [bset_other (node_ne (Ne.symm h1))]; exact h.mp
        · intro c hc
          have e0 : c ≠ f := fun e => h2 (e ▸ hc)
          rw [bset_other (node_ne e0)]; exact h.mc c hc
        · intro o ho
          by_cases e : o.1 = f
          · have : o = (f, w) := by
              have hnd' := h.nodupN
              exact nodup_fst hnd' ho hfw e
            subst this
            rw [bset_same]
            simp
          · rw [bset_other (node_ne e), h.mn o ho]
            simp [e]
        · intro i hi1 hi2 hi3
          have e0 : i ≠ f := fun e => hi3 (e ▸ hin)
          rw [bset_other (node_ne e0)]
          exact h.mo i hi1 hi2 hi3
      rw [hsame, hmark, hadd]
      obtain ⟨frees', r1, r3⟩ := shape_freeds hw fs own news (f :: frees) _ hs (up_other hu (node_ne (Ne.symm h4))) hnd.2 (fun k hk => by
        obtain ⟨k1, k2, k3, k4, k5⟩ := hf k (List.mem_cons_of_mem _ hk)
        refine ⟨k1, k2, ?_, k4, k5⟩
        simp only [List.mem_cons, not_or]
        exact ⟨fun e => hnd.1 (e ▸ hk), k3⟩)
      exact ⟨frees', r1, hiff frees' r3⟩
    · have hfn : f ∉ news := fun e => hin (h.news_ f e)
      obtain ⟨hs, hu'⟩ := shape_add (news' := news) (frees' := f :: frees) (cr := false) (fr := true) h hu hw h1 h2 hin (Or.inr List.mem_cons_self)
        (by simp [hfn]) (by simp) (fun i _ => Iff.rfl) (fun i hi => by simp [hi])
      rw [recToBuf_add h hu hw h1 h2 hin]
      have hmark : Bufs.markFreed ((m.set (.node w) { created := false, freed := false, up := some (.node p), wait := (own.countP (fun o => o.2 == w)) + 1 }).set (.node f)
          { created := false, freed := false, up := some (.node w), wait := 0 }) (.node f) =
          (m.set (.node w) { created := false, freed := false, up := some (.node p), wait := (own.countP (fun o => o.2 == w)) + 1 }).set (.node f)
          { created := false, freed := true, up := some (.node w), wait := 0 } := by
        rw [Bufs.markFreed, bset_same]
        simp only [set_set]
      have hadd : addFreed w own f = (f, w) :: own := by rw [addFreed, if_neg hin]
      rw [hmark, hadd]
      obtain ⟨frees', r1, r3⟩ := shape_freeds hw fs ((f, w) :: own) news (f :: frees) _ hs hu' hnd.2 (fun k hk => by
        obtain ⟨k1, k2, k3, k4, k5⟩ := hf k (List.mem_cons_of_mem _ hk)
        have hkf : k ≠ f := fun e => hnd.1 (e ▸ hk)
        refine ⟨k1, k2, ?_, k4, ?_⟩
        · simp only [List.mem_cons, not_or]
          exact ⟨hkf, k3⟩
        · intro h
          simp only [List.map_cons, List.mem_cons] at h
          rcases h with h | h
          · exact absurd h hkf
          · exact List.mem_cons_of_mem _ (k5 h))
      exact ⟨frees', r1, hiff frees' r3⟩

theorem mem_foldNew {w : Id} {o : Id × Id} : ∀ (ns : List Id) (own : List (Id × Id)),
    o ∈ ns.foldl (fun l n => (n, w) :: l) own ↔ o ∈ own ∨ (o.1 ∈ ns ∧ o.2 = w)
  | [], own => by simp
  | n :: ns, own => by
    rw [List.foldl_cons, mem_foldNew ns, List.mem_cons, List.mem_cons]
    constructor
    · rintro ((rfl | h) | ⟨h1, h2⟩)
      · exact Or.inr ⟨Or.inl rfl, rfl⟩
      · exact Or.inl h
      · exact Or.inr ⟨Or.inr h1, h2⟩
    · rintro (h | ⟨h1 | h1, h2⟩)
      · exact Or.inl (Or.inr h)
      · exact Or.inl (Or.inl (by rw [← h1, ← h2]))
      · exact Or.inr ⟨h1, h2⟩

theorem foldFreed_keep {w : Id} {o : Id × Id} : ∀ (fs : List Id) (own : List (Id × Id)), o ∈ own → o ∈ fs.foldl (addFreed w) own
  | [], _, h => h
  | f :: fs, own, h => by
    rw [List.foldl_cons]
    refine foldFreed_keep fs _ ?_
    rw [addFreed]
    split
    · exact h
    · exact List.mem_cons_of_mem _ h

theorem mem_foldFreed {w : Id} {o : Id × Id} : ∀ (fs : List Id) (own : List (Id × Id)),
    o ∈ fs.foldl (addFreed w) own → o ∈ own ∨ (o.1 ∈ fs ∧ o.2 = w)
  | [], own, h => Or.inl h
  | f :: fs, own, h => by
    rw [List.foldl_cons] at h
    rcases mem_foldFreed fs _ h with h | ⟨h1, h2⟩
    · rw [addFreed] at h
      split at h
      · exact Or.inl h
      · rcases List.mem_cons.1 h with rfl | h
        · exact Or.inr ⟨List.mem_cons_self, rfl⟩
        · exact Or.inl h
    · exact Or.inr ⟨List.mem_cons_of_mem _ h1, h2⟩

theorem foldFreed_has {w : Id} {f : Id} : ∀ (fs : List Id) (own : List (Id × Id)), f ∈ fs →
    f ∈ (fs.foldl (addFreed w) own).map (·.1)
  | g :: fs, own, h => by
    rw [List.foldl_cons]
    by_cases e : f = g
    · subst e
      have : f ∈ (addFreed w own f).map (·.1) := by
        rw [addFreed]
        split
        · assumption
        · simp
      obtain ⟨o, ho, e⟩ := List.mem_map.1 this
      exact List.mem_map.2 ⟨o, foldFreed_keep fs _ ho, e⟩
    · rcases List.mem_cons.1 h with h | h
      · exact absurd h e
      · exact foldFreed_has fs _ h

/-- One record. -/
theorem shape_process {p : Id} {c : Chg} {own : List (Id × Id)} {olds news frees used : List Id} {m : Bufs}
    (h : Shape p own olds news frees m) (hoo : ∀ c ∈ olds, ∃ o ∈ own, o.2 = c)
    (hp : p ∈ used) (ho : ∀ c ∈ olds, c ∈ used) (hw : ∀ o ∈ own, o.1 ∈ used)
    (hx : c.x ∈ used ∧ c.x ∉ frees ∧ c.x ≠ p) (hne : c.new ++ c.freed ≠ []) (hn1 : c.new.Nodup) (hn2 : ∀ n ∈ c.new, n ∉ used)
    (hf1 : c.freed.Nodup) (hf2 : ∀ f ∈ c.freed, f ∈ used ∧ f ∉ frees ∧ f ≠ p ∧ f ≠ c.x ∧ (∀ o ∈ own, o.2 ≠ f) ∧
      (f ∈ own.map (·.1) → (f, c.owner own) ∈ own)) :
    ∃ olds' news' frees', Shape p (c.own own) olds' news' frees'
        (m.process { parent := some (.node ((ownerOf own c.x).getD p)), child := some c.x, new := c.new, freed := c.freed }) ∧
      (∀ c' ∈ olds', ∃ o ∈ c.own own, o.2 = c') ∧ (∀ i, i ∈ olds' → i ∈ olds ∨ i = c.x) ∧
      (∀ o ∈ c.own own, o ∈ own ∨ o.1 ∈ c.new ∨ o.1 ∈ c.freed) ∧
      (∀ i, i ∈ news' ↔ i ∈ news ∨ i ∈ c.new) ∧ (∀ i, i ∈ frees' ↔ i ∈ frees ∨ i ∈ c.freed) := by
  obtain ⟨olds1, hs1, hu1, hw1, hsub⟩ := shape_child h hx.2.2 hx.2.1
  have hsub1 : ∀ i, i ∈ olds1 → i ∈ olds ∨ i = c.x := fun i hi => (hsub i hi).imp id (·.1)
  have hold1 : ∀ i ∈ olds1, i ∈ used := by
    intro i hi
    rcases hsub1 i hi with e | e
    · exact ho i e
    · rw [e]; exact hx.1
  obtain ⟨news', hs2, hu2, hnews⟩ := shape_news hw1 c.new own news frees _ hs1 hu1 hn1 (fun n hn => by
    have := hn2 n hn
    refine ⟨fun e => this (e ▸ hp), fun e => this (hold1 n e), fun e => ?_⟩
    obtain ⟨o, ho', e'⟩ := List.mem_map.1 e
    exact this (e' ▸ hw o ho'))
  obtain ⟨frees', hs3, hfrees⟩ := shape_freeds hw1 c.freed _ news' frees _ hs2 hu2 hf1 (fun f hf => by
    obtain ⟨f1, f2, f3, f4, f5, f6⟩ := hf2 f hf
    refine ⟨f3, fun e => ?_, f2, f4, fun e => ?_⟩
    · rcases hsub1 f e with e' | e'
      · obtain ⟨o, ho', e''⟩ := hoo f e'
        exact f5 o ho' e''
      · exact f4 e'
    · obtain ⟨o, ho', e'⟩ := List.mem_map.1 e
      rw [mem_foldNew] at ho'
      rcases ho' with ho' | ⟨ho', -⟩
      · rw [mem_foldNew]
        exact Or.inl (f6 (List.mem_map.2 ⟨o, ho', e'⟩))
      · exact absurd f1 (hn2 f (e' ▸ ho')))
  refine ⟨olds1, news', frees', hs3, ?_, hsub1, ?_, hnews, hfrees⟩
  · intro c' hc'
    by_cases hcw : c' = c.owner own
    · -- the leaf of the record
      cases hn : c.new with
      | cons n ns =>
        refine ⟨(n, c.owner own), foldFreed_keep _ _ ?_, hcw.symm⟩
        rw [mem_foldNew]
        exact Or.inr ⟨by simp [hn], rfl⟩
      | nil =>
        cases hf : c.freed with
        | nil => rw [hn, hf] at hne; exact absurd rfl hne
        | cons f fs =>
          have hf' : f ∈ c.freed := by simp [hf]
          have := foldFreed_has (w := c.owner own) c.freed (c.new.foldl (fun l n => (n, c.owner own) :: l) own) hf'
          obtain ⟨o, ho', e⟩ := List.mem_map.1 this
          refine ⟨o, ho', ?_⟩
          rcases mem_foldFreed _ _ ho' with h' | ⟨-, h'⟩
          · rw [hn] at h'
            have h2 := (hf2 f hf').2.2.2.2.2 (List.mem_map.2 ⟨o, h', e⟩)
            have h3 := nodup_fst h.nodupN h' h2 e
            rw [hcw, h3]
          · rw [h', hcw]
    · rcases hsub c' hc' with e | ⟨e, hnone⟩
      · obtain ⟨o, ho', e'⟩ := hoo c' e
        refine ⟨o, foldFreed_keep _ _ ?_, e'⟩
        rw [mem_foldNew]
        exact Or.inl ho'
      · exfalso
        apply hcw
        rw [e, Chg.owner, hnone]
        rfl
  · intro o ho'
    rcases mem_foldFreed _ _ ho' with h' | ⟨h', -⟩
    · rw [mem_foldNew] at h'
      rcases h' with h' | ⟨h', -⟩
      · exact Or.inl h'
      · exact Or.inr (Or.inl h')
    · exact Or.inr (Or.inr h')

theorem shape_journal {p : Id} : ∀ (cs : List Chg) (own : List (Id × Id)) (olds news frees used dead : List Id) (m : Bufs),
    Shape p own olds news frees m → (∀ c ∈ olds, ∃ o ∈ own, o.2 = c) → Changes p used dead own cs → p ∈ used →
    (∀ c ∈ olds, c ∈ used) → (∀ o ∈ own, o.1 ∈ used) → (∀ i, i ∈ frees ↔ i ∈ dead) →
    ∃ olds' news' frees', Shape p (origins own cs) olds' news' frees' ((journal p own cs).foldl Bufs.process m) ∧
      (∀ c ∈ olds', ∃ o ∈ origins own cs, o.2 = c) ∧
      (∀ i, i ∈ news' ↔ i ∈ news ∨ i ∈ madeBy cs) ∧ (∀ i, i ∈ frees' ↔ i ∈ frees ∨ i ∈ freedBy cs)
  | [], own, olds, news, frees, used, dead, m, h, hoo, _, _, _, _, _ => ⟨olds, news, frees, h, hoo, by simp [madeBy], by simp [freedBy]⟩
  | c :: cs, own, olds, news, frees, used, dead, m, h, hoo, hs, hp, ho, hw, hd => by
    obtain ⟨h1, h2, h3, h4, h5, h6, h7⟩ := hs
    obtain ⟨olds1, news1, frees1, r1, r2, r3, r4, r5, r6⟩ := shape_process (c := c) h hoo hp ho hw
      ⟨h1.1, fun e => h1.2.1 ((hd _).1 e), h1.2.2⟩ h2 h3 h4 h5
      (fun f hf => by obtain ⟨a, b, c⟩ := h6 f hf; exact ⟨a, fun e => b ((hd _).1 e), c⟩)
    have a1 : ∀ i ∈ olds1, i ∈ c.new ++ used := by
      intro i hi
      rcases r3 i hi with e | e
      · exact List.mem_append_right _ (ho i e)
      · rw [e]; exact List.mem_append_right _ h1.1
    have a2 : ∀ o ∈ c.own own, o.1 ∈ c.new ++ used := by
      intro o ho'
      rcases r4 o ho' with e | e | e
      · exact List.mem_append_right _ (hw o e)
      · exact List.mem_append_left _ e
      · exact List.mem_append_right _ (h6 _ e).1
    have a3 : ∀ i, i ∈ frees1 ↔ i ∈ c.freed ++ dead := by
      intro i
      rw [r6, List.mem_append, hd]
      exact Or.comm
    obtain ⟨olds', news', frees', q1, q2, q3, q4⟩ := shape_journal cs _ olds1 news1 frees1 (c.new ++ used) (c.freed ++ dead) _ r1 r2 h7
      (List.mem_append_right _ hp) a1 a2 a3
    refine ⟨olds', news', frees', q1, q2, ?_, ?_⟩
    · intro i
      rw [q3, r5]
      simp [madeBy, or_assoc]
    · intro i
      rw [q4, r6]
      simp [freedBy, or_assoc]

theorem shape_empty (p : Id) : Shape p [] [] [] [] (fun _ => none) := by
  constructor <;> simp

/-! ## Reading the journal -/

theorem shape_realUp {p : Id} {own : List (Id × Id)} {olds news frees : List Id} {m : Bufs} (h : Shape p own olds news frees m)
    {r : Ref} {b : Buf} (hb : m r = some b) (fuel : Nat) : m.realUp (fuel + 1) b.up = some b.up := by
  cases r with
  | super => rw [h.super] at hb; cases hb
  | node i =>
    by_cases e1 : i = p
    · subst e1
      rw [h.mp] at hb
      split at hb
      · cases hb
      · injection hb with hb; subst hb; rfl
    · by_cases e2 : i ∈ olds
      · rw [h.mc i e2] at hb
        injection hb with hb; subst hb
        have hne : olds ≠ [] := fun e => by rw [e] at e2; cases e2
        have hmp := h.mp
        rw [if_neg hne] at hmp
        simp [Bufs.realUp, hmp]
      · by_cases e3 : i ∈ own.map (·.1)
        · obtain ⟨o, ho, rfl⟩ := List.mem_map.1 e3
          rw [h.mn o ho] at hb
          injection hb with hb; subst hb
          simp [Bufs.realUp, h.mc o.2 (h.ownOld o ho)]
        · rw [h.mo i e1 e2 e3] at hb; cases hb

theorem shape_sane {p : Id} {own : List (Id × Id)} {olds news frees : List Id} {m : Bufs} (h : Shape p own olds news frees m)
    (r : Ref) : m.sane r = true := by
  cases r with
  | super => simp [Bufs.sane, h.super]
  | node i =>
    by_cases e1 : i = p
    · subst e1
      simp only [Bufs.sane, h.mp]
      split
      · rfl
      · rename_i heq
        split at heq
        · cases heq
        · injection heq with heq; subst heq; rfl
    · by_cases e2 : i ∈ olds
      · have hne : olds ≠ [] := fun e => by rw [e] at e2; cases e2
        have hmp := h.mp
        rw [if_neg hne] at hmp
        simp [Bufs.sane, h.mc i e2, hmp, hne]
      · by_cases e3 : i ∈ own.map (·.1)
        · obtain ⟨o, ho, rfl⟩ := List.mem_map.1 e3
          simp only [Bufs.sane, h.mn o ho, h.mc o.2 (h.ownOld o ho)]
          simp
          exact ⟨o.1, ho⟩
        · simp [Bufs.sane, h.mo i e1 e2 e3]

theorem shape_read {p : Id} {own : List (Id × Id)} {olds news frees : List Id} {recs : List Rec} {order : List Ref} {fuel : Nat}
    (h : Shape p own olds news frees (recs.foldl Bufs.process (fun _ => none))) (hf : 0 < fuel) :
    readBufs fuel recs order = some (recs.foldl Bufs.process (fun _ => none)) := by
  obtain ⟨f, rfl⟩ : ∃ f, fuel = f + 1 := ⟨fuel - 1, by omega⟩
  have hmod : ∀ l : List Ref, Bufs.modifyAll (f + 1) l (recs.foldl Bufs.process (fun _ => none)) = some (recs.foldl Bufs.process (fun _ => none)) := by
    intro l
    induction l with
    | nil => rfl
    | cons r l ih =>
      have : (recs.foldl Bufs.process (fun _ => none)).modify (f + 1) r = some (recs.foldl Bufs.process (fun _ => none)) := by
        rw [Bufs.modify]
        split
        · rfl
        · rename_i b hb
          rw [shape_realUp h hb]
          simp
      rw [Bufs.modifyAll, this]
      exact ih
  rw [readBufs, hmod]
  simp only []
  rw [if_pos]
  rw [List.all_eq_true]
  intro r _
  exact shape_sane h r

end HS.Index.Recover
