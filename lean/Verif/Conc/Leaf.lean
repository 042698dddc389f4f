import Verif.Conc.Steps

/-!
# A call at the leaf responsible for its key is the call on the map
-/

namespace HS.Conc

/-- A key occurs at most once in a leaf. -/
theorem LeafOk.fun_of {a : List Ent} {lo hi} (h : LeafOk lo a hi) {k v w : Nat} (hv : (some k, v) ∈ a) (hw : (some k, w) ∈ a) : v = w := by
  induction a generalizing lo with
  | nil => cases hv
  | cons e t ih =>
    obtain ⟨x, he, hx, ht⟩ := h
    have hno : ∀ y, (some x, y) ∉ t := by
      intro y hy
      obtain ⟨x', h1, ⟨⟨a, ha, l⟩, _⟩⟩ := ht.key hy
      cases h1
      cases ha
      omega
    rcases List.mem_cons.1 hv with hv | hv <;> rcases List.mem_cons.1 hw with hw | hw
    · rw [← hv] at hw
      cases hw
      rfl
    · rw [← hv] at he
      cases he
      exact absurd hw (hno w)
    · rw [← hw] at he
      cases he
      exact absurd hv (hno v)
    · exact ih ht hv hw

theorem look_some {k v : Nat} : ∀ {a : List Ent}, look k a = some v → (some k, v) ∈ a
  | [], h => by cases h
  | e :: t, h => by
    simp only [look] at h
    split at h
    · next he =>
      cases h
      rw [← he]
      exact List.mem_cons_self ..
    · exact List.mem_cons_of_mem _ (look_some h)

theorem look_none {k : Nat} : ∀ {a : List Ent}, look k a = none → ∀ v, (some k, v) ∉ a
  | [], _, _, hm => by cases hm
  | e :: t, h, v, hm => by
    simp only [look] at h
    split at h
    · cases h
    · next he =>
      rcases List.mem_cons.1 hm with hm | hm
      · rw [← hm] at he
        exact he rfl
      · exact look_none h v hm

/-- Putting an entry in keeps the order, and changes the entry of this key only. -/
theorem LeafOk.ins {k v : Nat} {a : List Ent} {lo hi} (h : LeafOk lo a hi) (hk : inR lo hi k) : LeafOk lo (ins k v a) hi := by
  induction a generalizing lo with
  | nil => exact ⟨k, rfl, hk, trivial⟩
  | cons e t ih =>
    obtain ⟨x, he, hx, ht⟩ := h
    simp only [HS.Conc.ins, he, covers]
    by_cases hkx : k ≤ x
    · rw [if_pos (by simpa using hkx)]
      by_cases hxe : x = k
      · subst hxe
        rw [if_pos rfl]
        exact ⟨x, rfl, hx, ht⟩
      · rw [if_neg (by simpa using hxe)]
        refine ⟨k, rfl, hk, x, he, ⟨⟨k + 1, rfl, by omega⟩, hx.2⟩, ht⟩
    · rw [if_neg (by simpa using hkx)]
      exact ⟨x, he, hx, ih ht ⟨⟨x + 1, rfl, by omega⟩, hk.2⟩⟩

theorem ins_lt {k v z u : Nat} {t : List Ent} (h : k < z) : ins k v ((some z, u) :: t) = (some k, v) :: (some z, u) :: t := by
  have h1 : k ≤ z := by omega
  have h2 : z ≠ k := by omega
  simp [ins, covers, h1, h2]

theorem ins_eq {k v u : Nat} {t : List Ent} : ins k v ((some k, u) :: t) = (some k, v) :: t := by simp [ins, covers]

theorem ins_gt {k v z u : Nat} {t : List Ent} (h : z < k) : ins k v ((some z, u) :: t) = (some z, u) :: ins k v t := by
  have h1 : ¬ k ≤ z := by omega
  simp [ins, covers, h1]

theorem ins_mem {k v : Nat} {a : List Ent} {lo hi} (h : LeafOk lo a hi) (x y : Nat) :
    (some x, y) ∈ ins k v a ↔ (x = k ∧ y = v) ∨ (x ≠ k ∧ (some x, y) ∈ a) := by
  induction a generalizing lo with
  | nil => simp [ins]
  | cons e t ih =>
    obtain ⟨z, he, hz, ht⟩ := h
    obtain ⟨b, u⟩ := e
    simp only at he
    subst he
    have hno : ∀ w y, w ≤ z → (some w, y) ∉ t := by
      intro w y hw hy
      obtain ⟨x', h1, ⟨⟨a, ha, l⟩, _⟩⟩ := ht.key hy
      cases h1
      cases ha
      omega
    by_cases hkz : k ≤ z
    · by_cases hze : z = k
      · subst hze
        rw [ins_eq]
        simp only [List.mem_cons, Prod.mk.injEq, Option.some.injEq]
        constructor
        · rintro (h | h)
          · exact Or.inl h
          · refine Or.inr ⟨?_, Or.inr h⟩
            rintro rfl
            exact hno x y (Nat.le_refl _) h
        · rintro (h | ⟨h1, h2 | h2⟩)
          · exact Or.inl h
          · exact absurd h2.1 h1
          · exact Or.inr h2
      · rw [ins_lt (by omega)]
        simp only [List.mem_cons, Prod.mk.injEq, Option.some.injEq]
        constructor
        · rintro (h | h | h)
          · exact Or.inl h
          · exact Or.inr ⟨by omega, Or.inl h⟩
          · refine Or.inr ⟨?_, Or.inr h⟩
            rintro rfl
            exact hno x y hkz h
        · rintro (h | ⟨_, h2 | h2⟩)
          · exact Or.inl h
          · exact Or.inr (Or.inl h2)
          · exact Or.inr (Or.inr h2)
    · rw [ins_gt (by omega)]
      simp only [List.mem_cons, Prod.mk.injEq, Option.some.injEq, ih ht]
      constructor
      · rintro (h | h | ⟨h1, h2⟩)
        · exact Or.inr ⟨by omega, Or.inl h⟩
        · exact Or.inl h
        · exact Or.inr ⟨h1, Or.inr h2⟩
      · rintro (h | ⟨h1, h2 | h2⟩)
        · exact Or.inr (Or.inl h)
        · exact Or.inl h2
        · exact Or.inr (Or.inr ⟨h1, h2⟩)

theorem LeafOk.tail {a : List Ent} {e lo hi} (h : LeafOk lo (e :: a) hi) : LeafOk lo a hi := by
  obtain ⟨x, _, hx, ht⟩ := h
  refine ht.mono ?_ (leB.refl _)
  intro y hy
  cases hy
  obtain ⟨⟨a, ha, l⟩, _⟩ := hx
  exact ⟨a, ha, by omega⟩

theorem LeafOk.del {k : Nat} {a : List Ent} {lo hi} (h : LeafOk lo a hi) : LeafOk lo (del k a) hi := by
  induction a generalizing lo with
  | nil => trivial
  | cons e t ih =>
    simp only [HS.Conc.del]
    by_cases he : e.1 = some k
    · rw [if_pos he]
      exact h.tail
    · rw [if_neg he]
      obtain ⟨x, he, hx, ht⟩ := h
      exact ⟨x, he, hx, ih ht⟩

theorem del_mem {k : Nat} {a : List Ent} {lo hi} (h : LeafOk lo a hi) (x y : Nat) :
    (some x, y) ∈ del k a ↔ x ≠ k ∧ (some x, y) ∈ a := by
  induction a generalizing lo with
  | nil => simp [del]
  | cons e t ih =>
    obtain ⟨z, he, hz, ht⟩ := h
    obtain ⟨b, u⟩ := e
    simp only at he
    subst he
    have hno : ∀ y, (some z, y) ∉ t := by
      intro y hy
      obtain ⟨x', h1, ⟨⟨a, ha, l⟩, _⟩⟩ := ht.key hy
      cases h1
      cases ha
      omega
    simp only [del]
    by_cases hze : z = k
    · subst hze
      rw [if_pos rfl]
      simp only [List.mem_cons, Prod.mk.injEq, Option.some.injEq]
      constructor
      · intro h
        refine ⟨?_, Or.inr h⟩
        rintro rfl
        exact hno y h
      · rintro ⟨h1, h2 | h2⟩
        · exact absurd h2.1 h1
        · exact h2
    · rw [if_neg (by simpa using hze)]
      simp only [List.mem_cons, Prod.mk.injEq, Option.some.injEq, ih ht]
      constructor
      · rintro (h | ⟨h1, h2⟩)
        · exact ⟨by omega, Or.inl h⟩
        · exact ⟨h1, Or.inr h2⟩
      · rintro ⟨h1, h2 | h2⟩
        · exact Or.inl h2
        · exact Or.inr ⟨h1, h2⟩

theorem leafCall_ok {a : List Ent} {lo hi} (h : LeafOk lo a hi) (o : Op) (hk : inR lo hi o.key) : LeafOk lo (leafCall a o).1 hi := by
  cases o with
  | get k => exact h
  | remove k =>
    simp only [leafCall]
    cases look k a with
    | none => exact h
    | some v => exact h.del
  | put ty k v =>
    simp only [leafCall]
    cases look k a <;> cases ty <;> first | exact h | exact h.ins hk

/-- The call at a leaf that agrees with the map at the key. -/
theorem leafCall_apply {a : List Ent} {lo hi} (h : LeafOk lo a hi) (o : Op) {M : Nat → Option Nat}
    (hM : ∀ v, M o.key = some v ↔ (some o.key, v) ∈ a) :
    (leafCall a o).2 = (apply M o).2 ∧ (∀ v, (apply M o).1 o.key = some v ↔ (some o.key, v) ∈ (leafCall a o).1) ∧
      ∀ x, x ≠ o.key → (apply M o).1 x = M x ∧ ∀ v, (some x, v) ∈ (leafCall a o).1 ↔ (some x, v) ∈ a := by
  have hlook : look o.key a = M o.key := by
    cases hl : look o.key a with
    | some v => exact ((hM v).2 (look_some hl)).symm
    | none =>
      cases hm : M o.key with
      | none => rfl
      | some v => exact absurd ((hM v).1 hm) (look_none hl v)
  have hins : ∀ k v, o.key = k → (∀ w, setKey M k v o.key = some w ↔ (some o.key, w) ∈ ins k v a) ∧
      ∀ x, x ≠ o.key → setKey M k v x = M x ∧ ∀ w, (some x, w) ∈ ins k v a ↔ (some x, w) ∈ a := by
    rintro k v rfl
    refine ⟨fun w => ?_, fun x hx => ⟨by simp [setKey, hx], fun w => ?_⟩⟩
    · rw [ins_mem h]
      simp [setKey]
      exact eq_comm
    · rw [ins_mem h]
      simp [hx]
  cases o with
  | get k =>
    simp only [Op.key] at hlook hM
    simp only [leafCall, apply, Op.key]
    rw [hlook]
    exact ⟨rfl, hM, fun x _ => ⟨trivial, fun v => trivial⟩⟩
  | remove k =>
    simp only [Op.key] at hlook hM
    simp only [leafCall, apply, Op.key, hlook]
    cases hm : M k with
    | none =>
      refine ⟨rfl, fun v => ?_, fun x hx => ⟨by simp [delKey, hx], fun v => Iff.rfl⟩⟩
      rw [← hM v, hm]
      simp [delKey]
    | some w =>
      refine ⟨rfl, fun v => ?_, fun x hx => ⟨by simp [delKey, hx], fun v => ?_⟩⟩
      · rw [del_mem h]
        simp [delKey]
      · rw [del_mem h]
        simp [hx]
  | put ty k v =>
    have hi := hins k v rfl
    simp only [Op.key] at hlook hM hi
    simp only [leafCall, Op.key, hlook]
    cases hm : M k with
    | none =>
      cases ty <;> simp only [apply, hm]
      · exact ⟨trivial, hi.1, hi.2⟩
      · exact ⟨trivial, fun u => by rw [← hM u, hm], fun x _ => ⟨trivial, fun v => trivial⟩⟩
      · exact ⟨trivial, hi.1, hi.2⟩
    | some w =>
      cases ty <;> simp only [apply, hm]
      · exact ⟨trivial, fun u => by rw [← hM u, hm], fun x _ => ⟨trivial, fun v => trivial⟩⟩
      · exact ⟨trivial, hi.1, hi.2⟩
      · exact ⟨trivial, hi.1, hi.2⟩

variable {s : St}

/-- Exchanging the entries of a leaf keeps the tree. -/
theorem set_tinv {n : Nat} {es : List Ent} {g : Nat} (hT : TInv s.nodes s.fresh s.root) (_hn : Live s.nodes s.fresh n) (h0 : (s.nodes n).lev = 0)
    (hes : LeafOk (s.nodes n).lo es (s.nodes n).hi) :
    TInv (s.set n { s.nodes n with es := es, gen := g }).nodes s.fresh s.root := by
  have hk : ∀ i, ((s.set n { s.nodes n with es := es, gen := g }).nodes i).lev = (s.nodes i).lev ∧
      ((s.set n { s.nodes n with es := es, gen := g }).nodes i).del = (s.nodes i).del ∧
      ((s.set n { s.nodes n with es := es, gen := g }).nodes i).lo = (s.nodes i).lo ∧
      ((s.set n { s.nodes n with es := es, gen := g }).nodes i).hi = (s.nodes i).hi := by
    intro i
    by_cases h : i = n
    · subst h; simp [St.set]
    · simp [St.set, h]
  have hlive : ∀ i, Live (s.set n { s.nodes n with es := es, gen := g }).nodes s.fresh i ↔ Live s.nodes s.fresh i := by
    intro i
    simp only [Live, (hk i).2.1]
  have hkid : ∀ l i x y, Kid s.nodes s.fresh l i x y → Kid (s.set n { s.nodes n with es := es, gen := g }).nodes s.fresh l i x y := by
    intro l i x y h
    rw [Kid, hlive, (hk i).1, (hk i).2.2.1, (hk i).2.2.2]
    exact h
  refine ⟨?_, fun i hi => ?_, fun i hi => ?_, fun i j hi hj hl k hki hkj => ?_⟩
  · rw [hlive, (hk _).2.2.1, (hk _).2.2.2]
    exact hT.base
  · rw [hlive] at hi
    rw [(hk _).1, (hk _).1]
    exact hT.top i hi
  · rw [hlive] at hi
    rw [(hk _).1, (hk _).2.2.1, (hk _).2.2.2]
    refine ⟨(hT.node i hi).1, ?_⟩
    by_cases h : i = n
    · subst h
      have : ((s.set i { s.nodes i with es := es, gen := g }).nodes i).es = es := by simp [St.set]
      rw [this]
      exact ⟨fun _ => hes, fun h => absurd h0 h⟩
    · have : ((s.set n { s.nodes n with es := es, gen := g }).nodes i).es = (s.nodes i).es := by simp [St.set, h]
      rw [this]
      exact ⟨(hT.node i hi).2.1, fun h1 => ((hT.node i hi).2.2 h1).imp fun e _ x y hh => hkid _ _ _ _ hh⟩
  · rw [hlive] at hi hj
    rw [(hk _).1, (hk _).1] at hl
    rw [(hk _).2.2.1, (hk _).2.2.2] at hki hkj
    exact hT.uniq i j hi hj hl k hki hkj

/-- What a tree holds for a key is in the leaf responsible for it. -/
theorem holds_leaf {n k : Nat} (hT : TInv s.nodes s.fresh s.root) (hn : Live s.nodes s.fresh n) (h0 : (s.nodes n).lev = 0)
    (hk : inR (s.nodes n).lo (s.nodes n).hi k) (v : Nat) : Holds s.nodes s.fresh k v ↔ (some k, v) ∈ (s.nodes n).es := by
  constructor
  · rintro ⟨i, hi, hl, hm⟩
    obtain ⟨k', h1, h2⟩ := ((hT.node i hi).2.1 hl).key hm
    simp only [Option.some.injEq] at h1
    subst h1
    have := hT.uniq i n hi hn (by omega) k h2 hk
    rw [← this]
    exact hm
  · intro hm
    exact ⟨n, hn, h0, hm⟩

/-- What a tree holds after the entries of a leaf have been exchanged. -/
theorem set_holds {n : Nat} {es : List Ent} {g x : Nat} (hn : Live s.nodes s.fresh n) (h0 : (s.nodes n).lev = 0)
    (hx : ∀ v, (some x, v) ∈ es ↔ (some x, v) ∈ (s.nodes n).es) (v : Nat) :
    Holds (s.set n { s.nodes n with es := es, gen := g }).nodes s.fresh x v ↔ Holds s.nodes s.fresh x v := by
  have hof : ∀ i, i ≠ n → (s.set n { s.nodes n with es := es, gen := g }).nodes i = s.nodes i := by
    intro i h
    simp [St.set, h]
  have hon : (s.set n { s.nodes n with es := es, gen := g }).nodes n = { s.nodes n with es := es, gen := g } := by simp [St.set]
  constructor
  · rintro ⟨i, hi, hl, hm⟩
    by_cases h : i = n
    · subst h
      rw [hon] at hm
      exact ⟨i, hn, h0, (hx v).1 hm⟩
    · rw [Live, hof i h] at hi
      rw [hof i h] at hl hm
      exact ⟨i, hi, hl, hm⟩
  · rintro ⟨i, hi, hl, hm⟩
    by_cases h : i = n
    · subst h
      refine ⟨i, ?_, ?_, ?_⟩
      · rw [Live, hon]; exact hi
      · rw [hon]; exact hl
      · rw [hon]; exact (hx v).2 hm
    · refine ⟨i, ?_, ?_, ?_⟩
      · rw [Live, hof i h]; exact hi
      · rw [hof i h]; exact hl
      · rw [hof i h]; exact hm

end HS.Conc
