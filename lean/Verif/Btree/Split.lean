import Verif.Btree.Kids

/-!
# Searching a child, splitting a child
-/

namespace HS.Btree

variable {K V A : Type} [LinearOrder K]

theorem USeg.replace {P : A → Option K → Option K → Prop} {m hi : Option K} {y : Option K × A}
    {z : List (Option K × A)} {c : A} (h : USeg P m (y :: z) hi) (hc : P c m y.1) :
    USeg P m ((y.1, c) :: z) hi := by
  obtain ⟨k, d⟩ := y
  cases k with
  | none => exact ⟨h.1, h.2.1, hc⟩
  | some k => exact ⟨h.1, hc, h.2.2⟩

theorem USeg.head {P : A → Option K → Option K → Prop} {m hi : Option K} {y : Option K × A}
    {z : List (Option K × A)} (h : USeg P m (y :: z) hi) : P y.2 m y.1 := by
  obtain ⟨k, d⟩ := y
  cases k with
  | none => exact h.2.2
  | some k => exact h.2.1

omit [LinearOrder K] in
theorem split_at {B : Type} {l : List B} {i : Nat} {y : B} (h : l[i]? = some y) :
    ∃ a z, l = a ++ y :: z ∧ a.length = i := by
  obtain ⟨hi, rfl⟩ := List.getElem?_eq_some_iff.mp h
  refine ⟨l.take i, l.drop (i + 1), ?_, by simp; omega⟩
  rw [List.getElem_cons_drop, List.take_append_drop]

omit [LinearOrder K] in
theorem valAt_split {t : Node K A} {i : Nat} {c : A} (h : t.valAt i = some c) :
    ∃ a q z, t.kids = a ++ (q, c) :: z ∧ a.length = i := by
  rw [valAt_kids] at h
  cases hk : t.kids[i]? with
  | none => rw [hk] at h; cases h
  | some y =>
    rw [hk] at h
    cases h
    obtain ⟨a, z, h1, h2⟩ := split_at hk
    exact ⟨a, y.1, z, h1, h2⟩

/-- The child that the search returns covers the key. -/
theorem find_kid {L : Lvl K V A} {t : Node K (Node K A)} {lo hi : Option K} {key : K}
    (h : (intLvl L).Q lo t.es t.edge hi) (hlo : ltLo lo key) (hhi : leHi key hi) :
    ∃ b i c a q z m, bsearch t.es key = some (b, i) ∧ t.valAt i = some c ∧
      t.kids = a ++ (q, c) :: z ∧ a.length = i ∧ USeg L.P lo a m ∧ (∀ y ∈ a, y.1 ≠ none) ∧
      USeg L.P m ((q, c) :: z) hi ∧ ltLo m key ∧ leHi key q := by
  have hasc := (intLvl L).asc h
  obtain ⟨b, hb, -⟩ := bsearch_spec hasc key
  have hk : Kids L.P lo t.es t.edge hi := h
  obtain ⟨hne, hu⟩ := Kids_iff.mp hk
  have hl := lb_le t.es key
  -- there is a child at the returned position
  have hlt : lb t.es key < t.kids.length := by
    rw [kids_length]
    cases he : t.edge with
    | some c => simp; omega
    | none =>
      rw [he] at hk
      have hx : ∃ x, t.es.getLast? = some x := ⟨_, List.getLast?_eq_some_getLast hk.1⟩
      obtain ⟨x, hx⟩ := hx
      have hm := hk.2.last hx
      rw [hm] at hhi
      simp at hhi
      simp
      by_contra hc
      have h1 : t.es.length = lb t.es key := by omega
      rw [List.getLast?_eq_getElem?] at hx
      have h2 : 0 < t.es.length := List.length_pos_of_ne_nil hk.1
      exact absurd (lb_lt t.es key hx (by omega)) (not_lt.mpr hhi)
  have hg : t.kids[lb t.es key]? = some t.kids[lb t.es key] := List.getElem?_eq_getElem hlt
  obtain ⟨a, z, h1, h2⟩ := split_at hg
  generalize t.kids[lb t.es key] = y at h1 hg
  have h1' := h1
  rw [h1] at hu
  obtain ⟨m, h3, h4, h5⟩ := hu.split (by simp)
  refine ⟨b, _, y.2, a, y.1, z, m, hb, ?_, h1, h2, h3, h5, h4, ?_, ?_⟩
  · rw [valAt_kids, hg]; rfl
  · -- the children before end below the key
    rcases List.eq_nil_or_concat a with rfl | ⟨a', w, rfl⟩
    · cases h3; exact hlo
    · have hw : t.kids[a'.length]? = some w := by rw [h1]; simp
      have := (h5 w (by simp))
      have hwl : a'.length < t.es.length := by
        have := kids_key t hw
        simp at h2
        omega
      rw [kids_lt t hwl] at hw
      cases hw
      rw [List.concat_eq_append] at h3
      rw [h3.last]
      simp
      exact lb_lt t.es key (List.getElem?_eq_getElem hwl) (by simp at h2; omega)
  · cases hq : y.1 with
    | none => simp
    | some k =>
      have hyl : lb t.es key < t.es.length := by
        have h6 := kids_key t hg
        rw [hq] at h6
        simp at h6
        omega
      rw [kids_lt t hyl] at hg
      cases hg
      simp at hq
      simp
      rw [← hq]
      exact lb_ge hasc key (List.getElem?_eq_getElem hyl) le_rfl

/-! ## Split -/

omit [LinearOrder K] in
theorem splitNode_ok {p : NK K A} {pct nid : Nat} {nd c1 c2 : Node K A} {k : K}
    (h : splitNode p pct nd nid = .ok (c1, c2, k)) :
    ∃ a b x, nd.es = a ++ b ∧ a.getLast? = some x ∧ k = x.1 ∧ b ≠ [] ∧
      c1 = { nd with next := some nid, es := a, edge := none } ∧
      c2 = { id := nid, next := nd.next, es := b, edge := nd.edge } := by
  unfold splitNode at h
  simp only at h
  generalize p.numToMove nd.es _ = m at h
  split at h
  · cases h
  · rename_i hm
    split at h
    · cases h
    · rename_i x hx
      cases h
      refine ⟨_, _, x, (List.take_append_drop _ _).symm, hx, rfl, ?_, rfl, rfl⟩
      intro hd
      rw [List.drop_eq_nil_iff] at hd
      have : 0 < (nd.es.take (nd.es.length - m)).length :=
        List.length_pos_of_ne_nil (by rintro h0; rw [h0] at hx; cases hx)
      simp at this
      omega

/-- A split node's halves cover what the node covered. -/
theorem splitNode_inv {L : Lvl K V A} {p : NK K A} {pct nid : Nat} {nd c1 c2 : Node K A} {k : K}
    {lo hi : Option K} (h : splitNode p pct nd nid = .ok (c1, c2, k)) (hQ : L.P nd lo hi) :
    ltLo lo k ∧ L.P c1 lo (some k) ∧ L.P c2 (some k) hi ∧ (∀ q, hi = some q → k < q) ∧
      Step (L.lv nd) (L.lv c1 ++ L.lv c2) nid (nid + 1) ∧
      cont (L.lv c1 ++ L.lv c2) = cont (L.lv nd) := by
  obtain ⟨a, b, x, h1, h2, rfl, h4, rfl, rfl⟩ := splitNode_ok h
  unfold Lvl.P at hQ ⊢
  rw [h1] at hQ
  obtain ⟨h5, h6⟩ := L.cut h2 (Or.inl h4) hQ
  have hr : Regroup [nd] [{ nd with next := some nid, es := a, edge := none },
      { id := nid, next := nd.next, es := b, edge := nd.edge }] nid (nid + 1) := by
    refine ⟨by omega, by simp [h1], by simp, by simp, by simp, by simp, by simp, by simp, ?_, by simp, ?_⟩
    · simp [Chain, headId]
    · simp [ids]
  refine ⟨(L.bnd h5 (List.mem_of_getLast? h2)).1, h5, h6, ?_, ?_, ?_⟩
  · rintro q rfl
    obtain ⟨z, b', rfl⟩ := List.exists_cons_of_ne_nil h4
    have := L.bnd h6 (x := z) (by simp)
    simp at this
    exact lt_of_lt_of_le this.1 this.2
  · simpa using L.regroup_step hr
  · simpa using L.regroup_cont hr

theorem bind_ok {α β : Type} {x : Except Fault α} {f : α → Except Fault β} {r : β}
    (h : (x >>= f) = .ok r) : ∃ a, x = .ok a ∧ f a = .ok r := by
  cases x with
  | error e => cases h
  | ok a => exact ⟨a, rfl, h⟩

omit [LinearOrder K] in
theorem kids_splitIn {p : NK K (Node K A)} {pc : NK K A} {pct idx nid : Nat} {t t' : Node K (Node K A)}
    {ch : Node K A} {a z : List (Option K × Node K A)} {q : Option K}
    (hk : t.kids = a ++ (q, ch) :: z) (ha : a.length = idx)
    (h : splitIn p pc pct t idx ch nid = .ok t') :
    ∃ c1 c2 k, splitNode pc pct ch nid = .ok (c1, c2, k) ∧
      t'.kids = a ++ (some k, c1) :: (q, c2) :: z := by
  unfold splitIn at h
  obtain ⟨⟨c1, c2, k⟩, h1, h2⟩ := bind_ok h
  obtain ⟨t1, h3, h4⟩ := bind_ok h2
  refine ⟨c1, c2, k, h1, ?_⟩
  have h5 := kids_updateVal (by rw [hk]; simp; omega) h3
  rw [hk, ← ha, modify_at] at h5
  obtain ⟨-, h6⟩ := kids_insertNode h4
  rw [h6, h5, ← ha]
  simp

theorem splitIn_inv {L : Lvl K V A} {p : NK K (Node K A)} {pc : NK K A} {pct idx nid : Nat}
    {t t' : Node K (Node K A)} {ch : Node K A} {lo hi : Option K}
    (hc : t.valAt idx = some ch) (h : splitIn p pc pct t idx ch nid = .ok t')
    (hQ : (intLvl L).P t lo hi) :
    (intLvl L).P t' lo hi ∧ Step ((intLvl L).lv t) ((intLvl L).lv t') nid (nid + 1) ∧
      cont ((intLvl L).lv t') = cont ((intLvl L).lv t) := by
  obtain ⟨a, q, z, hk, ha⟩ := valAt_split hc
  obtain ⟨c1, c2, k, h1, h2⟩ := kids_splitIn hk ha h
  have hQ' : Kids L.P lo t.es t.edge hi := hQ
  obtain ⟨-, hu⟩ := Kids_iff.mp hQ'
  rw [hk] at hu
  obtain ⟨m, h3, h4, h5⟩ := hu.split (by simp)
  obtain ⟨h6, h7, h8, h9, h10, h11⟩ := splitNode_inv (L := L) h1 h4.head
  refine ⟨?_, ?_, ?_⟩
  · show Kids L.P lo t'.es t'.edge hi
    rw [Kids_iff, h2]
    refine ⟨by simp, h3.join h5 ⟨h6, h7, ?_⟩⟩
    cases q with
    | none => exact ⟨h4.1, h4.2.1, h8⟩
    | some q => exact ⟨by simpa using h9 q rfl, h8, h4.2.2⟩
  · rw [lv_kids, lv_kids, hk, h2]
    have := h10.ctx (lvs L a) (lvs L z)
    simpa [List.append_assoc] using this
  · rw [lv_kids, lv_kids, hk, h2]
    simp only [lvs_append, lvs_cons, cont_append] at h11 ⊢
    rw [← h11]
    simp [List.append_assoc]

end HS.Btree
