import Verif.Conc.Rebuild

/-!
# Replacing neighbouring children keeps the tree and what it holds
-/

namespace HS.Conc

variable {s : St} {n c : Nat} {q : Plan} {d : Option Nat} {mids : List Ent} {β : Option Nat}

/-- The tree holds value `v` for key `k`: some leaf in use has the entry. -/
def Holds (nd : Nat → Node) (fresh k v : Nat) : Prop := ∃ i, Live nd fresh i ∧ (nd i).lev = 0 ∧ (some k, v) ∈ (nd i).es

/-- The entries of the parent afterwards. -/
abbrev after (s : St) (c : Nat) (q : Plan) : List Ent := q.pre ++ ((q.first.1, c) :: newEnts s.fresh q.news ++ q.post)

theorem newEnts_mem : ∀ {l : List (Option Nat × List Ent)} {i j : Nat}, j < l.length → ∃ b, (b, i + j) ∈ newEnts i l
  | [], _, _, h => by simp at h
  | (b, p) :: t, i, j, h => by
    cases j with
    | zero => exact ⟨b, by simp [newEnts]⟩
    | succ j =>
      obtain ⟨b', hb⟩ := newEnts_mem (l := t) (i := i + 1) (j := j) (by simpa using h)
      refine ⟨b', ?_⟩
      rw [show i + (j + 1) = i + 1 + j by omega]
      simp [newEnts, hb]

theorem segs_get {nd : Nat → Node} {fresh lev l : Nat} : ∀ {t : List (Option Nat × List Ent)} {lo β : Option Nat} {j : Nat} {x : Node},
    Segs nd fresh lev lo t β → (mkNodes l lo t)[j]? = some x → ltB x.lo x.hi ∧ Ok nd fresh lev x.lo x.es x.hi
  | [], _, _, _, _, _, h => by simp [mkNodes] at h
  | (b, p) :: t, lo, β, j, x, hs, h => by
    cases j with
    | zero => simp [mkNodes] at h; subst h; exact ⟨hs.1, hs.2.1⟩
    | succ j => exact segs_get hs.2.2 (by simpa [mkNodes] using h)

/-- A new node. -/
theorem Redo.new_node (h : Redo s n c q d mids β) (hT : TInv s.nodes s.fresh s.root) {j : Nat} (hj : j < q.news.length) :
    ∃ x, (mkNodes (s.nodes c).lev (cut q.first.1) q.news)[j]? = some x ∧ (s.merge n c (ids mids) q).nodes (s.fresh + j) = x := by
  have hlt : j < (mkNodes (s.nodes c).lev (cut q.first.1) q.news).length := by rw [mkNodes_length]; exact hj
  refine ⟨_, List.getElem?_eq_getElem hlt, ?_⟩
  have hcf := (h.kid hT h.memc).1.1
  simp only at hcf
  have hnf := h.live.1
  rw [merge_new (by omega) (by omega) _ (by omega)]
  · have : s.fresh + j - s.fresh = j := by omega
    rw [this, List.getElem?_eq_getElem hlt]
    rfl
  · intro hm
    have := (h.ids_kid hT hm).1.1
    omega

/-- The nodes in use afterwards. -/
theorem Redo.cases (h : Redo s n c q d mids β) (hT : TInv s.nodes s.fresh s.root) {i : Nat}
    (hi : Live (s.merge n c (ids mids) q).nodes (s.merge n c (ids mids) q).fresh i) :
    (Live s.nodes s.fresh i ∧ i ≠ c ∧ i ∉ ids mids) ∨ i = c ∨ ∃ j, j < q.news.length ∧ i = s.fresh + j := by
  by_cases hc : i = c
  · exact Or.inr (Or.inl hc)
  · by_cases hf : i < s.fresh
    · left
      by_cases hm : i ∈ ids mids
      · have hne : i ≠ n := by rintro rfl; exact h.n_not_mids hT hm
        have := hi.2
        rw [merge_old hne hc hm] at this
        cases this
      · refine ⟨⟨hf, ?_⟩, hc, hm⟩
        rw [← (h.frame hT hf hc hm).2.1]
        exact hi.2
    · right; right
      have : i < s.fresh + q.news.length := hi.1
      exact ⟨i - s.fresh, by omega, by omega⟩

/-- Levels do not change; new nodes are on the level of those they replace. -/
theorem Redo.new_lev (h : Redo s n c q d mids β) (hT : TInv s.nodes s.fresh s.root) {j : Nat} (hj : j < q.news.length) :
    ((s.merge n c (ids mids) q).nodes (s.fresh + j)).lev + 1 = (s.nodes n).lev := by
  obtain ⟨x, hx, hxe⟩ := h.new_node hT hj
  rw [hxe, (mkNodes_get hx).1]
  exact (h.kid hT h.memc).2

/-- A node in use afterwards that is not a child of `n` is as before. -/
theorem Redo.untouched (h : Redo s n c q d mids β) (hT : TInv s.nodes s.fresh s.root) {i : Nat}
    (hi : Live (s.merge n c (ids mids) q).nodes (s.merge n c (ids mids) q).fresh i) (hn : ∀ e ∈ after s c q, e.2 ≠ i) :
    Live s.nodes s.fresh i ∧ ((s.merge n c (ids mids) q).nodes i).lev = (s.nodes i).lev ∧
      ((s.merge n c (ids mids) q).nodes i).lo = (s.nodes i).lo ∧ ((s.merge n c (ids mids) q).nodes i).hi = (s.nodes i).hi := by
  rcases h.cases hT hi with ⟨hl, hc, hm⟩ | hc | ⟨j, hj, hij⟩
  · have hp : q.post.head?.map (·.2) ≠ some i := by
      intro hp
      obtain ⟨e, t, hpe, hei⟩ := next_mem hp
      exact hn e (by simp [hpe]) hei
    have := h.kid_same hT (i := i) ⟨hl, rfl, rfl, rfl⟩ hc hm hp
    exact ⟨hl, this.2.1, this.2.2.1, this.2.2.2⟩
  · exact absurd hc.symm (hn (q.first.1, c) (by simp))
  · obtain ⟨b, hb⟩ := newEnts_mem (i := s.fresh) hj
    exact absurd hij.symm (hn (b, s.fresh + j) (by simp [hb]))

/-- A node in use on the level below `n`, with a key of `n`, is a child of `n`. -/
theorem Redo.touched (h : Redo s n c q d mids β) (hT : TInv s.nodes s.fresh s.root) {i k : Nat}
    (hi : Live (s.merge n c (ids mids) q).nodes (s.merge n c (ids mids) q).fresh i)
    (hlev : ((s.merge n c (ids mids) q).nodes i).lev + 1 = (s.nodes n).lev)
    (hk : inR ((s.merge n c (ids mids) q).nodes i).lo ((s.merge n c (ids mids) q).nodes i).hi k) (hkn : inR (s.nodes n).lo (s.nodes n).hi k) :
    ∃ e ∈ after s c q, e.2 = i := by
  by_cases hex : ∃ e ∈ after s c q, e.2 = i
  · exact hex
  · exfalso
    have hn : ∀ e ∈ after s c q, e.2 ≠ i := fun e he hei => hex ⟨e, he, hei⟩
    obtain ⟨hl, h1, h2, h3⟩ := h.untouched hT hi hn
    rw [h2, h3] at hk
    obtain ⟨e, t, m, _, g2, _, g4, g5, _⟩ := (hT.chain h.live h.lev).child hkn
    have he : e ∈ (s.nodes n).es := by rw [g2]; simp
    have hei : e.2 = i := by
      refine hT.uniq e.2 i g4.1 hl ?_ k ?_ hk
      · have := (h.kid hT he).2
        omega
      · rw [g4.2.2.1, g4.2.2.2]
        exact g5
    have hcm : e.2 ≠ c ∧ e.2 ∉ ids mids := by
      rcases h.cases hT hi with ⟨_, hc, hm⟩ | hc | ⟨j, hj, hij⟩
      · rw [hei]; exact ⟨hc, hm⟩
      · exact absurd hc.symm (hn (q.first.1, c) (by simp))
      · have := g4.1.1
        omega
    rw [h.es] at he
    rcases List.mem_append.1 he with he | he
    · exact hn e (by simp [he]) hei
    · rcases List.mem_append.1 he with he | he
      · rcases List.mem_cons.1 he with rfl | he
        · exact hcm.1 rfl
        · exact hcm.2 (List.mem_map.2 ⟨e, he, rfl⟩)
      · exact hn e (by simp [he]) hei

/-- The tree is kept. -/
theorem Redo.tinv (h : Redo s n c q d mids β) (hT : TInv s.nodes s.fresh s.root) :
    TInv (s.merge n c (ids mids) q).nodes (s.merge n c (ids mids) q).fresh (s.merge n c (ids mids) q).root := by
  have hnc := h.ne_nc hT
  have hcl := h.kid hT h.memc
  simp only at hcl
  have hch := h.chain' hT
  have hroot : (s.merge n c (ids mids) q).root = s.root := rfl
  rw [hroot]
  have hrk : Kid (s.merge n c (ids mids) q).nodes (s.merge n c (ids mids) q).fresh (s.nodes s.root).lev s.root (some 0) none := by
    refine h.kid_level hT ⟨hT.base.1, rfl, hT.base.2.1, hT.base.2.2⟩ ?_
    have := hT.top n h.live
    omega
  have hn' : (s.merge n c (ids mids) q).nodes n =
    { s.nodes n with es := after s c q, gen := (s.nodes n).gen + 1 } := by rw [merge_n]; simp [after]
  refine ⟨⟨hrk.1, hrk.2.2⟩, fun i hi => ?_, fun i hi => ?_, fun i j hi hj hij k hki hkj => ?_⟩
  · rw [hrk.2.1]
    rcases h.cases hT hi with ⟨hl, hc, hm⟩ | rfl | ⟨j, hj, rfl⟩
    · rw [(h.frame hT hl.1 hc hm).1]
      exact hT.top i hl
    · rw [merge_c hnc]
      exact hT.top i hcl.1
    · have := h.new_lev hT hj
      have := hT.top n h.live
      omega
  · rcases h.cases hT hi with ⟨hl, hc, hm⟩ | rfl | ⟨j, hj, rfl⟩
    · by_cases hin : i = n
      · subst hin
        rw [hn']
        exact ⟨(hT.node i h.live).1, fun h0 => absurd h0 h.lev, fun _ => hch⟩
      · by_cases hp : q.post.head?.map (·.2) = some i
        · obtain ⟨e, t, hpe, hei⟩ := next_mem hp
          have hek := h.kid hT (h.mem_post (e := e) (by simp [hpe]))
          rw [hei] at hek
          obtain ⟨m, _, _, g3, g4⟩ := h.parts hT
          rw [hpe] at g3
          have glo := g3.2.1.2.2.1
          rw [hei] at glo
          have hle : leB β (s.nodes i).lo := by rw [glo, g4]; exact h.le
          rw [merge_next hin hc hm (by have := hl.1; omega) hp, h.segs.ends]
          refine ⟨(hT.node i hl).1.of_leB_left hle, ?_⟩
          show Ok _ _ (s.nodes i).lev β (s.nodes i).es (s.nodes i).hi
          by_cases h0 : (s.nodes i).lev = 0
          · exact ⟨fun _ => ((hT.node i hl).2.1 h0).mono hle (leB.refl _), fun h1 => absurd h0 h1⟩
          · have hb : β = (s.nodes i).lo := by rw [glo, g4]; exact h.eq (Or.inr (by omega))
            rw [hb]
            exact h.ok_level hT (hT.node i hl).2 (by omega)
        · have hsame := merge_same (s := s) (mids := mids) hin hc hm (by have := hl.1; omega) hp
          rw [hsame]
          refine ⟨(hT.node i hl).1, ?_⟩
          by_cases hlev : (s.nodes i).lev = (s.nodes n).lev
          · refine ⟨fun h0 => (hT.node i hl).2.1 h0, fun h0 => ((hT.node i hl).2.2 h0).imp fun e he x y hk => ?_⟩
            have hpar : ∀ f ∈ (s.nodes n).es, e.2 ≠ f.2 := fun f hf hef =>
              hin (hT.parent hl h.live h0 h.lev he hf hef)
            refine h.kid_same hT hk (hpar (d, c) h.memc) (fun hm' => ?_) fun hp' => ?_
            · obtain ⟨f, hf, hfe⟩ := List.mem_map.1 hm'
              exact hpar f (h.mem_mids hf) hfe.symm
            · obtain ⟨f, u, hpf, hfe⟩ := next_mem hp'
              exact hpar f (h.mem_post (by simp [hpf])) hfe.symm
          · exact h.ok_level hT (hT.node i hl).2 hlev
    · rw [merge_c hnc]
      refine ⟨h.segs.1, ?_⟩
      have : (s.nodes i).lev = (s.nodes n).lev - 1 := by omega
      show Ok _ _ (s.nodes i).lev (s.nodes i).lo q.first.2 (cut q.first.1)
      rw [this]
      exact h.ok_level hT h.segs.2.1 (by omega)
    · obtain ⟨x, hx, hxe⟩ := h.new_node hT hj
      rw [hxe]
      have hg := segs_get h.segs.2.2 hx
      have : x.lev = (s.nodes n).lev - 1 := by rw [(mkNodes_get hx).1]; omega
      rw [this]
      exact ⟨hg.1, h.ok_level hT hg.2 (by omega)⟩
  · by_cases hlev : ((s.merge n c (ids mids) q).nodes i).lev + 1 = (s.nodes n).lev ∧ inR (s.nodes n).lo (s.nodes n).hi k
    · obtain ⟨e, he, rfl⟩ := h.touched hT hi hlev.1 hki hlev.2
      obtain ⟨f, hf, rfl⟩ := h.touched hT hj (by omega) hkj hlev.2
      rw [hch.uniq he hf hki hkj]
    · have hun : ∀ x, Live (s.merge n c (ids mids) q).nodes (s.merge n c (ids mids) q).fresh x →
          ((s.merge n c (ids mids) q).nodes x).lev = ((s.merge n c (ids mids) q).nodes i).lev →
          inR ((s.merge n c (ids mids) q).nodes x).lo ((s.merge n c (ids mids) q).nodes x).hi k → ∀ e ∈ after s c q, e.2 ≠ x := by
        intro x hx hxl hxk e he hex
        obtain ⟨_, k2, _, k4, k5, _⟩ := hch.kid he
        rw [hex] at k2 k4 k5
        apply hlev
        have := h.lev
        exact ⟨by omega, hxk.mono k4 k5⟩
      obtain ⟨a1, a2, a3, a4⟩ := h.untouched hT hi (hun i hi rfl hki)
      obtain ⟨b1, b2, b3, b4⟩ := h.untouched hT hj (hun j hj hij.symm hkj)
      rw [a3, a4] at hki
      rw [b3, b4] at hkj
      exact hT.uniq i j a1 b1 (by omega) k hki hkj

/-- What the tree holds is kept. -/
theorem Redo.holds (h : Redo s n c q d mids β) (hT : TInv s.nodes s.fresh s.root) (k v : Nat) :
    Holds (s.merge n c (ids mids) q).nodes (s.merge n c (ids mids) q).fresh k v ↔ Holds s.nodes s.fresh k v := by
  have hnc := h.ne_nc hT
  have hcl := h.kid hT h.memc
  simp only at hcl
  have hold : (s.nodes c).lev = 0 → (some k, v) ∈ (s.nodes c).es ++ (mids.flatMap fun e => (s.nodes e.2).es) → Holds s.nodes s.fresh k v := by
    intro h0 hm
    rcases List.mem_append.1 hm with hm | hm
    · exact ⟨c, hcl.1, h0, hm⟩
    · obtain ⟨e, he, hm⟩ := List.mem_flatMap.1 hm
      have := h.kid hT (h.mem_mids he)
      exact ⟨e.2, this.1, by omega, hm⟩
  constructor
  · rintro ⟨i, hi, h0, hm⟩
    rcases h.cases hT hi with ⟨hl, hc, hm'⟩ | rfl | ⟨j, hj, rfl⟩
    · have hf := h.frame hT hl.1 hc hm'
      have hin : i ≠ n := by
        rintro rfl
        rw [hf.1] at h0
        exact h.lev h0
      rw [hf.1] at h0
      rw [(hf.2.2.2.2 hin).1] at hm
      exact ⟨i, hl, h0, hm⟩
    · rw [merge_c hnc] at h0 hm
      refine hold h0 ?_
      rw [← h.ents]
      exact List.mem_append.2 (Or.inl hm)
    · obtain ⟨x, hx, hxe⟩ := h.new_node hT hj
      rw [hxe] at h0 hm
      obtain ⟨g1, _, b, p, g3, g4, _⟩ := mkNodes_get hx
      rw [g1] at h0
      refine hold h0 ?_
      rw [← h.ents]
      refine List.mem_append.2 (Or.inr (List.mem_flatMap.2 ⟨(b, p), List.mem_of_getElem? g3, ?_⟩))
      rw [← g4]
      exact hm
  · rintro ⟨i, hi, h0, hm⟩
    have hcf : c < (s.merge n c (ids mids) q).fresh := by have := hcl.1.1; simp only [St.merge]; omega
    have hnew : (s.nodes c).lev = 0 → (some k, v) ∈ (s.nodes c).es ++ (mids.flatMap fun e => (s.nodes e.2).es) →
        Holds (s.merge n c (ids mids) q).nodes (s.merge n c (ids mids) q).fresh k v := by
      intro h0 hm
      rw [← h.ents] at hm
      rcases List.mem_append.1 hm with hm | hm
      · refine ⟨c, ⟨hcf, ?_⟩, ?_, ?_⟩ <;> rw [merge_c hnc]
        · exact hcl.1.2
        · exact h0
        · exact hm
      · obtain ⟨r, hr, hm⟩ := List.mem_flatMap.1 hm
        obtain ⟨j, hj, hjr⟩ := List.getElem_of_mem hr
        obtain ⟨x, hx, hxe⟩ := h.new_node hT hj
        obtain ⟨g1, g2, b, p, g3, g4, _⟩ := mkNodes_get hx
        refine ⟨s.fresh + j, ⟨by simp only [St.merge]; omega, ?_⟩, ?_, ?_⟩ <;> rw [hxe]
        · exact g2
        · rw [g1]; exact h0
        · rw [g4]
          rw [List.getElem?_eq_getElem hj, hjr] at g3
          cases g3
          exact hm
    by_cases hc : i = c
    · subst hc
      exact hnew h0 (List.mem_append.2 (Or.inl hm))
    · by_cases hmi : i ∈ ids mids
      · have := h.ids_kid hT hmi
        obtain ⟨e, he, rfl⟩ := List.mem_map.1 hmi
        exact hnew (by omega) (List.mem_append.2 (Or.inr (List.mem_flatMap.2 ⟨e, he, hm⟩)))
      · have hf := h.frame hT hi.1 hc hmi
        have hin : i ≠ n := by rintro rfl; exact h.lev h0
        refine ⟨i, ⟨?_, ?_⟩, ?_, ?_⟩
        · have := hi.1
          simp only [St.merge]
          omega
        · rw [hf.2.1]; exact hi.2
        · rw [hf.1]; exact h0
        · rw [(hf.2.2.2.2 hin).1]; exact hm

end HS.Conc
