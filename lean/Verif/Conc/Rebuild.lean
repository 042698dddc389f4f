import Verif.Conc.Tree

/-!
# Replacing neighbouring children of a node by others keeps the tree

A merge replaces a child and its siblings to the right; a split replaces one child by two.
-/

namespace HS.Conc

variable {s : St}

/-- What is replaced: entry `(d, c)` and the entries `mids` of node `n`, by the pieces of plan `q`, which end at `β`. -/
structure Redo (s : St) (n c : Nat) (q : Plan) (d : Option Nat) (mids : List Ent) (β : Option Nat) : Prop where
  live : Live s.nodes s.fresh n
  lev : (s.nodes n).lev ≠ 0
  es : (s.nodes n).es = q.pre ++ (((d, c) :: mids) ++ q.post)
  segs : Segs s.nodes s.fresh ((s.nodes n).lev - 1) (s.nodes c).lo (q.first :: q.news) β
  le : leB β (cut (lastKey none ((d, c) :: mids)))
  eq : q.post = [] ∨ (s.nodes n).lev - 1 ≠ 0 → β = cut (lastKey none ((d, c) :: mids))
  ents : q.first.2 ++ q.news.flatMap (·.2) = (s.nodes c).es ++ mids.flatMap fun e => (s.nodes e.2).es

/-- The chain of an interior node in use. -/
theorem TInv.chain {nd fresh root} (h : TInv nd fresh root) {n} (hl : Live nd fresh n) (hn : (nd n).lev ≠ 0) :
    Chain (Kid nd fresh ((nd n).lev - 1)) (nd n).lo (nd n).es (nd n).hi := (h.node n hl).2.2 hn

/-- Two entries of a chain whose children have a key in common have the same child. -/
theorem Chain.uniq {nd fresh l} {a : List Ent} {lo hi} (h : Chain (Kid nd fresh l) lo a hi) {e f : Ent} (he : e ∈ a) (hf : f ∈ a) {k}
    (hke : inR (nd e.2).lo (nd e.2).hi k) (hkf : inR (nd f.2).lo (nd f.2).hi k) : e = f := by
  induction a generalizing lo with
  | nil => cases he
  | cons g t ih =>
    rcases List.mem_cons.1 he with he1 | he1 <;> rcases List.mem_cons.1 hf with hf1 | hf1
    · rw [he1, hf1]
    · subst he1
      obtain ⟨x, h1, _, h3, _⟩ := h.2.2.mem hf1
      rw [h.2.1.2.2.2] at hke
      rw [h1.2.2.1] at hkf
      exact absurd (inR.disjoint hke hkf h3) id
    · subst hf1
      obtain ⟨x, h1, _, h3, _⟩ := h.2.2.mem he1
      rw [h.2.1.2.2.2] at hkf
      rw [h1.2.2.1] at hke
      exact absurd (inR.disjoint hkf hke h3) id
    · exact ih h.2.2 he1 hf1

theorem Chain.kid {nd fresh l} {a : List Ent} {lo hi} (h : Chain (Kid nd fresh l) lo a hi) {e : Ent} (he : e ∈ a) :
    Live nd fresh e.2 ∧ (nd e.2).lev = l ∧ ltB (nd e.2).lo (nd e.2).hi ∧ leB lo (nd e.2).lo ∧ leB (nd e.2).hi hi ∧
      (nd e.2).hi = cut e.1 := by
  obtain ⟨x, ⟨h1, h2, h3, h4⟩, h5, h6, h7⟩ := h.mem he
  rw [h3, h4]
  exact ⟨h1, h2, h5, h6, h7, rfl⟩

/-- A node has one parent. -/
theorem TInv.parent {nd fresh root} (h : TInv nd fresh root) {p q : Nat} (hp : Live nd fresh p) (hq : Live nd fresh q) (hpl : (nd p).lev ≠ 0)
    (hql : (nd q).lev ≠ 0) {e f : Ent} (he : e ∈ (nd p).es) (hf : f ∈ (nd q).es) (hef : e.2 = f.2) : p = q := by
  obtain ⟨_, h2, h3, h4, h5, _⟩ := (h.chain hp hpl).kid he
  obtain ⟨_, g2, _, g4, g5, _⟩ := (h.chain hq hql).kid hf
  obtain ⟨k, hk⟩ := h3.inR
  rw [← hef] at g2 g4 g5
  exact h.uniq p q hp hq (by omega) k (hk.mono h4 h5) (hk.mono g4 g5)

section
variable {n c : Nat} {q : Plan} {d : Option Nat} {mids : List Ent} {β : Option Nat}

/-- The ids of the siblings replaced. -/
abbrev ids (mids : List Ent) : List Nat := mids.map (·.2)

/-- The three parts of the chain of the parent. -/
theorem Redo.parts (h : Redo s n c q d mids β) (hT : TInv s.nodes s.fresh s.root) :
    ∃ m, Chain (Kid s.nodes s.fresh ((s.nodes n).lev - 1)) (s.nodes n).lo q.pre (s.nodes c).lo ∧
      Chain (Kid s.nodes s.fresh ((s.nodes n).lev - 1)) (s.nodes c).lo ((d, c) :: mids) m ∧
      Chain (Kid s.nodes s.fresh ((s.nodes n).lev - 1)) m q.post (s.nodes n).hi ∧ m = cut (lastKey none ((d, c) :: mids)) := by
  have hc := hT.chain h.live h.lev
  rw [h.es] at hc
  obtain ⟨m0, h1, h2⟩ := Chain.append.1 hc
  obtain ⟨m, h3, h4⟩ := Chain.append.1 h2
  have : (s.nodes c).lo = m0 := h3.2.1.2.2.1
  rw [this]
  exact ⟨m, h1, h3, h4, h3.last (by simp) none⟩

theorem Redo.kid (h : Redo s n c q d mids β) (hT : TInv s.nodes s.fresh s.root) {e : Ent} (he : e ∈ (s.nodes n).es) :
    Live s.nodes s.fresh e.2 ∧ (s.nodes e.2).lev + 1 = (s.nodes n).lev := by
  have := (hT.chain h.live h.lev).kid he
  have hl := h.lev
  exact ⟨this.1, by omega⟩

theorem Redo.memc (h : Redo s n c q d mids β) : (d, c) ∈ (s.nodes n).es := by rw [h.es]; simp

theorem Redo.mem_mids (h : Redo s n c q d mids β) {e} (he : e ∈ mids) : e ∈ (s.nodes n).es := by rw [h.es]; simp [he]

theorem Redo.mem_pre (h : Redo s n c q d mids β) {e} (he : e ∈ q.pre) : e ∈ (s.nodes n).es := by rw [h.es]; simp [he]

theorem Redo.mem_post (h : Redo s n c q d mids β) {e} (he : e ∈ q.post) : e ∈ (s.nodes n).es := by rw [h.es]; simp [he]

theorem Redo.ids_kid (h : Redo s n c q d mids β) (hT : TInv s.nodes s.fresh s.root) {i} (hi : i ∈ ids mids) :
    Live s.nodes s.fresh i ∧ (s.nodes i).lev + 1 = (s.nodes n).lev := by
  obtain ⟨e, he, rfl⟩ := List.mem_map.1 hi
  exact h.kid hT (h.mem_mids he)

/-- Entries of different parts of a chain have different children. -/
theorem Chain.ne {nd fresh l} {a b : List Ent} {lo m hi} (h : Chain (Kid nd fresh l) lo a m) (h' : Chain (Kid nd fresh l) m b hi) {e f : Ent}
    (he : e ∈ a) (hf : f ∈ b) : e.2 ≠ f.2 := by
  intro hef
  obtain ⟨_, _, h3, _, h5, _⟩ := h.kid he
  obtain ⟨_, _, _, g4, _, _⟩ := h'.kid hf
  rw [← hef] at g4
  exact ltB.irrefl ((h3.of_leB_right h5).of_leB_right g4)

theorem Redo.c_not_mids (h : Redo s n c q d mids β) (hT : TInv s.nodes s.fresh s.root) : c ∉ ids mids := by
  intro hc
  obtain ⟨e, he, hec⟩ := List.mem_map.1 hc
  obtain ⟨m, _, h2, _, _⟩ := h.parts hT
  have h2' : Chain (Kid s.nodes s.fresh ((s.nodes n).lev - 1)) (s.nodes c).lo ([(d, c)] ++ mids) m := h2
  obtain ⟨m', h3, h4⟩ := Chain.append.1 h2'
  exact Chain.ne h3 h4 (e := (d, c)) (by simp) he hec.symm

theorem Redo.post_not (h : Redo s n c q d mids β) (hT : TInv s.nodes s.fresh s.root) {e} (he : e ∈ q.post) : e.2 ≠ c ∧ e.2 ∉ ids mids := by
  obtain ⟨m, _, h2, h3, _⟩ := h.parts hT
  refine ⟨fun hc => Chain.ne h2 h3 (e := (d, c)) (by simp) he hc.symm, fun hm => ?_⟩
  obtain ⟨f, hf, hfe⟩ := List.mem_map.1 hm
  exact Chain.ne h2 h3 (e := f) (by simp [hf]) he hfe

theorem Redo.pre_not (h : Redo s n c q d mids β) (hT : TInv s.nodes s.fresh s.root) {e} (he : e ∈ q.pre) :
    e.2 ≠ c ∧ e.2 ∉ ids mids ∧ ∀ f ∈ q.post, e.2 ≠ f.2 := by
  obtain ⟨m, h1, h2, h3, _⟩ := h.parts hT
  refine ⟨fun hc => Chain.ne h1 h2 (f := (d, c)) he (by simp) hc, fun hm => ?_, fun f hf => ?_⟩
  · obtain ⟨f, hf, hfe⟩ := List.mem_map.1 hm
    exact Chain.ne h1 h2 (f := f) he (by simp [hf]) hfe.symm
  · exact Chain.ne h1 (Chain.append.2 ⟨m, h2, h3⟩) he (f := f) (List.mem_append.2 (Or.inr hf))

theorem Redo.ne_nc (h : Redo s n c q d mids β) (hT : TInv s.nodes s.fresh s.root) : n ≠ c := by
  intro hnc
  have := (h.kid hT h.memc).2
  simp only at this
  rw [← hnc] at this
  omega

theorem Redo.n_not_mids (h : Redo s n c q d mids β) (hT : TInv s.nodes s.fresh s.root) : n ∉ ids mids := by
  intro hm
  have := (h.ids_kid hT hm).2
  omega

/-- The first child after those replaced. -/
def Redo.next (q : Plan) : Option Nat := q.post.head?.map (·.2)

theorem next_mem {q : Plan} {j} (h : q.post.head?.map (·.2) = some j) : ∃ e t, q.post = e :: t ∧ e.2 = j := by
  cases hp : q.post with
  | nil => rw [hp] at h; cases h
  | cons e t => rw [hp] at h; exact ⟨e, t, rfl, by simpa using h⟩

/-- The node `mkNodes` makes for a piece: where it begins. -/
theorem mkNodes_get {lev : Nat} : ∀ {l : List (Option Nat × List Ent)} {lo : Option Nat} {i : Nat} {x : Node}, (mkNodes lev lo l)[i]? = some x →
    x.lev = lev ∧ x.del = false ∧ ∃ b p, l[i]? = some (b, p) ∧ x.es = p ∧ x.hi = cut b
  | [], _, _, _, h => by simp [mkNodes] at h
  | (b, p) :: t, lo, i, x, h => by
    cases i with
    | zero => simp [mkNodes] at h; subst h; exact ⟨rfl, rfl, b, p, rfl, rfl, rfl⟩
    | succ i => simp [mkNodes] at h; simpa using mkNodes_get h

theorem mkNodes_length {lev : Nat} : ∀ {l : List (Option Nat × List Ent)} {lo : Option Nat}, (mkNodes lev lo l).length = l.length
  | [], _ => rfl
  | (b, p) :: t, lo => by simp [mkNodes, mkNodes_length (l := t)]

/-- The node `n` afterwards. -/
theorem merge_n : (s.merge n c (ids mids) q).nodes n =
    { s.nodes n with es := q.pre ++ (q.first.1, c) :: newEnts s.fresh q.news ++ q.post, gen := (s.nodes n).gen + 1 } := by
  simp [St.merge]

theorem merge_c (hnc : n ≠ c) : (s.merge n c (ids mids) q).nodes c =
    { s.nodes c with es := q.first.2, hi := cut q.first.1, gen := (s.nodes c).gen + 1 } := by
  simp [St.merge, Ne.symm hnc]

theorem merge_old {i} (h1 : i ≠ n) (h2 : i ≠ c) (h3 : i ∈ ids mids) : (s.merge n c (ids mids) q).nodes i =
    { s.nodes i with del := true, gen := (s.nodes i).gen + 1 } := by
  simp only [St.merge]
  rw [if_neg h1, if_neg h2, if_pos h3]

theorem merge_new {i} (h1 : i ≠ n) (h2 : i ≠ c) (h3 : i ∉ ids mids) (h4 : s.fresh ≤ i) : (s.merge n c (ids mids) q).nodes i =
    ((mkNodes (s.nodes c).lev (cut q.first.1) q.news)[i - s.fresh]?).getD (s.nodes i) := by
  simp only [St.merge]
  rw [if_neg h1, if_neg h2, if_neg h3, if_pos h4]

theorem merge_next {i} (h1 : i ≠ n) (h2 : i ≠ c) (h3 : i ∉ ids mids) (h4 : ¬ s.fresh ≤ i) (h5 : q.post.head?.map (·.2) = some i) :
    (s.merge n c (ids mids) q).nodes i = { s.nodes i with lo := cut (lastKey q.first.1 (newEnts s.fresh q.news)) } := by
  simp only [St.merge]
  rw [if_neg h1, if_neg h2, if_neg h3, if_neg h4, if_pos h5]

theorem merge_same {i} (h1 : i ≠ n) (h2 : i ≠ c) (h3 : i ∉ ids mids) (h4 : ¬ s.fresh ≤ i) (h5 : q.post.head?.map (·.2) ≠ some i) :
    (s.merge n c (ids mids) q).nodes i = s.nodes i := by
  simp only [St.merge]
  rw [if_neg h1, if_neg h2, if_neg h3, if_neg h4, if_neg h5]

theorem lastKey_cons (d : Option Nat) (e : Ent) (t : List Ent) : lastKey d (e :: t) = lastKey e.1 t := by
  simp only [lastKey, List.getLast?_cons]
  cases t.getLast? <;> rfl

/-- The pieces end where the last entry made for them says. -/
theorem Segs.ends {nd fresh lev} : ∀ {l : List (Option Nat × List Ent)} {p : Option Nat × List Ent} {lo β : Option Nat} {i : Nat},
    Segs nd fresh lev lo (p :: l) β → cut (lastKey p.1 (newEnts i l)) = β
  | [], p, lo, β, i, h => by simpa [lastKey, newEnts, Segs] using h.2.2
  | r :: t, p, lo, β, i, h => by
    have := Segs.ends (i := i + 1) h.2.2
    rw [newEnts, lastKey_cons]
    exact this

theorem Segs.le {nd fresh lev} : ∀ {l : List (Option Nat × List Ent)} {lo β : Option Nat}, Segs nd fresh lev lo l β → leB lo β
  | [], lo, β, h => by cases h; exact leB.refl _
  | p :: l, lo, β, h => h.1.leB.trans (Segs.le h.2.2)

/-- Nodes outside keep their shape; the range may grow to the left. -/
theorem Redo.frame (h : Redo s n c q d mids β) (hT : TInv s.nodes s.fresh s.root) {i : Nat} (hi : i < s.fresh) (h2 : i ≠ c) (h3 : i ∉ ids mids) :
    ((s.merge n c (ids mids) q).nodes i).lev = (s.nodes i).lev ∧ ((s.merge n c (ids mids) q).nodes i).del = (s.nodes i).del ∧
      ((s.merge n c (ids mids) q).nodes i).hi = (s.nodes i).hi ∧ leB ((s.merge n c (ids mids) q).nodes i).lo (s.nodes i).lo ∧
      (i ≠ n → ((s.merge n c (ids mids) q).nodes i).es = (s.nodes i).es ∧ ((s.merge n c (ids mids) q).nodes i).gen = (s.nodes i).gen) := by
  by_cases h1 : i = n
  · subst h1
    rw [merge_n]
    exact ⟨rfl, rfl, rfl, leB.refl _, fun h => absurd rfl h⟩
  · by_cases h5 : q.post.head?.map (·.2) = some i
    · rw [merge_next h1 h2 h3 (by omega) h5, h.segs.ends]
      refine ⟨rfl, rfl, rfl, ?_, fun _ => ⟨rfl, rfl⟩⟩
      obtain ⟨e, t, hp, rfl⟩ := next_mem h5
      obtain ⟨m, _, _, g3, g4⟩ := h.parts hT
      rw [hp] at g3
      rw [g3.2.1.2.2.1, g4]
      exact h.le
    · rw [merge_same h1 h2 h3 (by omega) h5]
      exact ⟨rfl, rfl, rfl, leB.refl _, fun _ => ⟨rfl, rfl⟩⟩

/-- A child that is not one of those concerned. -/
theorem Redo.kid_same (h : Redo s n c q d mids β) (_hT : TInv s.nodes s.fresh s.root) {i l : Nat} {x y : Option Nat}
    (hk : Kid s.nodes s.fresh l i x y) (h2 : i ≠ c) (h3 : i ∉ ids mids) (h5 : q.post.head?.map (·.2) ≠ some i) :
    Kid (s.merge n c (ids mids) q).nodes (s.merge n c (ids mids) q).fresh l i x y := by
  have hlt : i < s.fresh := hk.1.1
  have hf : i < (s.merge n c (ids mids) q).fresh := by simp only [St.merge]; omega
  by_cases h1 : i = n
  · subst h1
    obtain ⟨⟨_, k2⟩, k3, k4, k5⟩ := hk
    refine ⟨⟨hf, ?_⟩, ?_, ?_, ?_⟩ <;> rw [merge_n] <;> assumption
  · rw [Kid, Live, merge_same h1 h2 h3 (by omega) h5]
    exact ⟨⟨hf, hk.1.2⟩, hk.2⟩

/-- A child on another level than those replaced. -/
theorem Redo.kid_level (h : Redo s n c q d mids β) (hT : TInv s.nodes s.fresh s.root) {i l : Nat} {x y : Option Nat}
    (hk : Kid s.nodes s.fresh l i x y) (hl : l + 1 ≠ (s.nodes n).lev) :
    Kid (s.merge n c (ids mids) q).nodes (s.merge n c (ids mids) q).fresh l i x y := by
  refine h.kid_same hT hk ?_ ?_ ?_
  · rintro rfl
    have := (h.kid hT h.memc).2
    simp only at this
    rw [hk.2.1] at this
    exact hl this
  · intro hm
    have := (h.ids_kid hT hm).2
    rw [hk.2.1] at this
    exact hl this
  · intro hn
    obtain ⟨e, t, hp, rfl⟩ := next_mem hn
    have := (h.kid hT (h.mem_post (e := e) (by simp [hp]))).2
    rw [hk.2.1] at this
    exact hl this

theorem Redo.ok_level (h : Redo s n c q d mids β) (hT : TInv s.nodes s.fresh s.root) {lev : Nat} {x y : Option Nat} {es : List Ent}
    (ho : Ok s.nodes s.fresh lev x es y) (hl : lev ≠ (s.nodes n).lev) :
    Ok (s.merge n c (ids mids) q).nodes (s.merge n c (ids mids) q).fresh lev x es y := by
  refine ⟨ho.1, fun h0 => (ho.2 h0).imp fun e _ a b hk => h.kid_level hT hk ?_⟩
  omega

/-- The nodes made for the pieces. -/
theorem chain_new {nd nd' : Nat → Node} {fresh fresh' lev l : Nat} : ∀ (t : List (Option Nat × List Ent)) (lo β : Option Nat) (i : Nat),
    Segs nd fresh lev lo t β →
    (∀ j x, (mkNodes l lo t)[j]? = some x → nd' (i + j) = x) → i + t.length ≤ fresh' →
    Chain (Kid nd' fresh' l) lo (newEnts i t) β
  | [], lo, β, i, h, _, _ => h
  | (b, p) :: t, lo, β, i, h, hn, hf => by
    have h0 : nd' i = { lev := l, del := false, gen := 1, lo := lo, hi := cut b, es := p } := by
      have := hn 0 _ rfl
      simpa using this
    simp only [List.length_cons] at hf
    refine ⟨h.1, ⟨⟨by omega, by rw [h0]⟩, by rw [h0], by rw [h0], by rw [h0]⟩, ?_⟩
    refine chain_new t (cut b) β (i + 1) h.2.2 (fun j x hx => ?_) (by omega)
    have := hn (j + 1) x (by simpa [mkNodes] using hx)
    rw [← this]
    congr 1
    omega

/-- The chain of the parent afterwards. -/
theorem Redo.chain' (h : Redo s n c q d mids β) (hT : TInv s.nodes s.fresh s.root) :
    Chain (Kid (s.merge n c (ids mids) q).nodes (s.merge n c (ids mids) q).fresh ((s.nodes n).lev - 1)) (s.nodes n).lo
      (q.pre ++ ((q.first.1, c) :: newEnts s.fresh q.news ++ q.post)) (s.nodes n).hi := by
  obtain ⟨m, h1, h2, h3, h4⟩ := h.parts hT
  have hnc := h.ne_nc hT
  have hcl := (h.kid hT h.memc)
  simp only at hcl
  have hnl : n < s.fresh := h.live.1
  have hcf : c < s.fresh := hcl.1.1
  refine Chain.append.2 ⟨(s.nodes c).lo, ?_, Chain.append.2 ⟨β, ⟨h.segs.1, ?_, ?_⟩, ?_⟩⟩
  · refine h1.imp fun e he x y hk => h.kid_same hT hk (h.pre_not hT he).1 (h.pre_not hT he).2.1 fun hx => ?_
    obtain ⟨f, t, hp, hfe⟩ := next_mem hx
    exact (h.pre_not hT he).2.2 f (by simp [hp]) hfe.symm
  · rw [Kid, Live, merge_c hnc]
    exact ⟨⟨by simp only [St.merge]; omega, hcl.1.2⟩, by simp only; omega, rfl, rfl⟩
  · refine chain_new (nd := s.nodes) (fresh := s.fresh) (lev := (s.nodes n).lev - 1) q.news (cut q.first.1) β s.fresh h.segs.2.2 ?_
      (by simp only [St.merge]; omega)
    intro j x hx
    have hcl' : (s.nodes n).lev - 1 = (s.nodes c).lev := by omega
    rw [merge_new (by omega) (by omega) _ (by omega)]
    · rw [hcl'] at hx
      simp [hx]
    · intro hm
      have := (h.ids_kid hT hm).1.1
      omega
  · cases hp : q.post with
    | nil =>
      rw [hp] at h3
      have := h.eq (Or.inl hp)
      rw [this, ← h4]
      exact h3
    | cons e t =>
      rw [hp] at h3
      have hle : leB β m := h4 ▸ h.le
      have he := h.post_not hT (e := e) (by simp [hp])
      have hek := h.kid hT (h.mem_post (e := e) (by simp [hp]))
      refine ⟨h3.1.of_leB_left hle, ?_, ?_⟩
      · have hne : e.2 ≠ n := by rintro hen; have := hek.2; rw [hen] at this; omega
        rw [Kid, Live, merge_next hne he.1 he.2 (by have := hek.1.1; omega) (by simp [hp]), h.segs.ends]
        refine ⟨⟨?_, hek.1.2⟩, h3.2.1.2.1, rfl, h3.2.1.2.2.2⟩
        have := hek.1.1
        simp only [St.merge]
        omega
      · refine h3.2.2.imp fun f hf x y hk => ?_
        have hf' : f ∈ q.post := by simp [hp, hf]
        refine h.kid_same hT hk (h.post_not hT hf').1 (h.post_not hT hf').2 ?_
        rw [hp]
        simp only [List.head?_cons, Option.map_some, ne_eq, Option.some.injEq]
        have h3' : Chain (Kid s.nodes s.fresh ((s.nodes n).lev - 1)) m ([e] ++ t) (s.nodes n).hi := h3
        obtain ⟨m', g1, g2⟩ := Chain.append.1 h3'
        exact Chain.ne g1 g2 (by simp) hf

end

end HS.Conc
