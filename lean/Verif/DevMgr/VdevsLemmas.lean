import Verif.DevMgr.Vdevs
import Mathlib.Data.List.Nodup
import Mathlib.Data.List.Range
import Mathlib.Data.List.Perm.Subperm

/-!
# Lemmas about chunk ids and chunk records
-/

namespace HS.DevMgr

/-- No two chunk records on the devices in `P` have the same chunk id. -/
def DistinctOn (w : World) (P : Nat → Prop) : Prop :=
  (∀ d, P d → ((w d).chunks.map (·.1)).Nodup) ∧
  ∀ d e, P d → P e → d ≠ e → ∀ c ∈ (w d).chunks, ∀ c' ∈ (w e).chunks, c.1 ≠ c'.1

theorem DistinctOn.mono {w : World} {P Q : Nat → Prop} (h : DistinctOn w P) (hq : ∀ d, Q d → P d) : DistinctOn w Q :=
  ⟨fun d hd => h.1 d (hq d hd), fun d e hd he => h.2 d e (hq d hd) (hq e he)⟩

theorem nextFree_fresh (used : List Nat) : nextFree used ∉ used := by
  unfold nextFree
  cases h : (List.range (used.length + 1)).find? (fun i => decide (i ∉ used)) with
  | some i =>
    have := List.find?_some h
    simpa using this
  | none =>
    exfalso
    rw [List.find?_eq_none] at h
    have hsub : ∀ i ∈ List.range (used.length + 1), i ∈ used := fun i hi => by simpa using h i hi
    have := List.subperm_of_subset (List.nodup_range (n := used.length + 1)) hsub
    have := this.length_le
    rw [List.length_range] at this
    omega

theorem takeIds_fresh (n : Nat) : ∀ used, (takeIds n used).Nodup ∧ ∀ i ∈ takeIds n used, i ∉ used := by
  induction n with
  | zero => intro used; simp [takeIds]
  | succ n ih =>
    intro used
    obtain ⟨h1, h2⟩ := ih (nextFree used :: used)
    unfold takeIds
    refine ⟨List.nodup_cons.2 ⟨fun h => h2 _ h List.mem_cons_self, h1⟩, ?_⟩
    intro i hi
    rcases List.mem_cons.1 hi with h | h
    · rw [h]; exact nextFree_fresh used
    · exact fun hu => h2 i h (List.mem_cons_of_mem _ hu)

theorem takeIds_length (n : Nat) : ∀ used, (takeIds n used).length = n := by
  induction n with
  | zero => intro used; rfl
  | succ n ih => intro used; unfold takeIds; rw [List.length_cons, ih]

theorem applyAll_snoc (w : World) (ws : List Wr) (x : Wr) : applyAll w (ws ++ [x]) = (applyAll w ws |> fun w => x.apply w) := by
  unfold applyAll; rw [List.foldl_append]; rfl

theorem applyAll_append (w : World) (a b : List Wr) : applyAll w (a ++ b) = applyAll (applyAll w a) b := by
  unfold applyAll; rw [List.foldl_append]

theorem apply_other {w : World} {x : Wr} {d : Nat} (h : d ≠ x.dev) : x.apply w d = w d := by
  unfold Wr.apply; rw [if_neg h]

theorem apply_same {w : World} {x : Wr} : x.apply w x.dev = x.change (w x.dev) := by
  unfold Wr.apply; rw [if_pos rfl]

theorem applyAll_other {ws : List Wr} {d : Nat} : ∀ {w : World}, (∀ x ∈ ws, x.dev ≠ d) → applyAll w ws d = w d := by
  induction ws with
  | nil => intro w _; rfl
  | cons x ws ih =>
    intro w h
    show applyAll (x.apply w) ws d = w d
    rw [ih (fun y hy => h y (List.mem_cons_of_mem _ hy)), apply_other (h x List.mem_cons_self).symm]

theorem prefixes_snoc {Q : List Wr → Prop} {ws : List Wr} {x : Wr} (h : ∀ k, Q (ws.take k)) (hx : Q (ws ++ [x])) :
    ∀ k, Q ((ws ++ [x]).take k) := by
  intro k
  by_cases hk : k ≤ ws.length
  · rw [List.take_append_of_le_length hk]; exact h k
  · rw [List.take_of_length_le (by rw [List.length_append, List.length_singleton]; omega)]; exact hx

theorem prefixes_full {Q : List Wr → Prop} {ws : List Wr} (h : ∀ k, Q (ws.take k)) : Q ws := by
  have := h ws.length; rwa [List.take_length] at this

/-- What holds while an operation makes its writes `ws`, on the devices `ds`. -/
structure Good (w : World) (ds : List Nat) (m : Mem) (ws : List Wr) : Prop where
  pre : ∀ k, DistinctOn (applyAll w (ws.take k)) (· ∈ ds)
  used : ∀ d ∈ ds, ∀ c ∈ (applyAll w ws d).chunks, c.1 ∈ m.used
  known : ∀ i d v, (i, d, v) ∈ m.chunks ↔ d ∈ ds ∧ (i, v) ∈ (applyAll w ws d).chunks
  devs : ∀ x ∈ ws, x.dev ∈ ds

theorem Good.addPdev {w : World} {ds : List Nat} {m : Mem} {ws : List Wr} (h : Good w ds m ws) {d : Nat} (hd : d ∈ ds)
    (v n : Nat) : Good w ds (addPdev v m d n).1 (ws ++ (addPdev v m d n).2) := by
  obtain ⟨f1, f2⟩ := takeIds_fresh n m.used
  have hdist := prefixes_full (Q := fun l => DistinctOn (applyAll w l) (· ∈ ds)) h.pre
  have hch : ∀ e, (applyAll w (ws ++ [Wr.chunks d ((takeIds n m.used).map (fun i => (i, v)))]) e).chunks =
      if e = d then (applyAll w ws d).chunks ++ (takeIds n m.used).map (fun i => (i, v)) else (applyAll w ws e).chunks := by
    intro e
    rw [applyAll_snoc]
    by_cases he : e = d
    · subst he
      rw [if_pos rfl]
      exact congrArg Dev.chunks (apply_same (w := applyAll w ws) (x := Wr.chunks e _))
    · rw [if_neg he]
      exact congrArg Dev.chunks (apply_other (w := applyAll w ws) (x := Wr.chunks d _) he)
  refine ⟨?_, ?_, ?_, ?_⟩
  · refine prefixes_snoc (Q := fun l => DistinctOn (applyAll w l) (· ∈ ds)) h.pre ⟨?_, ?_⟩
    · intro e he
      rw [hch]
      split
      · rw [List.map_append, List.map_map]
        have : ((takeIds n m.used).map ((fun x => x.1) ∘ fun i => ((i, v) : Nat × Nat))) = takeIds n m.used := by
          simp [Function.comp_def]
        rw [this]
        refine List.nodup_append.2 ⟨hdist.1 d hd, f1, ?_⟩
        intro a ha b hb hab
        obtain ⟨c, hc, rfl⟩ := List.mem_map.1 ha
        exact f2 b hb (by rw [← hab]; exact h.used d hd c hc)
      · exact hdist.1 e he
    · intro a b ha hb hab c hc c' hc'
      rw [hch] at hc hc'
      have key : ∀ e, e ∈ ds → ∀ x ∈ (applyAll w ws e).chunks, ∀ y ∈ (takeIds n m.used).map (fun i => ((i, v) : Nat × Nat)),
          x.1 ≠ y.1 := by
        intro e he x hx y hy hxy
        obtain ⟨i, hi, rfl⟩ := List.mem_map.1 hy
        exact f2 i hi (by have := h.used e he x hx; rw [hxy] at this; exact this)
      split at hc
      · rename_i h1
        rw [if_neg (by intro h2; exact hab (h1.trans h2.symm))] at hc'
        rcases List.mem_append.1 hc with h3 | h3
        · exact hdist.2 d b hd hb (by rw [← h1]; exact hab) c h3 c' hc'
        · exact (key b hb c' hc' c h3).symm
      · split at hc'
        · rename_i h1 h2
          rcases List.mem_append.1 hc' with h3 | h3
          · exact hdist.2 a d ha hd h1 c hc c' h3
          · exact key a ha c hc c' h3
        · exact hdist.2 a b ha hb hab c hc c' hc'
  · intro e he c hc
    show c.1 ∈ (takeIds n m.used).reverse ++ m.used
    have hc : c ∈ (applyAll w (ws ++ [Wr.chunks d ((takeIds n m.used).map (fun i => (i, v)))]) e).chunks := hc
    rw [hch] at hc
    split at hc
    · rcases List.mem_append.1 hc with h3 | h3
      · exact List.mem_append_right _ (h.used d hd c h3)
      · obtain ⟨i, hi, rfl⟩ := List.mem_map.1 h3
        exact List.mem_append_left _ (List.mem_reverse.2 hi)
    · exact List.mem_append_right _ (h.used e he c hc)
  · intro i e u
    show (i, e, u) ∈ m.chunks ++ (takeIds n m.used).map (fun i => (i, d, v)) ↔
      e ∈ ds ∧ (i, u) ∈ (applyAll w (ws ++ [Wr.chunks d ((takeIds n m.used).map (fun i => (i, v)))]) e).chunks
    rw [hch, List.mem_append, h.known]
    constructor
    · rintro (⟨h1, h2⟩ | h1)
      · refine ⟨h1, ?_⟩
        split
        · rename_i h3; rw [h3] at h2; exact List.mem_append_left _ h2
        · exact h2
      · obtain ⟨j, hj, hh⟩ := List.mem_map.1 h1
        cases hh
        exact ⟨hd, by rw [if_pos rfl]; exact List.mem_append_right _ (List.mem_map.2 ⟨_, hj, rfl⟩)⟩
    · rintro ⟨h1, h2⟩
      split at h2
      · rename_i h3
        rcases List.mem_append.1 h2 with h4 | h4
        · exact Or.inl ⟨h1, by rw [h3]; exact h4⟩
        · obtain ⟨j, hj, hh⟩ := List.mem_map.1 h4
          cases hh
          exact Or.inr (List.mem_map.2 ⟨_, hj, by rw [h3]⟩)
      · exact Or.inl ⟨h1, h2⟩
  · intro x hx
    rcases List.mem_append.1 hx with h1 | h1
    · exact h.devs x h1
    · have h1 : x ∈ [Wr.chunks d ((takeIds n m.used).map (fun i => (i, v)))] := h1
      rw [List.mem_singleton] at h1
      rw [h1]; exact hd

/-- A write that leaves the chunk records alone. -/
theorem Good.plain {w : World} {ds : List Nat} {m : Mem} {ws : List Wr} (h : Good w ds m ws) {x : Wr} (hd : x.dev ∈ ds)
    (hx : ∀ dev, (x.change dev).chunks = dev.chunks) : Good w ds m (ws ++ [x]) := by
  have hch : ∀ e, (applyAll w (ws ++ [x]) e).chunks = (applyAll w ws e).chunks := by
    intro e
    rw [applyAll_snoc]
    show ((x.apply (applyAll w ws)) e).chunks = _
    by_cases he : e = x.dev
    · rw [he, apply_same, hx]
    · rw [apply_other he]
  have hdist := prefixes_full (Q := fun l => DistinctOn (applyAll w l) (· ∈ ds)) h.pre
  refine ⟨prefixes_snoc (Q := fun l => DistinctOn (applyAll w l) (· ∈ ds)) h.pre ?_, ?_, ?_, ?_⟩
  · refine ⟨fun e he => by rw [hch]; exact hdist.1 e he, fun a b ha hb hab c hc c' hc' => ?_⟩
    rw [hch] at hc hc'
    exact hdist.2 a b ha hb hab c hc c' hc'
  · intro e he c hc
    rw [hch] at hc
    exact h.used e he c hc
  · intro i e u
    rw [hch]
    exact h.known i e u
  · intro y hy
    rcases List.mem_append.1 hy with h1 | h1
    · exact h.devs y h1
    · rw [List.mem_singleton] at h1; rw [h1]; exact hd

theorem Good.plains {w : World} {ds : List Nat} {m : Mem} {f : Nat → Wr} (hf : ∀ d, (f d).dev = d)
    (hx : ∀ d dev, ((f d).change dev).chunks = dev.chunks) :
    ∀ {l : List Nat} {ws : List Wr}, Good w ds m ws → (∀ d ∈ l, d ∈ ds) → Good w ds m (ws ++ l.map f) := by
  intro l
  induction l with
  | nil => intro ws h _; simpa using h
  | cons d l ih =>
    intro ws h hl
    have := ih (h.plain (x := f d) (by rw [hf]; exact hl d List.mem_cons_self) (hx d)) (fun e he => hl e (List.mem_cons_of_mem _ he))
    rw [List.append_assoc] at this
    exact this

/-! ## Loading -/

theorem foldl_pairs {α : Type} (f : Nat → α → Nat × Nat → α) (l : Nat → List (Nat × Nat)) (pd : List Nat) : ∀ (m : α),
    pd.foldl (fun m d => (l d).foldl (f d) m) m =
      (pd.flatMap (fun d => (l d).map (fun c => (d, c)))).foldl (fun m x => f x.1 m x.2) m := by
  induction pd with
  | nil => intro m; rfl
  | cons d pd ih =>
    intro m
    rw [List.foldl_cons, ih, List.flatMap_cons, List.foldl_append, List.foldl_map]

theorem mem_grow {vd : List (Option Bool)} {n : Nat} (h : none ∈ vd) : none ∈ grow vd n := List.mem_append_left _ h

/-- What holds after the chunks `done` have been found: a null pointer is there, or they are all known. -/
def Loaded (m : Mem) (done : List (Nat × (Nat × Nat))) : Prop :=
  none ∈ m.vd ∨ ((∀ i d v, (i, d, v) ∈ m.chunks ↔ (d, (i, v)) ∈ done) ∧ ∀ x ∈ done, x.2.1 ∈ m.used)

theorem found_all (l : List (Nat × (Nat × Nat))) : ∀ (m : Mem) (done : List (Nat × (Nat × Nat))),
    Loaded m done → ((done ++ l).map (fun x => x.2.1)).Nodup →
    Loaded (l.foldl (fun m x => foundChunk x.1 m x.2) m) (done ++ l) := by
  induction l with
  | nil => intro m done h _; simpa using h
  | cons x l ih =>
    intro m done h hn
    rw [List.foldl_cons]
    have e : done ++ x :: l = (done ++ [x]) ++ l := by simp
    rw [e] at hn ⊢
    refine ih _ _ ?_ hn
    rw [List.map_append, List.nodup_append] at hn
    have hn1 := hn.1
    rw [List.map_append, List.nodup_append] at hn1
    have hfresh : ∀ y ∈ done, y.2.1 ≠ x.2.1 := fun y hy =>
      hn1.2.2 y.2.1 (List.mem_map.2 ⟨y, hy, rfl⟩) x.2.1 (by simp)
    obtain ⟨d, i, v⟩ := x
    unfold foundChunk
    simp only
    split
    · rename_i h1
      exact Or.inl (List.mem_of_getElem? h1)
    · rcases h with h | ⟨h1, h2⟩
      · exact Or.inl (mem_grow h)
      · refine Or.inr ⟨?_, ?_⟩
        · intro j e u
          rw [List.mem_append, List.mem_append, List.mem_filter, List.mem_singleton, List.mem_singleton, h1]
          constructor
          · rintro (⟨h3, _⟩ | h3)
            · exact Or.inl h3
            · cases h3; exact Or.inr rfl
          · rintro (h3 | h3)
            · exact Or.inl ⟨h3, by simpa using hfresh _ h3⟩
            · cases h3; exact Or.inr rfl
        · intro y hy
          rcases List.mem_append.1 hy with h3 | h3
          · exact List.mem_cons_of_mem _ (h2 y h3)
          · rw [List.mem_singleton] at h3
            rw [h3]; exact List.mem_cons_self

/-- The chunk records of some devices. -/
def allChunks (w : World) (pd : List Nat) : List (Nat × (Nat × Nat)) :=
  pd.flatMap (fun d => (w d).chunks.map (fun c => (d, c)))

theorem mem_allChunks {w : World} {pd : List Nat} {x : Nat × (Nat × Nat)} :
    x ∈ allChunks w pd ↔ x.1 ∈ pd ∧ x.2 ∈ (w x.1).chunks := by
  unfold allChunks
  rw [List.mem_flatMap]
  constructor
  · rintro ⟨d, hd, hx⟩
    obtain ⟨c, hc, rfl⟩ := List.mem_map.1 hx
    exact ⟨hd, hc⟩
  · rintro ⟨h1, h2⟩
    exact ⟨x.1, h1, List.mem_map.2 ⟨x.2, h2, rfl⟩⟩

theorem allChunks_nodup {w : World} {pd : List Nat} (hp : pd.Nodup) (h : DistinctOn w (· ∈ pd)) :
    ((allChunks w pd).map (fun x => x.2.1)).Nodup := by
  unfold allChunks
  rw [List.map_flatMap, List.nodup_flatMap]
  refine ⟨?_, ?_⟩
  · intro d hd
    rw [List.map_map]
    exact h.1 d hd
  · refine List.Pairwise.imp_of_mem ?_ hp
    intro a b ha hb hab x hx hy
    simp only [List.map_map] at hx hy
    obtain ⟨c, hc, rfl⟩ := List.mem_map.1 hx
    obtain ⟨c', hc', he⟩ := List.mem_map.1 hy
    exact h.2 a b ha hb hab c hc c' hc' he.symm

theorem foundChunk_order (d : Nat) (m : Mem) (c : Nat × Nat) :
    (foundChunk d m c).order = m.order ∧ (foundChunk d m c).slots = m.slots := by
  unfold foundChunk
  simp only
  split <;> exact ⟨rfl, rfl⟩

theorem found_order (l : List (Nat × (Nat × Nat))) : ∀ (m : Mem),
    (l.foldl (fun m x => foundChunk x.1 m x.2) m).order = m.order ∧
    (l.foldl (fun m x => foundChunk x.1 m x.2) m).slots = m.slots := by
  induction l with
  | nil => intro m; exact ⟨rfl, rfl⟩
  | cons x l ih =>
    intro m
    rw [List.foldl_cons]
    obtain ⟨h1, h2⟩ := ih (foundChunk x.1 m x.2)
    obtain ⟨h3, h4⟩ := foundChunk_order x.1 m x.2
    exact ⟨h1.trans h3, h2.trans h4⟩

theorem loadVdevs_good {w : World} {pd news : List Nat} {m : Mem} (hp : pd.Nodup) (h : DistinctOn w (· ∈ pd))
    (hb : ∀ d ∈ news, (w d).chunks = []) (hl : loadVdevs w pd news = some m) :
    m.order = pd ∧ (m.slots = true → Good w pd m []) ∧ (m.slots = false → m.chunks = [] ∧ m.vd = []) := by
  unfold loadVdevs at hl
  generalize hvd : (match pd.head? with
    | some d => (w d).infos
    | none => []).foldl setVd [] = vd at hl
  simp only at hl
  split at hl
  · rename_i h0
    cases hl
    refine ⟨rfl, fun hs => ?_, fun _ => ⟨rfl, List.eq_nil_of_length_eq_zero h0⟩⟩
    have hs := of_decide_eq_true hs
    have hnil : ∀ d ∈ pd, (w d).chunks = [] := fun d hd => hb d (hs d hd)
    refine ⟨fun k => by rw [List.take_nil]; exact h, ?_, ?_, by simp⟩
    · intro d hd c hc
      rw [show applyAll w [] d = w d from rfl, hnil d hd] at hc
      cases hc
    · intro i d v
      constructor
      · intro hx; cases hx
      · rintro ⟨hd, hx⟩
        rw [show applyAll w [] d = w d from rfl, hnil d hd] at hx
        cases hx
  · split at hl
    · cases hl
    · rename_i hnone
      cases hl
      have hlo : Loaded (⟨pd, vd, [], [], true⟩ : Mem) [] := Or.inr ⟨by simp, by simp⟩
      have e := foldl_pairs foundChunk (fun d => (w d).chunks) pd ⟨pd, vd, [], [], true⟩
      rw [e] at hnone ⊢
      have hf := found_all (allChunks w pd) ⟨pd, vd, [], [], true⟩ [] hlo (by simpa using allChunks_nodup hp h)
      have ho := found_order (allChunks w pd) ⟨pd, vd, [], [], true⟩
      refine ⟨ho.1, fun _ => ?_, fun hs => by have := ho.2.symm.trans hs; cases this⟩
      rcases hf with hf | ⟨h1, h2⟩
      · exact absurd hf hnone
      · refine ⟨fun k => by rw [List.take_nil]; exact h, ?_, ?_, by simp⟩
        · intro d hd c hc
          exact h2 (d, c) (by rw [List.nil_append]; exact mem_allChunks.2 ⟨hd, hc⟩)
        · intro i d v
          have := h1 i d v
          rw [List.nil_append, mem_allChunks] at this
          exact this

/-! ## The operations -/

theorem Good.growOne {w : World} {ds : List Nat} {acc : Mem × List Wr} {pre : List Wr}
    (h : Good w ds acc.1 (pre ++ acc.2)) {d : Nat} (hd : d ∈ ds) (cnt : Nat → Nat) (had : List (Nat × Nat × Nat)) (v : Nat) :
    Good w ds (growOne cnt had v acc d).1 (pre ++ (growOne cnt had v acc d).2) := by
  unfold DevMgr.growOne
  split
  · exact h
  · have h1 := h.addPdev hd v (cnt d)
    have h2 := h1.plain (x := Wr.info d v false) hd (fun _ => rfl)
    simpa [List.append_assoc] using h2

theorem growOne_order (cnt : Nat → Nat) (had : List (Nat × Nat × Nat)) (v : Nat) (acc : Mem × List Wr) (d : Nat) :
    (growOne cnt had v acc d).1.order = acc.1.order ∧ (growOne cnt had v acc d).1.vd = acc.1.vd ∧
    (growOne cnt had v acc d).1.slots = acc.1.slots := by
  unfold growOne
  split <;> exact ⟨rfl, rfl, rfl⟩

theorem Good.growAll {w : World} {ds : List Nat} (cnt : Nat → Nat) (had : List (Nat × Nat × Nat)) (v : Nat) {pre : List Wr} :
    ∀ {l : List Nat} {acc : Mem × List Wr}, Good w ds acc.1 (pre ++ acc.2) → (∀ d ∈ l, d ∈ ds) →
    Good w ds (l.foldl (DevMgr.growOne cnt had v) acc).1 (pre ++ (l.foldl (DevMgr.growOne cnt had v) acc).2) ∧
    (l.foldl (DevMgr.growOne cnt had v) acc).1.order = acc.1.order ∧
    (l.foldl (DevMgr.growOne cnt had v) acc).1.vd = acc.1.vd ∧
    (l.foldl (DevMgr.growOne cnt had v) acc).1.slots = acc.1.slots := by
  intro l
  induction l with
  | nil => intro acc h _; exact ⟨h, rfl, rfl, rfl⟩
  | cons d l ih =>
    intro acc h hl
    rw [List.foldl_cons]
    obtain ⟨i1, i2, i3, i4⟩ := ih (h.growOne (hl d List.mem_cons_self) cnt had v) (fun e he => hl e (List.mem_cons_of_mem _ he))
    obtain ⟨o1, o2, o3⟩ := growOne_order cnt had v acc d
    exact ⟨i1, i2.trans o1, i3.trans o2, i4.trans o3⟩

theorem Good.growVdevs {w : World} {ds : List Nat} (cnt : Nat → Nat → Nat) {pre : List Wr} {acc : Mem × List Wr}
    (h : Good w ds acc.1 (pre ++ acc.2)) (ho : acc.1.order = ds) (n : Nat) :
    Good w ds (growVdevs cnt acc n).1 (pre ++ (growVdevs cnt acc n).2) ∧
    (DevMgr.growVdevs cnt acc n).1.order = ds ∧ (DevMgr.growVdevs cnt acc n).1.vd = acc.1.vd ∧
    (DevMgr.growVdevs cnt acc n).1.slots = acc.1.slots := by
  induction n with
  | zero => exact ⟨h, ho, rfl, rfl⟩
  | succ n ih =>
    obtain ⟨i1, i2, i3, i4⟩ := ih
    unfold DevMgr.growVdevs
    simp only
    split
    · obtain ⟨g1, g2, g3, g4⟩ := Good.growAll (cnt n) (DevMgr.growVdevs cnt acc n).1.chunks n i1
        (l := (DevMgr.growVdevs cnt acc n).1.order) (by rw [i2]; exact fun _ h => h)
      exact ⟨g1, g2.trans i2, g3.trans i3, g4.trans i4⟩
    · exact ⟨i1, i2, i3, i4⟩

theorem Good.spreadAll {w : World} {ds : List Nat} (cnt : Nat → Nat) (v : Nat) :
    ∀ {l : List Nat} {acc : Mem × List Wr}, Good w ds acc.1 acc.2 → (∀ d ∈ l, d ∈ ds) →
    Good w ds (l.foldl (spreadOne cnt v) acc).1 (l.foldl (spreadOne cnt v) acc).2 ∧
    (l.foldl (spreadOne cnt v) acc).1.order = acc.1.order ∧
    (l.foldl (spreadOne cnt v) acc).1.vd = acc.1.vd ∧
    (l.foldl (spreadOne cnt v) acc).1.slots = acc.1.slots := by
  intro l
  induction l with
  | nil => intro acc h _; exact ⟨h, rfl, rfl, rfl⟩
  | cons d l ih =>
    intro acc h hl
    rw [List.foldl_cons]
    obtain ⟨i1, i2, i3, i4⟩ := ih (acc := spreadOne cnt v acc d) (h.addPdev (hl d List.mem_cons_self) v (cnt d))
      (fun e he => hl e (List.mem_cons_of_mem _ he))
    exact ⟨i1, i2, i3, i4⟩

end HS.DevMgr
