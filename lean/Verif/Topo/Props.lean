import Verif.Topo.Model
import Mathlib.Data.Finite.Defs
import Mathlib.Data.Fintype.EquivFin
import Mathlib.Data.Fintype.Pigeonhole
import Mathlib.Logic.Function.Iterate
import Mathlib.Tactic

/-!
# C22: superblock consumers are recovered after their dependencies
-/
namespace HS.Topo

variable {V : Type} [DecidableEq V]

/-! ## Specification -/

/-- `a` must come before `b`. -/
def Edge (g : Dag V) (a b : V) : Prop := ∃ es, (a, es) ∈ g ∧ b ∈ es

/-- Some vertex is, directly or indirectly, its own prerequisite. -/
def Cyclic (E : V → V → Prop) : Prop := ∃ v, Relation.TransGen E v v

/-- `a` occurs somewhere before every occurrence of `b`. -/
def Before (l : List V) (a b : V) : Prop := ∀ l1 l2, l = l1 ++ b :: l2 → a ∈ l1

/-! ## The loop -/

theorem relax_ok (es : List V) (deg : V → Int) (q : List V) (h : ∀ x, (es.count x : Int) ≤ deg x) :
    (∀ x, (relax deg q es).1 x = deg x - es.count x) ∧
    ∃ new, (relax deg q es).2 = q ++ new ∧ new.Nodup ∧ ∀ x, x ∈ new ↔ x ∈ es ∧ deg x = es.count x := by
  induction es generalizing deg q with
  | nil => exact ⟨by simp [relax], [], by simp [relax]⟩
  | cons e es ih =>
    have h' : ∀ x, (es.count x : Int) ≤ (if x = e then deg x - 1 else deg x) := by
      intro x
      have := h x
      rw [List.count_cons] at this
      by_cases hx : x = e
      · subst hx; simp at this ⊢; omega
      · have hx' : ¬ e = x := fun e => hx e.symm
        simp [hx, hx'] at this ⊢; omega
    obtain ⟨h1, new, h2, h3, h4⟩ := ih (fun x => if x = e then deg x - 1 else deg x)
      (if (if e = e then deg e - 1 else deg e) = 0 then q ++ [e] else q) h'
    have he := h e
    rw [List.count_cons_self] at he
    refine ⟨fun x => ?_, (if deg e = 1 then [e] else []) ++ new, ?_, ?_, fun x => ?_⟩
    · unfold relax
      rw [h1 x, List.count_cons]
      by_cases hx : x = e
      · subst hx; simp; omega
      · have hx' : ¬ e = x := fun e => hx e.symm
        simp [hx, hx']
    · unfold relax
      rw [h2]
      by_cases hd : deg e = 1
      · simp [hd]
      · have : ¬ (deg e - 1 = 0) := by omega
        simp [hd, this]
    · by_cases hd : deg e = 1
      · have hc : es.count e = 0 := by omega
        simp only [hd, if_true, List.singleton_append, List.nodup_cons]
        refine ⟨fun hm => ?_, h3⟩
        exact List.count_eq_zero.1 hc ((h4 e).1 hm).1
      · simpa [hd] using h3
    · rw [List.mem_append, h4, List.mem_cons, List.count_cons]
      by_cases hx : x = e
      · subst hx
        by_cases hd : deg x = 1
        · have hc : es.count x = 0 := by omega
          simp [hd, hc]
        · simp only [hd, if_false, List.not_mem_nil, false_or, if_true, true_or, true_and, beq_self_eq_true]
          constructor
          · rintro ⟨-, h⟩; push_cast; omega
          · intro h
            push_cast at h
            refine ⟨?_, by omega⟩
            by_contra hn
            rw [List.count_eq_zero.2 hn] at h
            simp at h; exact hd h
      · have hx' : ¬ e = x := fun e => hx e.symm
        simp only [hx, hx', if_false, false_or, Nat.add_zero, beq_iff_eq]
        by_cases hd : deg e = 1 <;> simp [hd, hx]

/-- Edges out of vertices not yet output. -/
def left (g : Dag V) (out : List V) (x : V) : Nat :=
  ((g.filter (fun y => decide (y.1 ∉ out))).flatMap Prod.snd).count x

theorem left_cons (k : V) (es : List V) (g : Dag V) (out : List V) (x : V) :
    left ((k, es) :: g) out x = (if k ∈ out then 0 else es.count x) + left g out x := by
  unfold left
  by_cases h : k ∈ out <;> simp [h, List.count_append]

theorem edges_cons (k : V) (es : List V) (g : Dag V) (v : V) :
    edges ((k, es) :: g) v = if v = k then es else edges g v := by
  unfold edges
  by_cases h : v = k
  · subst h; simp
  · have : (v == k) = false := by simpa using h
    simp [List.lookup_cons, h, this]

theorem edges_nokey {g : Dag V} {v : V} (h : v ∉ keys g) : edges g v = [] := by
  induction g with
  | nil => rfl
  | cons y g ih =>
    obtain ⟨k, es⟩ := y
    simp only [keys, List.map_cons, List.mem_cons, not_or] at h
    rw [edges_cons, if_neg h.1]
    exact ih h.2

theorem left_step {g : Dag V} (nd : (keys g).Nodup) {out : List V} {v : V} (hv : v ∉ out) (x : V) :
    left g out x = left g (out ++ [v]) x + (edges g v).count x := by
  induction g with
  | nil => rfl
  | cons y g ih =>
    obtain ⟨k, es⟩ := y
    simp only [keys, List.map_cons, List.nodup_cons] at nd
    rw [left_cons, left_cons, edges_cons]
    by_cases h : v = k
    · subst h
      have hk : edges g v = [] := edges_nokey nd.1
      have := ih nd.2
      rw [hk] at this
      simp only [hv, if_false, List.mem_append, List.mem_singleton, or_true, if_true, Nat.zero_add]
      simp only [List.count_nil] at this
      omega
    · have hkv : ¬ k = v := fun e => h e.symm
      have := ih nd.2
      simp only [h, if_false, List.mem_append, List.mem_singleton, hkv, or_false]
      omega

theorem edge_iff {g : Dag V} (nd : (keys g).Nodup) (a b : V) : Edge g a b ↔ b ∈ edges g a := by
  induction g with
  | nil => simp [Edge, edges]
  | cons y g ih =>
    obtain ⟨k, es⟩ := y
    simp only [keys, List.map_cons, List.nodup_cons] at nd
    rw [edges_cons]
    have ih := ih nd.2
    unfold Edge at ih ⊢
    by_cases h : a = k
    · subst h
      simp only [if_true, List.mem_cons, Prod.mk.injEq, true_and]
      constructor
      · rintro ⟨es', rfl | h1, h2⟩
        · exact h2
        · exact absurd (List.mem_map_of_mem (f := Prod.fst) h1) nd.1
      · intro h; exact ⟨es, Or.inl rfl, h⟩
    · simp only [h, if_false, List.mem_cons, Prod.mk.injEq, false_and, false_or]
      exact ih

theorem left_pos {g : Dag V} {out : List V} {x : V} :
    0 < left g out x ↔ ∃ a, a ∉ out ∧ Edge g a x := by
  unfold left Edge
  rw [List.count_pos_iff, List.mem_flatMap]
  constructor
  · rintro ⟨⟨k, es⟩, h1, h2⟩
    rw [List.mem_filter] at h1
    exact ⟨k, by simpa using h1.2, es, h1.1, h2⟩
  · rintro ⟨a, h1, es, h2, h3⟩
    exact ⟨(a, es), List.mem_filter.2 ⟨h2, by simpa using h1⟩, h3⟩

theorem mem_verts {g : Dag V} {x : V} : x ∈ verts g ↔ x ∈ keys g ∨ ∃ a, Edge g a x := by
  unfold verts Edge
  rw [List.mem_dedup, List.mem_append, List.mem_flatMap]
  refine or_congr Iff.rfl ⟨?_, ?_⟩
  · rintro ⟨⟨a, es⟩, h1, h2⟩; exact ⟨a, es, h1, h2⟩
  · rintro ⟨a, es, h1, h2⟩; exact ⟨(a, es), h1, h2⟩

/-- Loop invariant. -/
structure LInv (g : Dag V) (deg : V → Int) (q out : List V) : Prop where
  nd : (out ++ q).Nodup
  deg : ∀ x, deg x = left g out x
  mem : ∀ x, x ∈ out ++ q ↔ x ∈ verts g ∧ left g out x = 0
  ord : ∀ l1 b l2, out = l1 ++ b :: l2 → ∀ a, Edge g a b → a ∈ l1

theorem LInv.step {g : Dag V} (ndk : (keys g).Nodup) {deg : V → Int} {v : V} {q out : List V}
    (h : LInv g deg (v :: q) out) :
    LInv g (relax deg q (edges g v)).1 (relax deg q (edges g v)).2 (out ++ [v]) := by
  have hnd := h.nd
  have hv : v ∉ out := fun hm => (List.nodup_append.1 hnd).2.2 v hm v (by simp) rfl
  have hs := fun x => left_step ndk (out := out) hv x
  obtain ⟨h1, new, h2, h3, h4⟩ := relax_ok (edges g v) deg q (by
    intro x; rw [h.deg x, hs x]; push_cast; omega)
  have hnew : ∀ x ∈ new, x ∉ out ++ v :: q := by
    intro x hx hm
    have h0 := ((h.mem x).1 hm).2
    have := hs x
    have hc : 0 < (edges g v).count x := List.count_pos_iff.2 ((h4 x).1 hx).1
    omega
  refine ⟨?_, fun x => ?_, fun x => ?_, ?_⟩
  · rw [h2, List.append_assoc, List.singleton_append, ← List.cons_append, ← List.append_assoc, List.nodup_append]
    exact ⟨hnd, h3, fun x hx y hy he => hnew y hy (he ▸ hx)⟩
  · rw [h1, h.deg, hs x]; push_cast; ring
  · rw [h2, List.append_assoc, List.singleton_append, ← List.cons_append, ← List.append_assoc, List.mem_append, h.mem, h4,
      h.deg, hs x]
    constructor
    · rintro (⟨ha, hb⟩ | ⟨ha, hb⟩)
      · exact ⟨ha, by omega⟩
      · refine ⟨mem_verts.2 (Or.inr ⟨v, (edge_iff ndk v x).2 ha⟩), by omega⟩
    · rintro ⟨ha, hb⟩
      by_cases hc : x ∈ edges g v
      · right; exact ⟨hc, by omega⟩
      · left; exact ⟨ha, by rw [hb, List.count_eq_zero.2 hc]⟩
  · intro l1 b l2 he a hab
    rcases List.eq_nil_or_concat l2 with rfl | ⟨l2', z, rfl⟩
    · obtain ⟨rfl, hb⟩ := List.append_inj' he rfl
      simp only [List.cons.injEq, and_true] at hb
      subst hb
      by_contra hn
      have h0 := ((h.mem v).1 (by simp)).2
      have := left_pos.2 ⟨a, hn, hab⟩
      omega
    · have he' : out ++ [v] = (l1 ++ b :: l2') ++ [z] := by rw [he]; simp
      obtain ⟨e1, -⟩ := List.append_inj' he' rfl
      exact h.ord l1 b l2' e1 a hab

theorem loop_ok {g : Dag V} (ndk : (keys g).Nodup) (n : Nat) (deg : V → Int) (q out : List V)
    (h : LInv g deg q out) (hn : (verts g).length ≤ n + out.length) :
    ∃ res deg', loop g n deg q out = some res ∧ LInv g deg' [] res := by
  induction n generalizing deg q out with
  | zero =>
    cases q with
    | nil => exact ⟨out, deg, by simp [loop], h⟩
    | cons v q =>
      exfalso
      have hsub : (out ++ v :: q) ⊆ verts g := fun x hx => ((h.mem x).1 hx).1
      have := (List.subperm_of_subset h.nd hsub).length_le
      simp at this
      omega
  | succ n ih =>
    cases q with
    | nil => exact ⟨out, deg, by simp [loop], h⟩
    | cons v q =>
      obtain ⟨res, deg', h1, h2⟩ := ih _ _ _ (h.step ndk) (by simp; omega)
      exact ⟨res, deg', by simpa [loop] using h1, h2⟩

theorem linv_init {g : Dag V} {q : List V}
    (hq : q.Perm ((verts g).filter (fun v => decide (indeg g v = 0)))) :
    LInv g (indeg g) q [] := by
  have hl : ∀ x, indeg g x = left g [] x := by intro x; simp [indeg, left]
  refine ⟨?_, hl, ?_, by simp⟩
  · rw [List.nil_append, hq.nodup_iff]; exact (List.nodup_dedup _).filter _
  · intro x
    rw [List.nil_append, hq.mem_iff, List.mem_filter, hl]
    simp

/-- A finite non-empty set in which every element has a prerequisite in the set has a cycle. -/
theorem cycle_of_no_source {E : V → V → Prop} (S : List V) (hne : ∃ v, v ∈ S)
    (h : ∀ v ∈ S, ∃ u ∈ S, E u v) : Cyclic E := by
  choose! f hf using h
  obtain ⟨v, hv⟩ := hne
  have hin : ∀ n, f^[n] v ∈ S := by
    intro n
    induction n with
    | zero => exact hv
    | succ n ih => rw [Function.iterate_succ_apply']; exact (hf _ ih).1
  obtain ⟨i, j, hij, he⟩ := Finite.exists_ne_map_eq_of_infinite (fun n : ℕ => (⟨f^[n] v, hin n⟩ : {x // x ∈ S}))
  have he : f^[i] v = f^[j] v := congrArg Subtype.val he
  have key : ∀ n k, Relation.TransGen E (f^[n + k + 1] v) (f^[n] v) := by
    intro n k
    induction k with
    | zero => rw [Nat.add_zero, Function.iterate_succ_apply']; exact .single (hf _ (hin n)).2
    | succ k ih =>
      refine Relation.TransGen.head ?_ ih
      have := (hf _ (hin (n + k + 1))).2
      rwa [← Function.iterate_succ_apply' f] at this
  rcases lt_or_gt_of_ne hij with hlt | hlt
  · have := key i (j - i - 1)
    rw [show i + (j - i - 1) + 1 = j by omega, ← he] at this
    exact ⟨_, this⟩
  · have := key j (i - j - 1)
    rw [show j + (i - j - 1) + 1 = i by omega, he] at this
    exact ⟨_, this⟩

/-- Output elements are on no cycle. -/
theorem out_acyclic {g : Dag V} {deg : V → Int} {out : List V} (h : LInv g deg [] out) {a b : V}
    (hp : Relation.TransGen (Edge g) a b) : ∀ l1 l2, out = l1 ++ b :: l2 → a ∈ l1 := by
  induction hp with
  | single e => intro l1 l2 ho; exact h.ord l1 _ l2 ho _ e
  | @tail b' c hp e ih =>
    intro l1 l2 ho
    have hb' := h.ord l1 _ l2 ho _ e
    obtain ⟨m1, m2, rfl⟩ := List.append_of_mem hb'
    have := ih m1 (m2 ++ c :: l2) (by rw [ho]; simp)
    simp [this]

/-- **C22**, sorting: for every dependency graph and every iteration order of the hash maps, the
sort terminates; it reports a cycle exactly if there is one; if there is none, every vertex
occurs exactly once in the result, after everything it depends on. -/
theorem C22_sort_correct (g : Dag V) (ndk : (keys g).Nodup) (ord : List V → List V) (hord : ∀ l, (ord l).Perm l) :
    ∃ n res, (∀ fuel, n ≤ fuel → sort ord fuel g = some res) ∧
      (res.1 = true ↔ Cyclic (Edge g)) ∧
      (¬ Cyclic (Edge g) → res.2.Nodup ∧ (∀ v, v ∈ res.2 ↔ v ∈ keys g ∨ ∃ a, Edge g a v) ∧
        ∀ a b, Edge g a b → Before res.2 a b) := by
  have hi := linv_init (hord ((verts g).filter (fun v => decide (indeg g v = 0))))
  obtain ⟨out, deg', h1, h2⟩ := loop_ok ndk (verts g).length _ _ _ hi (by simp)
  have hind : ∀ fuel, (verts g).length ≤ fuel →
      loop g fuel (indeg g) (ord ((verts g).filter (fun v => decide (indeg g v = 0)))) [] = some out := by
    -- more fuel does not change the result
    have mono : ∀ (n : Nat) (deg : V → Int) (q o r : List V), loop g n deg q o = some r →
        ∀ m, n ≤ m → loop g m deg q o = some r := by
      intro n
      induction n with
      | zero =>
        intro deg q o r h m _
        cases q with
        | nil => cases m <;> simpa [loop] using h
        | cons v q => simp [loop] at h
      | succ n ih =>
        intro deg q o r h m hm
        cases q with
        | nil => cases m <;> simpa [loop] using h
        | cons v q =>
          obtain ⟨m, rfl⟩ : ∃ k, m = k + 1 := ⟨m - 1, by omega⟩
          simp only [loop] at h ⊢
          exact ih _ _ _ _ h m (by omega)
    exact fun fuel hf => mono _ _ _ _ _ h1 fuel hf
  have hnd : out.Nodup := by simpa using h2.nd
  have hmem : ∀ x, x ∈ out ↔ x ∈ verts g ∧ left g out x = 0 := by simpa using h2.mem
  -- without a cycle everything is output
  have hall : ¬ Cyclic (Edge g) → ∀ x ∈ verts g, x ∈ out := by
    intro hc x hx
    by_contra hn
    refine hc (cycle_of_no_source ((verts g).filter (fun y => decide (y ∉ out))) ⟨x, ?_⟩ ?_)
    · simp [hx, hn]
    · intro y hy
      simp only [List.mem_filter, decide_eq_true_eq] at hy
      have : 0 < left g out y := by
        rcases Nat.eq_zero_or_pos (left g out y) with h0 | h0
        · exact absurd ((hmem y).2 ⟨hy.1, h0⟩) hy.2
        · exact h0
      obtain ⟨a, ha, hab⟩ := left_pos.1 this
      refine ⟨a, ?_, hab⟩
      obtain ⟨es, h3, -⟩ := hab
      simp only [List.mem_filter, decide_eq_true_eq]
      exact ⟨mem_verts.2 (Or.inl (List.mem_map_of_mem (f := Prod.fst) h3)), ha⟩
  refine ⟨(verts g).length, (decide (out.length ≠ sizeAfter g out), out), fun fuel hf => ?_, ?_, ?_⟩
  · simp [sort, hind fuel hf]
  · show decide (out.length ≠ sizeAfter g out) = true ↔ _
    rw [decide_eq_true_eq]
    unfold sizeAfter
    constructor
    · intro hne
      by_contra hc
      apply hne
      have hp : (keys g ++ out).dedup.Perm out := by
        rw [List.perm_ext_iff_of_nodup (List.nodup_dedup _) hnd]
        intro x
        rw [List.mem_dedup, List.mem_append]
        exact ⟨fun h => h.elim (fun h => hall hc x (mem_verts.2 (Or.inl h))) id, Or.inr⟩
      exact hp.length_eq.symm
    · rintro ⟨v, hv⟩ he
      have hvo : v ∉ out := by
        intro hm
        obtain ⟨l1, l2, ho⟩ := List.append_of_mem hm
        have := out_acyclic h2 hv l1 l2 ho
        rw [ho] at hnd
        exact (List.nodup_append.1 hnd).2.2 v this v (by simp) rfl
      have hvk : v ∈ keys g := by
        obtain ⟨w, ⟨es, hw, -⟩, -⟩ := Relation.TransGen.head'_iff.1 hv
        exact List.mem_map_of_mem (f := Prod.fst) hw
      have hsub : (v :: out) ⊆ (keys g ++ out).dedup := by
        intro x hx
        rw [List.mem_dedup, List.mem_append]
        rcases List.mem_cons.1 hx with rfl | hx
        · exact Or.inl hvk
        · exact Or.inr hx
      have := (List.subperm_of_subset (List.nodup_cons.2 ⟨hvo, hnd⟩) hsub).length_le
      simp only [List.length_cons] at this
      omega
  · intro hc
    refine ⟨hnd, fun v => ?_, fun a b hab l1 l2 ho => h2.ord l1 b l2 ho a hab⟩
    rw [← mem_verts]
    exact ⟨fun h => ((hmem v).1 h).1, hall hc v⟩

/-! ## Registration and recovery -/

/-- The calls to `register_handler`, in order. -/
abbrev Calls (V : Type) := List (V × Option (List V))

/-- Consumer `t` was registered with `x` among its dependencies. -/
def Declared (cs : Calls V) (x t : V) : Prop := ∃ ds, (t, some ds) ∈ cs ∧ x ∈ ds

def registerAll (cs : Calls V) : Reg V := cs.foldl (fun r c => register r c.1 c.2) ⟨[], []⟩

theorem keys_push (g : Dag V) (x t : V) : keys (push g x t) = if x ∈ keys g then keys g else keys g ++ [x] := by
  unfold push
  by_cases h : x ∈ keys g
  · rw [if_pos h, if_pos h]
    unfold keys
    rw [List.map_map]
    congr 1
    funext y
    by_cases hy : y.1 = x <;> simp [hy]
  · rw [if_neg h, if_neg h]
    simp [keys]

theorem edge_push (g : Dag V) (x t a b : V) : Edge (push g x t) a b ↔ Edge g a b ∨ (a = x ∧ b = t) := by
  unfold push Edge
  by_cases h : x ∈ keys g
  · simp only [h, if_true, List.mem_map]
    constructor
    · rintro ⟨es, ⟨⟨k, es0⟩, h1, h2⟩, h3⟩
      by_cases hk : k = x
      · simp only [hk, if_true, Prod.mk.injEq] at h2
        obtain ⟨rfl, rfl⟩ := h2
        rw [List.mem_append, List.mem_singleton] at h3
        rcases h3 with h3 | h3
        · exact Or.inl ⟨es0, hk ▸ h1, h3⟩
        · exact Or.inr ⟨rfl, h3⟩
      · simp only [hk, if_false, Prod.mk.injEq] at h2
        obtain ⟨rfl, rfl⟩ := h2
        exact Or.inl ⟨es0, h1, h3⟩
    · rintro (⟨es, h1, h2⟩ | ⟨rfl, rfl⟩)
      · by_cases ha : a = x
        · exact ⟨es ++ [t], ⟨(a, es), h1, by simp [ha]⟩, by simp [h2]⟩
        · exact ⟨es, ⟨(a, es), h1, by simp [ha]⟩, h2⟩
      · obtain ⟨⟨k, es⟩, h1, rfl⟩ := List.mem_map.1 h
        exact ⟨es ++ [b], ⟨(k, es), h1, by simp⟩, by simp⟩
  · simp only [h, if_false, List.mem_append, List.mem_singleton, Prod.mk.injEq]
    constructor
    · rintro ⟨es, h1 | ⟨rfl, rfl⟩, h2⟩
      · exact Or.inl ⟨es, h1, h2⟩
      · exact Or.inr ⟨rfl, by simpa using h2⟩
    · rintro (⟨es, h1, h2⟩ | ⟨rfl, rfl⟩)
      · exact ⟨es, Or.inl h1, h2⟩
      · exact ⟨[b], Or.inr ⟨rfl, rfl⟩, by simp⟩

/-- `m_sub_info` as a partial function. -/
def Info (l : List (V × Bool)) (f : V → Option Bool) : Prop :=
  (l.map Prod.fst).Nodup ∧ ∀ t b, (t, b) ∈ l ↔ f t = some b

theorem Info.mem {l : List (V × Bool)} {f : V → Option Bool} (h : Info l f) (t : V) :
    t ∈ l.map Prod.fst ↔ ∃ b, f t = some b := by
  rw [List.mem_map]
  constructor
  · rintro ⟨⟨t', b⟩, h1, rfl⟩; exact ⟨b, (h.2 t' b).1 h1⟩
  · rintro ⟨b, hb⟩; exact ⟨(t, b), (h.2 t b).2 hb, rfl⟩

theorem Info.set {l : List (V × Bool)} {f : V → Option Bool} (h : Info l f) (t : V) (b : Bool) :
    Info (setInfo l t b) (fun x => if x = t then some b else f x) := by
  unfold setInfo
  by_cases ht : t ∈ l.map Prod.fst
  · rw [if_pos ht]
    constructor
    · rw [List.map_map]
      have : (Prod.fst ∘ fun x : V × Bool => if x.1 = t then (t, b) else x) = Prod.fst := by
        funext x; by_cases hx : x.1 = t <;> simp [hx]
      rw [this]; exact h.1
    · intro x y
      rw [List.mem_map]
      constructor
      · rintro ⟨⟨x', y'⟩, h1, h2⟩
        by_cases hx : x' = t
        · simp only [hx, if_true, Prod.mk.injEq] at h2
          obtain ⟨rfl, rfl⟩ := h2
          simp
        · simp only [hx, if_false, Prod.mk.injEq] at h2
          obtain ⟨rfl, rfl⟩ := h2
          simp only [hx, if_false]
          exact (h.2 _ _).1 h1
      · intro h1
        by_cases hx : x = t
        · simp only [hx, if_true, Option.some.injEq] at h1
          subst h1; subst hx
          obtain ⟨⟨k, y'⟩, h2, rfl⟩ := List.mem_map.1 ht
          exact ⟨(k, y'), h2, by simp⟩
        · simp only [hx, if_false] at h1
          exact ⟨(x, y), (h.2 _ _).2 h1, by simp [hx]⟩
  · rw [if_neg ht]
    constructor
    · rw [List.map_append, List.nodup_append]
      exact ⟨h.1, by simp, by intro x hx y hy he; simp at hy; subst hy; subst he; exact ht hx⟩
    · intro x y
      rw [List.mem_append, List.mem_singleton, h.2, Prod.mk.injEq]
      by_cases hx : x = t
      · subst hx
        have hf : f x = none := by
          cases hfx : f x with
          | none => rfl
          | some b => exact absurd ((h.mem x).2 ⟨b, hfx⟩) ht
        simp [hf, eq_comm]
      · simp [hx]

theorem Info.touch {l : List (V × Bool)} {f : V → Option Bool} (h : Info l f) (t : V) :
    Info (touchInfo l t) (fun x => if x = t then some ((f t).getD false) else f x) := by
  by_cases ht : t ∈ l.map Prod.fst
  · unfold touchInfo
    rw [if_pos ht]
    obtain ⟨b, hb⟩ := (h.mem t).1 ht
    have : (fun x => if x = t then some ((f t).getD false) else f x) = f := by
      funext x; by_cases hx : x = t
      · subst hx; simp [hb]
      · simp [hx]
    rw [this]; exact h
  · have := h.set t false
    have e : touchInfo l t = setInfo l t false := by simp [touchInfo, setInfo, ht]
    rw [e]
    have hf : f t = none := by
      cases hfx : f t with
      | none => rfl
      | some b => exact absurd ((h.mem t).2 ⟨b, hfx⟩) ht
    simpa [hf] using this

/-- The registry after some calls. -/
structure RInv (cs : Calls V) (r : Reg V) : Prop where
  nd : (keys r.graph).Nodup
  ndi : (r.info.map Prod.fst).Nodup
  keys : ∀ x, x ∈ keys r.graph ↔ ∃ t, Declared cs x t
  edge : ∀ x t, Edge r.graph x t ↔ Declared cs x t
  /-- has_deps is set exactly for consumers registered with a dependency list and for those listed. -/
  dep : ∀ t, (t, true) ∈ r.info ↔ (∃ ds, (t, some ds) ∈ cs) ∨ ∃ u, Declared cs t u
  ind : ∀ t, (t, false) ∈ r.info ↔ (t, none) ∈ cs ∧ ¬ ((∃ ds, (t, some ds) ∈ cs) ∨ ∃ u, Declared cs t u)

theorem addDeps_graph (r : Reg V) (t : V) (ds : List V) (nd : (keys r.graph).Nodup) :
    (keys (addDeps r t ds).graph).Nodup ∧
    (∀ x, x ∈ keys (addDeps r t ds).graph ↔ x ∈ keys r.graph ∨ x ∈ ds) ∧
    (∀ a b, Edge (addDeps r t ds).graph a b ↔ Edge r.graph a b ∨ (a ∈ ds ∧ b = t)) := by
  induction ds generalizing r with
  | nil => simp [addDeps, nd]
  | cons y ys ih =>
    have ndk : (keys (push r.graph y t)).Nodup := by
      rw [keys_push]
      by_cases h : y ∈ keys r.graph
      · simp [h, nd]
      · simp only [h, if_false, List.nodup_append]
        exact ⟨nd, by simp, by intro x hx z hz he; simp at hz; subst hz; subst he; exact h hx⟩
    obtain ⟨h1, h2, h3⟩ := ih { info := setInfo r.info y true, graph := push r.graph y t } ndk
    simp only [addDeps]
    refine ⟨h1, fun x => ?_, fun a b => ?_⟩
    · rw [h2, keys_push, List.mem_cons]
      by_cases h : y ∈ keys r.graph
      · simp only [h, if_true]
        constructor
        · tauto
        · rintro (h' | rfl | h')
          · exact Or.inl h'
          · exact Or.inl h
          · exact Or.inr h'
      · simp [h, or_assoc]
    · rw [h3, edge_push, List.mem_cons]
      tauto

theorem addDeps_info (r : Reg V) (t : V) (ds : List V) (f : V → Option Bool) (h : Info r.info f) :
    Info (addDeps r t ds).info (fun x => if x ∈ ds then some true else f x) := by
  induction ds generalizing r f with
  | nil => simpa [addDeps] using h
  | cons y ys ih =>
    have := ih { info := setInfo r.info y true, graph := push r.graph y t } _ (h.set y true)
    simp only [addDeps]
    convert this using 1
    funext x
    by_cases h1 : x ∈ ys <;> by_cases h2 : x = y <;> simp [h1, h2]

theorem rinv_registerAll (cs : Calls V) : RInv cs (registerAll cs) := by
  -- the expected value of `m_sub_info`
  suffices H : ∀ (cs : Calls V), (keys (registerAll cs).graph).Nodup ∧
      (∀ x, x ∈ keys (registerAll cs).graph ↔ ∃ t, Declared cs x t) ∧
      (∀ x t, Edge (registerAll cs).graph x t ↔ Declared cs x t) ∧
      ∃ f, Info (registerAll cs).info f ∧
        (∀ t, f t = some true ↔ (∃ ds, (t, some ds) ∈ cs) ∨ ∃ u, Declared cs t u) ∧
        (∀ t, f t = some false ↔ (t, none) ∈ cs ∧ ¬ ((∃ ds, (t, some ds) ∈ cs) ∨ ∃ u, Declared cs t u)) by
    obtain ⟨h1, h2, h3, f, h4, h5, h6⟩ := H cs
    exact ⟨h1, h4.1, h2, h3, fun t => (h4.2 t true).trans (h5 t), fun t => (h4.2 t false).trans (h6 t)⟩
  intro cs
  induction cs using List.reverseRecOn with
  | nil => exact ⟨by simp [registerAll, keys], by simp [registerAll, keys, Declared], by simp [registerAll, Edge, Declared],
      fun _ => none, ⟨by simp [registerAll], by simp [registerAll]⟩, by simp [Declared], by simp⟩
  | append_singleton cs c ih =>
    obtain ⟨t, deps⟩ := c
    obtain ⟨h1, h2, h3, f, h4, h5, h6⟩ := ih
    have hr : registerAll (cs ++ [(t, deps)]) = register (registerAll cs) t deps := by
      simp [registerAll, List.foldl_append]
    rw [hr]
    cases deps with
    | none =>
      have hd : ∀ x u, Declared (cs ++ [(t, none)]) x u ↔ Declared cs x u := by
        intro x u; simp [Declared]
      refine ⟨h1, by simpa [register, hd] using h2, by simpa [register, hd] using h3, _, h4.touch t, fun u => ?_, fun u => ?_⟩
      · have := h5 u
        have := h6 u
        by_cases hu : u = t
        · subst hu
          simp only [if_true, hd, List.mem_append, List.mem_singleton, Prod.mk.injEq, reduceCtorEq, and_false, or_false]
          cases hf : f u with
          | none => rw [← h5 u, hf]; simp
          | some b => rw [← h5 u, hf]; simp
        · simp only [hu, if_false, hd, List.mem_append, List.mem_singleton, Prod.mk.injEq, reduceCtorEq, and_false, or_false]
          exact h5 u
      · by_cases hu : u = t
        · subst hu
          simp only [if_true, hd, List.mem_append, List.mem_singleton, Prod.mk.injEq, reduceCtorEq, and_false, or_false,
            and_self, or_true, true_and]
          rw [← h5 u]
          cases hf : f u with
          | none => simp
          | some b => cases b <;> simp
        · simp only [hu, if_false, hd, List.mem_append, List.mem_singleton, Prod.mk.injEq, reduceCtorEq, and_false, or_false,
            false_and]
          exact h6 u
    | some ds =>
      have hd : ∀ x u, Declared (cs ++ [(t, some ds)]) x u ↔ Declared cs x u ∨ (u = t ∧ x ∈ ds) := by
        intro x u
        simp only [Declared, List.mem_append, List.mem_singleton, Prod.mk.injEq, Option.some.injEq]
        constructor
        · rintro ⟨ds', h | ⟨rfl, rfl⟩, hx⟩
          · exact Or.inl ⟨ds', h, hx⟩
          · exact Or.inr ⟨rfl, hx⟩
        · rintro (⟨ds', h, hx⟩ | ⟨rfl, hx⟩)
          · exact ⟨ds', Or.inl h, hx⟩
          · exact ⟨ds, Or.inr ⟨rfl, rfl⟩, hx⟩
      have hsome : ∀ u, (∃ ds', (u, some ds') ∈ cs ++ [(t, some ds)]) ↔ (∃ ds', (u, some ds') ∈ cs) ∨ u = t := by
        intro u
        simp only [List.mem_append, List.mem_singleton, Prod.mk.injEq, Option.some.injEq]
        constructor
        · rintro ⟨ds', h | ⟨rfl, rfl⟩⟩
          · exact Or.inl ⟨_, h⟩
          · exact Or.inr rfl
        · rintro (⟨ds', h⟩ | rfl)
          · exact ⟨ds', Or.inl h⟩
          · exact ⟨ds, Or.inr ⟨rfl, rfl⟩⟩
      have hnone : ∀ u, (u, none) ∈ cs ++ [(t, some ds)] ↔ (u, none) ∈ cs := by intro u; simp
      simp only [register]
      obtain ⟨g1, g2, g3⟩ := addDeps_graph
        { info := setInfo (touchInfo (registerAll cs).info t) t true, graph := (registerAll cs).graph } t ds h1
      have gi := addDeps_info { info := setInfo (touchInfo (registerAll cs).info t) t true, graph := (registerAll cs).graph }
        t ds _ ((h4.touch t).set t true)
      refine ⟨g1, fun x => ?_, fun x u => ?_, _, gi, fun u => ?_, fun u => ?_⟩
      · rw [g2]
        simp only [hd, h2]
        constructor
        · rintro (⟨u, h⟩ | h)
          · exact ⟨u, Or.inl h⟩
          · exact ⟨t, Or.inr ⟨rfl, h⟩⟩
        · rintro ⟨u, h | ⟨-, h⟩⟩
          · exact Or.inl ⟨u, h⟩
          · exact Or.inr h
      · rw [g3, hd]
        simp only [h3]
        tauto
      · simp only [hsome, hd]
        by_cases hm : u ∈ ds
        · simp only [hm, if_true, true_iff]
          exact Or.inr ⟨t, Or.inr ⟨rfl, trivial⟩⟩
        · by_cases hu : u = t
          · simp [hm, hu]
          · simp only [hm, hu, if_false, and_false, or_false]
            exact h5 u
      · simp only [hsome, hd, hnone]
        by_cases hm : u ∈ ds
        · simp only [hm, if_true, Option.some.injEq, Bool.true_eq_false, and_true, false_iff, not_and, not_not]
          intro _
          exact Or.inr ⟨t, Or.inr rfl⟩
        · by_cases hu : u = t
          · simp [hm, hu]
          · simp only [hm, hu, if_false, and_false, or_false]
            exact h6 u

theorem touchAll_id (l : List (V × Bool)) (ts : List V) (h : ∀ t ∈ ts, t ∈ l.map Prod.fst) : touchAll l ts = l := by
  unfold touchAll
  induction ts with
  | nil => rfl
  | cons t ts ih =>
    have : touchInfo l t = l := by unfold touchInfo; rw [if_pos (h t (by simp))]
    rw [List.foldl_cons, this]
    exact ih (fun x hx => h x (List.mem_cons_of_mem _ hx))

/-- **C22.** After any sequence of registrations, and for every iteration order of the hash maps: if
the declared dependencies are circular, recovery throws; otherwise it visits every registered consumer
exactly once, each after all consumers it depends on.  Partial: no consumer registers with an empty
(but present) dependency list, and none was deregistered (`C22_empty_deps_violated`,
`C22_deregister_violated`). -/
theorem C22_recovery_order_partial (cs : Calls V) (hne : ∀ t ds, (t, some ds) ∈ cs → ds ≠ [])
    (ord : List V → List V) (hord : ∀ l, (ord l).Perm l) :
    ∃ n res, (∀ fuel, n ≤ fuel → recover ord fuel (registerAll cs) = some res) ∧
      (Cyclic (Declared cs) → res = none) ∧
      (¬ Cyclic (Declared cs) → ∃ order, res = some order ∧ order.Nodup ∧
        (∀ t deps, (t, deps) ∈ cs → t ∈ order) ∧ ∀ x t, Declared cs x t → Before order x t) := by
  have hi := rinv_registerAll cs
  obtain ⟨n, res, h1, h2, h3⟩ := C22_sort_correct (registerAll cs).graph hi.nd ord hord
  have hE : Edge (registerAll cs).graph = Declared cs := by
    funext a b; exact propext (hi.edge a b)
  rw [hE] at h2 h3
  refine ⟨n, _, fun fuel hf => by rw [recover, h1 fuel hf]; rfl, fun hc => ?_, fun hc => ?_⟩
  · simp only [h2.2 hc, if_true]
  · have hf : res.1 = false := by
      cases hr : res.1 with
      | false => rfl
      | true => exact absurd (h2.1 hr) hc
    obtain ⟨h4, h5, h6⟩ := h3 hc
    have hdep : ∀ t, t ∈ res.2 ↔ (t, true) ∈ (registerAll cs).info := by
      intro t
      rw [h5, hi.keys, hi.dep]
      constructor
      · rintro (h | ⟨a, ds, h, -⟩)
        · exact Or.inr h
        · exact Or.inl ⟨ds, h⟩
      · rintro (⟨ds, h⟩ | h)
        · obtain ⟨x, hx⟩ := List.exists_mem_of_ne_nil ds (hne t ds h)
          exact Or.inr ⟨x, ds, h, hx⟩
        · exact Or.inl h
    have ht : touchAll (registerAll cs).info res.2 = (registerAll cs).info :=
      touchAll_id _ _ (fun t h => List.mem_map.2 ⟨(t, true), (hdep t).1 h, rfl⟩)
    simp only [hf, ht, Bool.false_eq_true, if_false]
    have hmem : ∀ t, t ∈ ((registerAll cs).info.filter (fun x => !x.2)).map Prod.fst ↔ (t, false) ∈ (registerAll cs).info := by
      intro t
      rw [List.mem_map]
      constructor
      · rintro ⟨⟨t', b⟩, h, rfl⟩
        rw [List.mem_filter] at h
        have : b = false := by simpa using h.2
        rw [this] at h; exact h.1
      · intro h; exact ⟨(t, false), List.mem_filter.2 ⟨h, rfl⟩, rfl⟩
    have hdisj : ∀ t, (t, true) ∈ (registerAll cs).info → (t, false) ∉ (registerAll cs).info := by
      intro t a b
      exact ((hi.ind t).1 b).2 ((hi.dep t).1 a)
    refine ⟨_, rfl, ?_, ?_, ?_⟩
    · rw [List.nodup_append]
      refine ⟨h4, (hi.ndi.sublist ((List.filter_sublist).map _)), ?_⟩
      intro x hx y hy he
      subst he
      exact hdisj x ((hdep x).1 hx) ((hmem x).1 hy)
    · intro t deps h
      rw [List.mem_append]
      by_cases hd : (t, true) ∈ (registerAll cs).info
      · exact Or.inl ((hdep t).2 hd)
      · right
        rw [hmem, hi.ind]
        rw [hi.dep] at hd
        refine ⟨?_, hd⟩
        cases deps with
        | none => exact h
        | some ds => exact absurd (Or.inl ⟨ds, h⟩) hd
    · intro x t hxt l1 l2 he
      have htm : t ∈ res.2 := (hdep t).2 ((hi.dep t).2 (by obtain ⟨ds, h, -⟩ := hxt; exact Or.inl ⟨ds, h⟩))
      -- the occurrence is inside the sorted part
      rcases List.append_eq_append_iff.1 he with ⟨as, e1, e2⟩ | ⟨bs, e1, e2⟩
      · exfalso
        have : t ∈ ((registerAll cs).info.filter (fun x => !x.2)).map Prod.fst := by rw [e2]; simp
        exact hdisj t ((hdep t).1 htm) ((hmem t).1 this)
      · cases bs with
        | nil =>
          exfalso
          have : t ∈ ((registerAll cs).info.filter (fun x => !x.2)).map Prod.fst := by
            simp only [List.nil_append] at e2
            rw [← e2]; simp
          exact hdisj t ((hdep t).1 htm) ((hmem t).1 this)
        | cons z bs =>
          simp only [List.cons_append, List.cons.injEq] at e2
          obtain ⟨rfl, -⟩ := e2
          exact h6 x t hxt l1 bs e1

/-! ### Deregistering a consumer nobody depends on -/

theorem touchInfo_filter (l : List (V × Bool)) (u t : V) :
    (touchInfo l u).filter (fun x => x.1 ≠ t) =
      if u = t then l.filter (fun x => x.1 ≠ t) else touchInfo (l.filter (fun x => x.1 ≠ t)) u := by
  unfold touchInfo
  by_cases h : u = t
  · subst h
    rw [if_pos rfl]
    split
    · rfl
    · simp [List.filter_append]
  · rw [if_neg h]
    have : u ∈ (l.filter (fun x => x.1 ≠ t)).map Prod.fst ↔ u ∈ l.map Prod.fst := by
      simp only [List.mem_map, List.mem_filter]
      constructor
      · rintro ⟨x, ⟨h1, -⟩, h2⟩; exact ⟨x, h1, h2⟩
      · rintro ⟨x, h1, h2⟩; exact ⟨x, ⟨h1, by rw [h2]; simpa using h⟩, h2⟩
    by_cases hm : u ∈ l.map Prod.fst
    · rw [if_pos hm, if_pos (this.2 hm)]
    · rw [if_neg hm, if_neg (fun e => hm (this.1 e)), List.filter_append]
      simp [h]

theorem touchAll_filter (ts : List V) (t : V) : ∀ l l' : List (V × Bool),
    l.filter (fun x => x.1 ≠ t) = l'.filter (fun x => x.1 ≠ t) →
    (touchAll l ts).filter (fun x => x.1 ≠ t) = (touchAll l' ts).filter (fun x => x.1 ≠ t) := by
  induction ts with
  | nil => intro l l' h; exact h
  | cons u ts ih =>
    intro l l' h
    refine ih (touchInfo l u) (touchInfo l' u) ?_
    rw [touchInfo_filter, touchInfo_filter, h]

theorem before_filter {l : List V} {x t d : V} (h : Before l x t) (hx : x ≠ d) :
    Before (l.filter (fun v => v ≠ d)) x t := by
  intro l1 l2 he
  obtain ⟨a, b, e1, e2, e3⟩ := List.filter_eq_append_iff.1 he
  obtain ⟨c, e, e4, e5, e6, e7⟩ := List.filter_eq_cons_iff.1 e3
  have := h (a ++ c) e (by rw [e1, e4]; simp)
  rw [List.mem_append] at this
  rcases this with hm | hm
  · rw [← e2]; exact List.mem_filter.2 ⟨hm, by simpa using hx⟩
  · exact absurd (by simpa using hx) (e5 x hm)

/-- **C22.** Deregistering a consumer `d` on which no other depends leaves the recovery of all others as it was:
a circular dependency is still reported; otherwise recovery visits every other registered consumer exactly once,
each after all consumers it depends on.  (`order` is what recovery visits, without `d`, for which there is no
handler any more.)  Partial: as `C22_recovery_order_partial`. -/
theorem C22_deregister_partial (cs : Calls V) (hne : ∀ t ds, (t, some ds) ∈ cs → ds ≠ [])
    (d : V) (hd : ∀ t, ¬ Declared cs d t) (ord : List V → List V) (hord : ∀ l, (ord l).Perm l) :
    ∃ n res, (∀ fuel, n ≤ fuel → recover ord fuel (deregister (registerAll cs) d) = some res) ∧
      (Cyclic (Declared cs) → res = none) ∧
      (¬ Cyclic (Declared cs) → ∃ visited, res = some visited ∧
        let order := visited.filter (fun v => v ≠ d)
        order.Nodup ∧ (∀ t deps, (t, deps) ∈ cs → t ≠ d → t ∈ order) ∧
        ∀ x t, Declared cs x t → Before order x t) := by
  have hi := rinv_registerAll cs
  obtain ⟨n, res, h1, h2, h3⟩ := C22_recovery_order_partial cs hne ord hord
  have hk : d ∉ keys (registerAll cs).graph := by
    rw [hi.keys]; rintro ⟨t, h⟩; exact hd t h
  have hg : (deregister (registerAll cs) d).graph = (registerAll cs).graph := by
    unfold deregister
    split
    · refine List.filter_eq_self.2 ?_
      intro x hx
      simp only [ne_eq, decide_not, Bool.not_eq_true', decide_eq_false_iff_not]
      intro e
      exact hk (by rw [← e]; exact List.mem_map.2 ⟨x, hx, rfl⟩)
    · rfl
  have hf : (deregister (registerAll cs) d).info.filter (fun x => x.1 ≠ d) =
      (registerAll cs).info.filter (fun x => x.1 ≠ d) := by
    unfold deregister
    split
    · simp only [List.filter_filter, Bool.and_self]
    · rfl
  obtain ⟨n2, r, hs, -⟩ := C22_sort_correct (registerAll cs).graph hi.nd ord hord
  have h0 := h1 (max n n2) (Nat.le_max_left _ _)
  unfold recover at h0
  rw [hs _ (Nat.le_max_right _ _)] at h0
  simp only [Option.map_some, Option.some.injEq] at h0
  refine ⟨n2, if r.1 then none else some (r.2 ++ ((touchAll (deregister (registerAll cs) d).info r.2).filter
    (fun x => !x.2)).map Prod.fst), ?_, ?_, ?_⟩
  · intro fuel hfu
    unfold recover
    rw [hg, hs fuel hfu]
    rfl
  · intro hc
    have := h2 hc
    rw [this] at h0
    split at h0
    · rename_i hr; rw [if_pos hr]
    · cases h0
  · intro hc
    obtain ⟨order, e, q1, q2, q3⟩ := h3 hc
    rw [e] at h0
    split at h0
    · cases h0
    · rename_i hr
      rw [if_neg hr]
      refine ⟨_, rfl, ?_⟩
      have hsame : (r.2 ++ ((touchAll (deregister (registerAll cs) d).info r.2).filter
          (fun x => !x.2)).map Prod.fst).filter (fun v => v ≠ d) = order.filter (fun v => v ≠ d) := by
        rw [← Option.some.inj h0, List.filter_append, List.filter_append]
        congr 1
        have hc := touchAll_filter r.2 d _ _ hf
        have key : ∀ l : List (V × Bool), ((l.filter (fun x => !x.2)).map Prod.fst).filter (fun v => v ≠ d) =
            ((l.filter (fun x => x.1 ≠ d)).filter (fun x => !x.2)).map Prod.fst := by
          intro l
          rw [List.filter_map, List.filter_filter, List.filter_filter]
          congr 1
          apply List.filter_congr
          intro x _
          simp [Bool.and_comm]
        rw [key, key, hc]
      simp only [hsame]
      refine ⟨q1.sublist List.filter_sublist, ?_, ?_⟩
      · intro t deps ht hne
        exact List.mem_filter.2 ⟨q2 t deps ht, by simpa using hne⟩
      · intro x t hxt
        refine before_filter (q3 x t hxt) ?_
        rintro rfl
        exact hd t hxt

/-- **C22 fails** for a consumer registered with an empty dependency list: it is never recovered. -/
theorem C22_empty_deps_violated (t : V) (ord : List V → List V) (hord : ∀ l, (ord l).Perm l) (fuel : Nat) :
    recover ord fuel (registerAll [(t, some [])]) = some (some []) := by
  have h0 : ord [] = [] := (hord []).eq_nil
  simp [registerAll, register, touchInfo, setInfo, addDeps, recover, sort, verts, keys, h0, touchAll]
  cases fuel <;> simp [loop, sizeAfter, keys]

/-- **C22 fails** after a deregistration: `b` depends on `a`; once `a` is deregistered, `b` is never
recovered. -/
theorem C22_deregister_violated (a b : V) (hab : a ≠ b) (ord : List V → List V) (hord : ∀ l, (ord l).Perm l) (fuel : Nat) :
    recover ord fuel (deregister (registerAll [(a, none), (b, some [a])]) a) = some (some []) := by
  have h0 : ord [] = [] := (hord []).eq_nil
  have hba : b ≠ a := hab.symm
  simp [registerAll, register, touchInfo, setInfo, addDeps, push, keys, deregister, hab, hba, recover, sort, verts, h0, touchAll]
  cases fuel <;> simp [loop, sizeAfter, keys]

/-! ## Examples -/

/-- The graph used in the project's own test: C and D depend on A and B, etc. -/
def exCalls : Calls Nat := [(1, none), (3, some [1, 2]), (2, none), (4, some [3]), (5, some [3, 1]), (7, none)]

example : recover id 20 (registerAll exCalls) = some (some [1, 2, 3, 4, 5, 7]) := by decide +kernel
example : recover List.reverse 20 (registerAll exCalls) = some (some [2, 1, 3, 4, 5, 7]) := by decide +kernel
example : ∀ t ds, (t, some ds) ∈ exCalls → ds ≠ [] := by
  intro t ds h e
  subst e
  simp [exCalls] at h
example : ∀ t, ¬ Declared exCalls 5 t := by
  rintro t ⟨ds, h, hx⟩
  simp [exCalls] at h
  rcases h with ⟨rfl, rfl⟩ | ⟨rfl, rfl⟩ | ⟨rfl, rfl⟩ <;> simp at hx
example : recover id 20 (deregister (registerAll exCalls) 5) = some (some [1, 2, 3, 4, 5, 7, 5]) := by decide +kernel
example : ¬ Cyclic (Declared exCalls) := by
  have key : ∀ a b, Relation.TransGen (Declared exCalls) a b → a < b := by
    have one : ∀ a b, Declared exCalls a b → a < b := by
      rintro a b ⟨ds, h, hx⟩
      simp only [exCalls, List.mem_cons, Prod.mk.injEq, Option.some.injEq, List.not_mem_nil, or_false, reduceCtorEq,
        and_false, false_or] at h
      rcases h with ⟨rfl, rfl⟩ | ⟨rfl, rfl⟩ | ⟨rfl, rfl⟩ <;> simp at hx <;> omega
    intro a b h
    induction h with
    | single e => exact one _ _ e
    | tail _ e ih => exact lt_trans ih (one _ _ e)
  rintro ⟨v, hv⟩
  exact absurd (key v v hv) (lt_irrefl v)

/-- A cycle is reported. -/
example : recover id 20 (registerAll [(1, some [2]), (2, some [1]), (3, none)]) = some none := by decide +kernel
example : Cyclic (Declared [(1, some [2]), (2, some [1]), (3, none)]) :=
  ⟨1, .tail (b := 2) (.single ⟨[1], by simp, by simp⟩) ⟨[2], by simp, by simp⟩⟩

end HS.Topo
