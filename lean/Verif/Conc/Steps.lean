import Verif.Conc.Rebuild2

/-!
# Splits, merges, changes of the root and changes of a leaf keep the tree
-/

namespace HS.Conc

variable {s : St}

theorem label_snd {d bm : Option Nat} {fix : Bool} : ∀ (ps : List (List Ent)), (label d bm fix ps).map (·.2) = ps
  | [] => rfl
  | [p] => rfl
  | p :: q :: ps => by simp [label, label_snd (d := none) (q :: ps)]

theorem chop_flatten : ∀ (ns : List Nat) (l : List Ent), ns.sum = l.length → (chop ns l).flatten = l
  | [], l, h => by
    cases l with
    | nil => rfl
    | cons e t => simp at h
  | m :: ms, l, h => by
    simp only [List.sum_cons] at h
    simp only [chop, List.flatten_cons]
    rw [chop_flatten ms (l.drop m) (by simp; omega), List.take_append_drop]

theorem chop_ne : ∀ (ns : List Nat) (l : List Ent), ns.sum = l.length → (∀ x ∈ ns, 0 < x) → ∀ q ∈ chop ns l, q ≠ []
  | [], _, _, _, _, h => by cases h
  | m :: ms, l, h, hp, q, hq => by
    simp only [List.sum_cons] at h
    have hm := hp m (by simp)
    rcases List.mem_cons.1 hq with rfl | hq
    · intro hn
      have : (l.take m).length = 0 := by rw [hn]; rfl
      rw [List.length_take] at this
      omega
    · exact chop_ne ms (l.drop m) (by simp; omega) (fun x hx => hp x (by simp [hx])) q hq

theorem chop_length : ∀ (ns : List Nat) (l : List Ent), (chop ns l).length = ns.length
  | [], _ => rfl
  | _ :: ms, l => by simp [chop, chop_length ms]

/-- The entries of neighbours, put together. -/
theorem chain_join {nd : Nat → Node} {fresh l : Nat} (hn : ∀ i, Live nd fresh i → Ok nd fresh (nd i).lev (nd i).lo (nd i).es (nd i).hi) :
    ∀ (a : List Ent) (lo hi : Option Nat), Chain (Kid nd fresh l) lo a hi → Ok nd fresh l lo (a.flatMap fun e => (nd e.2).es) hi
  | [], lo, hi, h => ⟨fun _ => trivial, fun _ => h⟩
  | e :: t, lo, hi, h => by
    have h1 := hn e.2 h.2.1.1
    rw [h.2.1.2.1, h.2.1.2.2.1, h.2.1.2.2.2] at h1
    simp only [List.flatMap_cons]
    exact h1.join (chain_join hn t _ _ h.2.2) h.1.leB h.2.2.le

/-- The place of a key in an interior node. -/
structure At (s : St) (k n c : Nat) : Prop where
  live : Live s.nodes s.fresh n
  lev : (s.nodes n).lev ≠ 0
  rng : inR (s.nodes n).lo (s.nodes n).hi k
  kid : child k (s.nodes n).es = some c

theorem At.find {k n c} (h : At s k n c) (hT : TInv s.nodes s.fresh s.root) :
    ∃ b t m, rest k (s.nodes n).es = (b, c) :: t ∧ (s.nodes n).es = front k (s.nodes n).es ++ (b, c) :: t ∧
      Kid s.nodes s.fresh ((s.nodes n).lev - 1) c m (cut b) ∧ inR m (cut b) k ∧
      Chain (Kid s.nodes s.fresh ((s.nodes n).lev - 1)) (cut b) t (s.nodes n).hi := by
  obtain ⟨e, t, m, h1, h2, _, h4, h5, h6⟩ := (hT.chain h.live h.lev).child h.rng
  have hc := h.kid
  simp only [child, h1, List.head?_cons, Option.map_some, Option.some.injEq] at hc
  obtain ⟨b, x⟩ := e
  simp only at hc
  subst hc
  exact ⟨b, t, m, h1, h2, h4, h5, h6⟩

/-- The child of a key: in use, one level below, responsible for the key. -/
theorem At.child {k n c} (h : At s k n c) (hT : TInv s.nodes s.fresh s.root) :
    Live s.nodes s.fresh c ∧ (s.nodes c).lev + 1 = (s.nodes n).lev ∧ inR (s.nodes c).lo (s.nodes c).hi k := by
  obtain ⟨b, t, m, _, _, h3, h4, _⟩ := h.find hT
  have := h.lev
  refine ⟨h3.1, by have := h3.2.1; omega, ?_⟩
  rw [h3.2.2.1, h3.2.2.2]
  exact h4

/-- A key of an interior node has a child. -/
theorem TInv.at {k n} (hT : TInv s.nodes s.fresh s.root) (hl : Live s.nodes s.fresh n) (h0 : (s.nodes n).lev ≠ 0)
    (hk : inR (s.nodes n).lo (s.nodes n).hi k) : ∃ c, At s k n c := by
  obtain ⟨e, t, m, h1, _⟩ := (hT.chain hl h0).child hk
  exact ⟨e.2, hl, h0, hk, by simp [HS.Conc.child, h1]⟩

/-- A plan of `merge_nodes` replaces the child and its siblings by pieces that are right. -/
theorem plan_redo {k n c n0 : Nat} {olds ns : List Nat} {q : Plan} (h : At s k n c) (hT : TInv s.nodes s.fresh s.root)
    (ho : olds = (((rest k (s.nodes n).es).drop 1).take olds.length).map (·.2))
    (hq : s.plan k n c olds n0 ns = some q) : ∃ d mids β, olds = ids mids ∧ Redo s n c q d mids β := by
  obtain ⟨b, t, m, h1, h2, h3, h4, h5⟩ := h.find hT
  have hmid : (rest k (s.nodes n).es).take (olds.length + 1) = (b, c) :: t.take olds.length := by rw [h1]; rfl
  have hpost : (rest k (s.nodes n).es).drop (olds.length + 1) = t.drop olds.length := by rw [h1]; rfl
  have hids : olds = ids (t.take olds.length) := by rw [h1] at ho; simpa using ho
  have htail : (olds.flatMap fun x => (s.nodes x).es) = (t.take olds.length).flatMap fun e => (s.nodes e.2).es := by
    conv => lhs; rw [hids]
    rw [ids, List.flatMap_map]
  simp only [St.plan, hmid, hpost, htail] at hq
  generalize hmids : t.take olds.length = mids at *
  generalize hps : t.drop olds.length = post at *
  have hml : mids.length = olds.length := by rw [hids]; simp
  generalize htl : (mids.flatMap fun e => (s.nodes e.2).es) = tail at *
  split at hq
  case isFalse => cases hq
  case isTrue hc =>
    obtain ⟨hsum, hpos, hle⟩ := hc
    have hsplit : t = mids ++ post := by rw [← hmids, ← hps, List.take_append_drop]
    -- the chain of the children merged
    have hfull : Chain (Kid s.nodes s.fresh ((s.nodes n).lev - 1)) m (((b, c) :: mids) ++ post) (s.nodes n).hi := by
      rw [List.cons_append, ← hsplit]
      exact ⟨ltB.of_inR h4, h3, h5⟩
    obtain ⟨e, hce, hcp⟩ := Chain.append.1 hfull
    have hee := hce.last (by simp) none
    have hlo : (s.nodes c).lo = m := h3.2.2.1
    have hnode : ∀ i, Live s.nodes s.fresh i → Ok s.nodes s.fresh (s.nodes i).lev (s.nodes i).lo (s.nodes i).es (s.nodes i).hi :=
      fun i hi => (hT.node i hi).2
    have hjoin := chain_join hnode _ _ _ hce
    simp only [List.flatMap_cons, htl] at hjoin
    have hdrop : ns.sum = (tail.drop n0).length := by simp; omega
    have hfl := chop_flatten ns (tail.drop n0) hdrop
    have hpieces : ((s.nodes c).es ++ tail.take n0) ++ (chop ns (tail.drop n0)).flatten = (s.nodes c).es ++ tail := by
      rw [hfl, List.append_assoc, List.take_append_drop]
    have hlev : (s.nodes c).lev = (s.nodes n).lev - 1 := h3.2.1
    have hfirst : (s.nodes c).es ++ tail.take n0 ≠ [] ∨ (s.nodes n).lev - 1 = 0 ∧
        Ok s.nodes s.fresh ((s.nodes n).lev - 1) (cut b) (chop ns (tail.drop n0)).flatten (cut (lastKey none ((b, c) :: mids))) ∧
        ltB m (cut b) ∧ leB (cut b) (cut (lastKey none ((b, c) :: mids))) ∧
        (chop ns (tail.drop n0) ≠ [] → ltB (cut b) (cut (lastKey none ((b, c) :: mids)))) := by
      by_cases hpe : (s.nodes c).es ++ tail.take n0 = []
      · right
        have hce0 := (List.append_eq_nil_iff.1 hpe)
        have h0 : (s.nodes n).lev - 1 = 0 := by
          by_cases h0 : (s.nodes n).lev - 1 = 0
          · exact h0
          · have hk := (hT.node c h3.1).2.2 (by omega)
            rw [hce0.1] at hk
            have hk' : (s.nodes c).lo = (s.nodes c).hi := hk
            have hlt := (hT.node c h3.1).1
            rw [hk'] at hlt
            exact absurd hlt ltB.irrefl
        have htd : tail.drop n0 = tail := by
          conv => rhs; rw [← List.take_append_drop n0 tail, hce0.2, List.nil_append]
        refine ⟨h0, ?_, ltB.of_inR h4, ?_, ?_⟩
        · rw [hfl, htd, ← htl, ← hee]
          exact chain_join hnode _ _ _ hce.2.2
        · rw [← hee]
          exact hce.2.2.le
        · intro hne
          rw [← hee]
          refine hce.2.2.lt ?_
          rintro rfl
          apply hne
          have : (chop ns (tail.drop n0)).length = 0 := by rw [chop_length]; simp at hml; omega
          exact List.length_eq_zero_iff.1 this
      · exact Or.inl hpe
    obtain ⟨β, hs, hb1, hb2, hb3⟩ := label_ok (nd := s.nodes) (fresh := s.fresh) (lev := (s.nodes n).lev - 1)
      (bm := lastKey none ((b, c) :: mids)) (fix := (lastKey none ((b, c) :: mids)).isNone || post.isEmpty)
      (chop ns (tail.drop n0)) ((s.nodes c).es ++ tail.take n0) m b (chop_ne ns _ hdrop hpos)
      (by rw [hpieces, ← hee]; exact hjoin) (by rw [← hee]; exact hce.lt (by simp)) hfirst
    have hsnd := label_snd (d := b) (bm := lastKey none ((b, c) :: mids)) (fix := (lastKey none ((b, c) :: mids)).isNone || post.isEmpty)
      (((s.nodes c).es ++ tail.take n0) :: chop ns (tail.drop n0))
    simp only [List.head?_cons, Option.map_some, Option.getD_some] at hq
    generalize label b (lastKey none ((b, c) :: mids)) ((lastKey none ((b, c) :: mids)).isNone || post.isEmpty)
      (((s.nodes c).es ++ tail.take n0) :: chop ns (tail.drop n0)) = lab at *
    cases lab with
    | nil => cases hq
    | cons f u =>
      simp only [Option.some.injEq] at hq
      subst hq
      refine ⟨b, mids, β, hids, h.live, h.lev, ?_, ?_, hb1, ?_, ?_⟩
      · show (s.nodes n).es = front k (s.nodes n).es ++ (((b, c) :: mids) ++ post)
        rw [List.cons_append, ← hsplit]
        exact h2
      · rw [hlo]
        exact hs
      · rintro (hp | hp)
        · refine hb2 ?_
          have hp' : post = [] := hp
          simp [hp']
        · exact hb3 hp
      · simp only [List.map_cons, List.cons.injEq] at hsnd
        show f.2 ++ u.flatMap (·.2) = _
        have hu : u.flatMap (·.2) = (u.map (·.2)).flatten := by rw [List.flatMap_def]
        rw [hu, hsnd.1, hsnd.2, hpieces, htl]

/-- The plan of a split. -/
def splitPlan (s : St) (k n c i : Nat) (b : Option Nat) (t : List Ent) : Plan :=
  { pre := front k (s.nodes n).es, post := t, first := (lastKey none ((s.nodes c).es.take i), (s.nodes c).es.take i)
    news := [(b, (s.nodes c).es.drop i)] }

theorem split_redo {k n c i : Nat} (h : At s k n c) (hT : TInv s.nodes s.fresh s.root) (h0 : 0 < i) (h1 : i < (s.nodes c).es.length) :
    ∃ b t, Redo s n c (splitPlan s k n c i b t) b [] (cut b) ∧ s.split k n c i = s.merge n c [] (splitPlan s k n c i b t) := by
  obtain ⟨b, t, m, g1, g2, g3, g4, g5⟩ := h.find hT
  have hok := (hT.node c g3.1).2
  have ha : (s.nodes c).es.take i ≠ [] := by
    intro hn
    have : ((s.nodes c).es.take i).length = 0 := by rw [hn]; rfl
    rw [List.length_take] at this
    omega
  have hb : (s.nodes c).es.drop i ≠ [] := by
    intro hn
    have : ((s.nodes c).es.drop i).length = 0 := by rw [hn]; rfl
    rw [List.length_drop] at this
    omega
  rw [← List.take_append_drop i (s.nodes c).es] at hok
  obtain ⟨x, hx, o1, o2, l1, l2⟩ := hok.cut ha hb none
  have hlev : (s.nodes c).lev = (s.nodes n).lev - 1 := g3.2.1
  have hhi : (s.nodes c).hi = cut b := g3.2.2.2
  rw [hlev, hhi] at o2
  rw [hlev] at o1
  rw [hhi] at l2
  have hr : Redo s n c (splitPlan s k n c i b t) b [] (cut b) := by
    refine ⟨h.live, h.lev, g2, ?_, leB.refl _, fun _ => rfl, ?_⟩
    · show Segs s.nodes s.fresh ((s.nodes n).lev - 1) (s.nodes c).lo [(lastKey none ((s.nodes c).es.take i), (s.nodes c).es.take i), (b, (s.nodes c).es.drop i)] (cut b)
      rw [hx]
      exact ⟨l1, o1, l2, o2, rfl⟩
    · simp [splitPlan]
  refine ⟨b, t, hr, ?_⟩
  have hnc := hr.ne_nc hT
  have hcf : c < s.fresh := g3.1.1
  have hnf : n < s.fresh := h.live.1
  simp only [St.split, St.merge]
  congr 1
  funext j
  by_cases hjn : j = n
  · subst hjn
    simp only [if_true]
    simp [splitEnt, g1, splitPlan, newEnts]
  · simp only [if_neg hjn]
    by_cases hjc : j = c
    · subst hjc
      simp only [if_true]
      simp [splitPlan]
    · simp only [if_neg hjc, List.not_mem_nil, if_false]
      by_cases hjf : j = s.fresh
      · subst hjf
        simp [splitPlan, mkNodes, hhi]
      · simp only [if_neg hjf]
        by_cases hle : s.fresh ≤ j
        · rw [if_pos hle]
          have : (mkNodes (s.nodes c).lev (cut (splitPlan s k n c i b t).first.1) (splitPlan s k n c i b t).news)[j - s.fresh]? = none := by
            rw [List.getElem?_eq_none_iff, mkNodes_length]
            simp [splitPlan]
            omega
          rw [this]
          rfl
        · rw [if_neg hle]
          by_cases hp : (splitPlan s k n c i b t).post.head?.map (·.2) = some j
          · rw [if_pos hp]
            obtain ⟨e, u, hpe, hej⟩ := next_mem hp
            have hpe' : t = e :: u := hpe
            rw [hpe'] at g5
            have := g5.2.1.2.2.1
            rw [hej] at this
            simp only [splitPlan, newEnts, lastKey, List.getLast?_singleton]
            rw [← this]
          · rw [if_neg hp]

/-- A new root above the old one. -/
def St.grow (s : St) : St :=
  { s with
    fresh := s.fresh + 1
    root := s.fresh
    nodes := fun j =>
      if j = s.fresh then
        { lev := (s.nodes s.root).lev + 1, del := false, gen := 0, lo := (s.nodes s.root).lo, hi := (s.nodes s.root).hi, es := [(none, s.root)] }
      else s.nodes j }

theorem grow_old {j : Nat} (h : j ≠ s.fresh) : s.grow.nodes j = s.nodes j := by simp [St.grow, h]

theorem grow_new : s.grow.nodes s.fresh =
    { lev := (s.nodes s.root).lev + 1, del := false, gen := 0, lo := (s.nodes s.root).lo, hi := (s.nodes s.root).hi, es := [(none, s.root)] } := by
  simp [St.grow]

theorem grow_kid {l i x y} (h : Kid s.nodes s.fresh l i x y) : Kid s.grow.nodes s.grow.fresh l i x y := by
  have hlt : i < s.fresh := h.1.1
  rw [Kid, Live, grow_old (by omega)]
  exact ⟨⟨by simp only [St.grow]; omega, h.1.2⟩, h.2⟩

theorem grow_tinv (hT : TInv s.nodes s.fresh s.root) : TInv s.grow.nodes s.grow.fresh s.grow.root := by
  have hr : s.grow.root = s.fresh := rfl
  have hf : s.grow.fresh = s.fresh + 1 := rfl
  have hcase : ∀ i, Live s.grow.nodes s.grow.fresh i → i = s.fresh ∨ (i ≠ s.fresh ∧ Live s.nodes s.fresh i) := by
    intro i hi
    by_cases h : i = s.fresh
    · exact Or.inl h
    · have h1 := hi.1
      have h2 := hi.2
      rw [grow_old h] at h2
      exact Or.inr ⟨h, ⟨by omega, h2⟩⟩
  rw [hr]
  refine ⟨?_, fun i hi => ?_, fun i hi => ?_, fun i j hi hj hl k hki hkj => ?_⟩
  · rw [grow_new]
    refine ⟨⟨by omega, by rw [grow_new]⟩, hT.base.2⟩
  · rw [grow_new]
    rcases hcase i hi with rfl | ⟨h, hl⟩
    · rw [grow_new]; exact Nat.le_refl _
    · rw [grow_old h]
      exact Nat.le_succ_of_le (hT.top i hl)
  · rcases hcase i hi with rfl | ⟨h, hl⟩
    · rw [grow_new]
      refine ⟨(hT.node s.root hT.base.1).1, fun h => by simp at h, fun _ => ?_⟩
      show Chain _ (s.nodes s.root).lo [(none, s.root)] (s.nodes s.root).hi
      have hh : cut none = (s.nodes s.root).hi := hT.base.2.2.symm
      refine ⟨?_, ?_, hh⟩
      · show ltB _ (cut none)
        rw [hh]
        exact (hT.node s.root hT.base.1).1
      · refine grow_kid ⟨hT.base.1, ?_, rfl, hh.symm⟩
        simp
    · rw [grow_old h]
      exact ⟨(hT.node i hl).1, (hT.node i hl).2.1, fun h0 => ((hT.node i hl).2.2 h0).imp fun e _ x y hk => grow_kid hk⟩
  · rcases hcase i hi with rfl | ⟨h, hli⟩ <;> rcases hcase j hj with rfl | ⟨h', hlj⟩
    · rfl
    · rw [grow_new, grow_old h'] at hl
      have := hT.top j hlj
      simp only at hl
      omega
    · rw [grow_new, grow_old h] at hl
      have := hT.top i hli
      simp only at hl
      omega
    · rw [grow_old h] at hki hl
      rw [grow_old h'] at hkj hl
      exact hT.uniq i j hli hlj hl k hki hkj

theorem grow_holds (_hT : TInv s.nodes s.fresh s.root) (k v : Nat) : Holds s.grow.nodes s.grow.fresh k v ↔ Holds s.nodes s.fresh k v := by
  constructor
  · rintro ⟨i, hi, h0, hm⟩
    by_cases h : i = s.fresh
    · subst h
      rw [grow_new] at h0
      simp at h0
    · have h1 := hi.1
      have h2 := hi.2
      rw [grow_old h] at h2 h0 hm
      have hf : s.grow.fresh = s.fresh + 1 := rfl
      exact ⟨i, ⟨by omega, h2⟩, h0, hm⟩
  · rintro ⟨i, hi, h0, hm⟩
    have h1 := hi.1
    have hf : s.grow.fresh = s.fresh + 1 := rfl
    refine ⟨i, ⟨by omega, ?_⟩, ?_, ?_⟩ <;> rw [grow_old (by omega)]
    · exact hi.2
    · exact h0
    · exact hm

/-- Splitting the root: a new root, then a split of its child. -/
theorem splitRoot_eq {i : Nat} (hT : TInv s.nodes s.fresh s.root) : s.splitRoot i = s.grow.split 0 s.fresh s.root i := by
  have hrf : s.root < s.fresh := hT.base.1.1
  have hg := grow_old (s := s) (j := s.root) (by omega)
  simp only [St.splitRoot, St.split, hg, grow_new]
  simp only [St.grow]
  congr 1
  funext j
  by_cases h1 : j = s.fresh
  · simp [h1, splitEnt, rest, front, List.dropWhile, List.takeWhile, covers]
  · simp only [if_neg h1]

theorem root_at (hT : TInv s.nodes s.fresh s.root) : At s.grow 0 s.fresh s.root := by
  have hg := grow_tinv hT
  refine ⟨hg.base.1, by rw [grow_new]; simp, ?_, ?_⟩
  · have := hg.base.2
    have hr : s.grow.root = s.fresh := rfl
    rw [hr] at this
    rw [this.1, this.2]
    exact ⟨⟨0, rfl, Nat.le_refl _⟩, fun b hb => by cases hb⟩
  · rw [grow_new]
    simp [child, rest, List.dropWhile, covers]

theorem splitRoot_tinv {i : Nat} (hT : TInv s.nodes s.fresh s.root) (h0 : 0 < i) (h1 : i < (s.nodes s.root).es.length) :
    TInv (s.splitRoot i).nodes (s.splitRoot i).fresh (s.splitRoot i).root ∧
      ∀ k v, Holds (s.splitRoot i).nodes (s.splitRoot i).fresh k v ↔ Holds s.nodes s.fresh k v := by
  have hrf : s.root < s.fresh := hT.base.1.1
  have hg := grow_tinv hT
  obtain ⟨b, t, hr, he⟩ := split_redo (root_at hT) hg h0 (by rw [grow_old (by omega)]; exact h1)
  rw [splitRoot_eq hT, he]
  have hr' : Redo s.grow s.fresh s.root (splitPlan s.grow 0 s.fresh s.root i b t) b [] (cut b) := hr
  exact ⟨hr'.tinv hg, fun k v => (hr'.holds hg k v).trans (grow_holds hT k v)⟩

theorem collapse_root (c : Nat) : (s.collapse c).nodes s.root = { s.nodes s.root with del := true, gen := (s.nodes s.root).gen + 1 } := by
  simp [St.collapse, St.set]

theorem collapse_other {c i : Nat} (h : i ≠ s.root) : (s.collapse c).nodes i = s.nodes i := by
  simp [St.collapse, St.set, h]

/-- The only child becomes the root. -/
theorem collapse_tinv {e : Ent} (hT : TInv s.nodes s.fresh s.root) (h0 : (s.nodes s.root).lev ≠ 0) (he : (s.nodes s.root).es = [e]) :
    TInv (s.collapse e.2).nodes (s.collapse e.2).fresh (s.collapse e.2).root ∧
      ∀ k v, Holds (s.collapse e.2).nodes (s.collapse e.2).fresh k v ↔ Holds s.nodes s.fresh k v := by
  have hc := hT.chain hT.base.1 h0
  rw [he, hT.base.2.1, hT.base.2.2] at hc
  obtain ⟨_, hk, hh⟩ := hc
  have hh' : cut e.1 = none := hh
  rw [hh'] at hk
  obtain ⟨k1, k2, k3, k4⟩ := hk
  have hne : e.2 ≠ s.root := by intro h; rw [h] at k2; omega
  have hr : (s.collapse e.2).root = e.2 := rfl
  have hf : (s.collapse e.2).fresh = s.fresh := rfl
  have hcase : ∀ i, Live (s.collapse e.2).nodes (s.collapse e.2).fresh i → i ≠ s.root ∧ Live s.nodes s.fresh i := by
    intro i hi
    have hir : i ≠ s.root := by
      rintro rfl
      have := hi.2
      rw [collapse_root] at this
      cases this
    have h2 := hi.2
    rw [collapse_other hir] at h2
    exact ⟨hir, hi.1, h2⟩
  have hlive : ∀ i, i ≠ s.root → Live s.nodes s.fresh i → Live (s.collapse e.2).nodes (s.collapse e.2).fresh i := by
    intro i hir hi
    refine ⟨hi.1, ?_⟩
    rw [collapse_other hir]
    exact hi.2
  refine ⟨⟨?_, fun i hi => ?_, fun i hi => ?_, fun i j hi hj hl k hki hkj => ?_⟩, fun k v => ⟨?_, ?_⟩⟩
  · rw [hr, collapse_other hne]
    exact ⟨hlive _ hne k1, k3, k4⟩
  · obtain ⟨h1, h2⟩ := hcase i hi
    rw [hr, collapse_other hne, collapse_other h1, k2]
    have ht := hT.top i h2
    by_cases hl : (s.nodes i).lev = (s.nodes s.root).lev
    · exfalso
      obtain ⟨k, hk⟩ := (hT.node i h2).1.inR
      refine h1 (hT.uniq i s.root h2 hT.base.1 hl k hk ?_)
      rw [hT.base.2.1, hT.base.2.2]
      exact ⟨⟨0, rfl, Nat.zero_le _⟩, fun b hb => by cases hb⟩
    · omega
  · obtain ⟨h1, h2⟩ := hcase i hi
    rw [collapse_other h1]
    refine ⟨(hT.node i h2).1, (hT.node i h2).2.1, fun h0' => ((hT.node i h2).2.2 h0').imp fun f hf' x y hk => ?_⟩
    have hfr : f.2 ≠ s.root := by
      intro hfr
      have := hk.2.1
      rw [hfr] at this
      have := hT.top i h2
      omega
    rw [Kid, collapse_other hfr]
    exact ⟨hlive _ hfr hk.1, hk.2⟩
  · obtain ⟨h1, h2⟩ := hcase i hi
    obtain ⟨h3, h4⟩ := hcase j hj
    rw [collapse_other h1] at hl hki
    rw [collapse_other h3] at hl hkj
    exact hT.uniq i j h2 h4 hl k hki hkj
  · rintro ⟨i, hi, hl, hm⟩
    obtain ⟨h1, h2⟩ := hcase i hi
    rw [collapse_other h1] at hl hm
    exact ⟨i, h2, hl, hm⟩
  · rintro ⟨i, hi, hl, hm⟩
    have h1 : i ≠ s.root := by rintro rfl; exact h0 hl
    refine ⟨i, hlive i h1 hi, ?_, ?_⟩ <;> rw [collapse_other h1]
    · exact hl
    · exact hm

end HS.Conc
