import Verif.Scan.Model
import Verif.Conc.Leaks

/-!
# The nodes of a level are linked in the order of their keys
-/

namespace HS.Scan

open HS.Conc

variable {s : St} {link : Nat → Option Nat}

/-- The link of node `x` is right: it leads to the node whose range begins where that of `x` ends; the last node of a level has none. -/
def Next (nd : Nat → Node) (fresh : Nat) (link : Nat → Option Nat) (x : Nat) : Prop :=
  ((nd x).hi = none ∧ link x = none) ∨ ∃ y, link x = some y ∧ Live nd fresh y ∧ (nd y).lev = (nd x).lev ∧ (nd y).lo = (nd x).hi

/-- All links are right. -/
def Linked (nd : Nat → Node) (fresh : Nat) (link : Nat → Option Nat) : Prop := ∀ x, Live nd fresh x → Next nd fresh link x

/-- Two nodes of one level whose ranges end at the same place are the same. -/
theorem same_hi {nd fresh root} (hT : TInv nd fresh root) {x y : Nat} (hx : Live nd fresh x) (hy : Live nd fresh y) (hl : (nd x).lev = (nd y).lev)
    {h : Nat} (h1 : (nd x).hi = some h) (h2 : (nd y).hi = some h) : x = y := by
  obtain ⟨a, ha, la⟩ := (hT.node x hx).1
  obtain ⟨b, hb, lb⟩ := (hT.node y hy).1
  have := la h h1
  have := lb h h2
  refine hT.uniq x y hx hy hl (h - 1) ⟨⟨a, ha, by omega⟩, ?_⟩ ⟨⟨b, hb, by omega⟩, ?_⟩
  · intro z hz; rw [h1] at hz; cases hz; omega
  · intro z hz; rw [h2] at hz; cases hz; omega

/-- The same if they begin at the same place. -/
theorem same_lo {nd fresh root} (hT : TInv nd fresh root) {x y : Nat} (hx : Live nd fresh x) (hy : Live nd fresh y) (hl : (nd x).lev = (nd y).lev)
    (h : (nd x).lo = (nd y).lo) : x = y := by
  obtain ⟨a, ha, la⟩ := (hT.node x hx).1
  obtain ⟨b, hb, lb⟩ := (hT.node y hy).1
  rw [ha, hb] at h
  cases h
  exact hT.uniq x y hx hy hl a ⟨⟨a, ha, Nat.le_refl _⟩, la⟩ ⟨⟨a, hb, Nat.le_refl _⟩, lb⟩

theorem lo_some {nd fresh root} (hT : TInv nd fresh root) {x : Nat} (hx : Live nd fresh x) : ∃ a, (nd x).lo = some a := by
  obtain ⟨a, ha, _⟩ := (hT.node x hx).1
  exact ⟨a, ha⟩

/-- In a chain each child but the first begins where another one ends. -/
theorem Chain.pred {nd fresh l} : ∀ {t : List Ent} {e : Ent} {lo hi}, Chain (Kid nd fresh l) lo (e :: t) hi → ∀ f ∈ t,
    ∃ g ∈ e :: t, (nd g.2).hi = (nd f.2).lo
  | f' :: t, e, lo, hi, h, f, hf => by
    rcases List.mem_cons.1 hf with rfl | hf
    · exact ⟨e, by simp, by rw [h.2.1.2.2.2, h.2.2.2.1.2.2.1]⟩
    · obtain ⟨g, hg, he⟩ := Chain.pred h.2.2 f hf
      exact ⟨g, List.mem_cons_of_mem _ hg, he⟩

/-- The last child ends where the chain ends. -/
theorem Chain.last_hi {nd fresh l} : ∀ {t : List Ent} {e : Ent} {lo hi}, Chain (Kid nd fresh l) lo (e :: t) hi →
    ∃ g ∈ e :: t, g.2 = (ids t).getLast?.getD e.2 ∧ (nd g.2).hi = hi
  | [], e, lo, hi, h => ⟨e, by simp, by simp, by rw [h.2.1.2.2.2]; exact h.2.2⟩
  | f :: t, e, lo, hi, h => by
    obtain ⟨g, hg, h1, h2⟩ := Chain.last_hi h.2.2
    refine ⟨g, List.mem_cons_of_mem _ hg, ?_, h2⟩
    rw [h1]
    simp only [ids, List.map_cons, List.getLast?_cons]
    rfl

section
variable {n c : Nat} {q : Plan} {d : Option Nat} {mids : List Ent} {β : Option Nat}

/-- The node after those replaced. -/
theorem Redo.after_last (h : Redo s n c q d mids β) (hT : TInv s.nodes s.fresh s.root) (hL : Linked s.nodes s.fresh link) {z : Nat}
    {s1 : St} (hs1 : s1 = s.merge n c (ids mids) q) {link1 : Nat → Option Nat}
    (hlink : link1 z = link ((ids mids).getLast?.getD c)) (hhi : (s1.nodes z).hi = β) (hlev : (s1.nodes z).lev + 1 = (s.nodes n).lev) :
    Next s1.nodes s1.fresh link1 z := by
  subst hs1
  obtain ⟨m, h1, h2, h3, h4⟩ := h.parts hT
  obtain ⟨g, hg, hgl, hgh⟩ := Chain.last_hi h2
  simp only at hgl
  have hlast := Chain.kid h2 hg
  have hgf : (s.nodes g.2).lev + 1 = (s.nodes n).lev := by
    have := h.lev
    omega
  rw [← hgl] at hlink
  rcases hL g.2 hlast.1 with ⟨k1, k2⟩ | ⟨y, k1, k2, k3, k4⟩
  · left
    refine ⟨?_, by rw [hlink]; exact k2⟩
    rw [hhi]
    rw [hgh] at k1
    have hle := h.le
    cases hp : q.post with
    | nil => rw [h.eq (Or.inl hp), ← h4]; exact k1
    | cons e t =>
      rw [hp] at h3
      obtain ⟨a, ha, _⟩ := h3.1
      rw [k1] at ha
      cases ha
  · right
    rw [hgh] at k4
    have hylev : (s.nodes y).lev + 1 = (s.nodes n).lev := by omega
    refine ⟨y, by rw [hlink]; exact k1, ?_⟩
    -- `y` is not one of those replaced: they begin before `m`
    have hnot : ∀ e ∈ (d, c) :: mids, e.2 ≠ y := by
      rintro e he rfl
      obtain ⟨_, _, g3, _, g5, _⟩ := Chain.kid h2 he
      rw [k4] at g3
      exact ltB.irrefl (g3.of_leB_right g5)
    have hyc : y ≠ c := fun hc => hnot (d, c) (by simp) hc.symm
    have hym : y ∉ ids mids := by
      intro hm
      obtain ⟨e, he, hey⟩ := List.mem_map.1 hm
      exact hnot e (List.mem_cons_of_mem _ he) hey
    cases hp : q.post with
    | nil =>
      have hk := HS.Conc.Redo.kid_same h hT (i := y) (l := (s.nodes y).lev) ⟨k2, rfl, rfl, rfl⟩ hyc hym (by rw [hp]; simp)
      refine ⟨hk.1, by rw [hk.2.1]; omega, ?_⟩
      rw [hk.2.2.1, hhi, h.eq (Or.inl hp), ← h4, k4]
    | cons e t =>
      rw [hp] at h3
      have hek := h.kid hT (h.mem_post (e := e) (by simp [hp]))
      have hye : y = e.2 := same_lo hT k2 hek.1 (by omega) (by rw [k4, h3.2.1.2.2.1])
      subst hye
      have hne : e.2 ≠ n := by rintro hen; rw [hen] at hylev; omega
      rw [Live, merge_next hne hyc hym (by have := k2.1; omega) (by simp [hp]), h.segs.ends]
      refine ⟨⟨?_, k2.2⟩, by simp only; omega, by rw [hhi]⟩
      have := k2.1
      simp only [St.merge]
      omega

/-- Where a new node begins and ends. -/
theorem mkNodes_lo {lev : Nat} : ∀ {l : List (Option Nat × List Ent)} {lo : Option Nat} {i : Nat} {x y : Node}, (mkNodes lev lo l)[i]? = some x →
    (mkNodes lev lo l)[i + 1]? = some y → y.lo = x.hi
  | [], _, _, _, _, h, _ => by simp [mkNodes] at h
  | [(b, p)], lo, i, x, y, _, h => by simp [mkNodes] at h
  | (b, p) :: (b', p') :: t, lo, i, x, y, hx, hy => by
    cases i with
    | zero =>
      simp [mkNodes] at hx hy
      subst hx hy
      rfl
    | succ i => exact mkNodes_lo (l := (b', p') :: t) (lo := cut b) (by simpa [mkNodes] using hx) (by simpa [mkNodes] using hy)

theorem mkNodes_last {nd : Nat → Node} {fresh lev lv : Nat} : ∀ {l : List (Option Nat × List Ent)} {lo β : Option Nat} {i : Nat} {x : Node},
    Segs nd fresh lv lo l β → (mkNodes lev lo l)[i]? = some x → i + 1 = l.length → x.hi = β
  | [], _, _, _, _, _, h, _ => by simp [mkNodes] at h
  | [(b, p)], lo, β, i, x, hs, h, hi => by
    have : i = 0 := by simpa using hi
    subst this
    simp [mkNodes] at h
    subst h
    exact hs.2.2
  | (b, p) :: (b', p') :: t, lo, β, i, x, hs, h, hi => by
    cases i with
    | zero => simp at hi
    | succ i => exact mkNodes_last (l := (b', p') :: t) hs.2.2 (by simpa [mkNodes] using h) (by simpa using hi)

/-- Replacing neighbouring children keeps the links right. -/
theorem Redo.linked (h : Redo s n c q d mids β) (hT : TInv s.nodes s.fresh s.root) (hL : Linked s.nodes s.fresh link) :
    Linked (s.merge n c (ids mids) q).nodes (s.merge n c (ids mids) q).fresh
      (relink link c ((ids mids).getLast?.getD c) s.fresh q.news.length) := by
  intro x hx
  obtain ⟨m, h1, h2, h3, h4⟩ := h.parts hT
  have hnc := h.ne_nc hT
  have hck := h.kid hT h.memc
  simp only at hck
  have hcf := hck.1.1
  have hfresh : (s.merge n c (ids mids) q).fresh = s.fresh + q.news.length := rfl
  rcases HS.Conc.Redo.cases h hT hx with ⟨hl, hc, hm⟩ | rfl | ⟨j, hj, rfl⟩
  · -- a node that was there, and is not replaced
    have hxf : x < s.fresh := hl.1
    have hlk : relink link c ((ids mids).getLast?.getD c) s.fresh q.news.length x = link x := by
      simp only [relink, if_neg hc]
      rw [if_neg (by omega)]
    obtain ⟨f1, f2, f3, f4, f5⟩ := h.frame hT hxf hc hm
    have hnot : ∀ y, Live s.nodes s.fresh y → (s.nodes y).lev = (s.nodes x).lev → (s.nodes y).lo = (s.nodes x).hi → y ∉ ids mids ∧
        q.post.head?.map (·.2) ≠ some y := by
      intro y hy1 hy2 hy3
      obtain ⟨a, ha⟩ := lo_some hT hy1
      have hno : ∀ g ∈ (d, c) :: mids, (s.nodes g.2).lev = (s.nodes x).lev → (s.nodes g.2).hi ≠ (s.nodes y).lo := by
        intro g hg hgl hgh
        have hgx : g.2 = x := same_hi hT (Chain.kid h2 hg).1 hl hgl (h := a) (by rw [hgh, ha]) (by rw [← hy3, ha])
        rcases List.mem_cons.1 hg with rfl | hg
        · exact hc hgx.symm
        · exact hm (List.mem_map.2 ⟨g, hg, hgx⟩)
      constructor
      · intro hym
        obtain ⟨f, hf, rfl⟩ := List.mem_map.1 hym
        obtain ⟨g, hg, he⟩ := Chain.pred h2 f hf
        refine hno g hg ?_ he
        have e1 := (Chain.kid h2 hg).2.1
        have e2 := (Chain.kid h2 (List.mem_cons_of_mem _ hf)).2.1
        omega
      · intro hpy
        obtain ⟨e, t, hp, rfl⟩ := next_mem hpy
        rw [hp] at h3
        obtain ⟨g, hg, _, hgh⟩ := Chain.last_hi h2
        refine hno g hg ?_ (by rw [hgh, h3.2.1.2.2.1])
        have e1 := (Chain.kid h2 hg).2.1
        have e2 := (Chain.kid h3 (e := e) (by simp)).2.1
        omega
    rcases hL x hl with ⟨k1, k2⟩ | ⟨y, k1, k2, k3, k4⟩
    · exact Or.inl ⟨by rw [f3]; exact k1, by rw [hlk]; exact k2⟩
    · right
      refine ⟨y, by rw [hlk]; exact k1, ?_⟩
      obtain ⟨n1, n2⟩ := hnot y k2 k3 k4
      by_cases hyc : y = c
      · subst hyc
        rw [Live, merge_c hnc]
        exact ⟨⟨by rw [hfresh]; omega, k2.2⟩, by simp only; rw [f1]; exact k3, by simp only; rw [f3]; exact k4⟩
      · have hk := HS.Conc.Redo.kid_same h hT (i := y) (l := (s.nodes y).lev) ⟨k2, rfl, rfl, rfl⟩ hyc n1 n2
        exact ⟨hk.1, by rw [hk.2.1, f1]; exact k3, by rw [hk.2.2.1, f3]; exact k4⟩
  · -- the first one
    by_cases h0 : q.news.length = 0
    · refine Redo.after_last h hT hL rfl (by simp [relink, h0]) ?_ (by rw [merge_c hnc]; exact hck.2)
      rw [merge_c hnc]
      have : q.news = [] := List.length_eq_zero_iff.1 h0
      have hsg := h.segs
      rw [this] at hsg
      exact hsg.2.2
    · right
      obtain ⟨x0, hx0, hxe⟩ := HS.Conc.Redo.new_node h hT (j := 0) (by omega)
      refine ⟨s.fresh, by simp [relink, h0], ⟨by rw [hfresh]; omega, ?_⟩, ?_, ?_⟩
      · have := (mkNodes_get hx0).2.1
        rw [show s.fresh = s.fresh + 0 by omega, hxe]; exact this
      · have := (mkNodes_get hx0).1
        rw [merge_c hnc, show s.fresh = s.fresh + 0 by omega, hxe]; exact this
      · rw [merge_c hnc, show s.fresh = s.fresh + 0 by omega, hxe]
        cases hn : q.news with
        | nil => rw [hn] at h0; simp at h0
        | cons p t =>
          rw [hn] at hx0
          simp [mkNodes] at hx0
          subst hx0
          rfl
  · -- a new one
    obtain ⟨x0, hx0, hxe⟩ := HS.Conc.Redo.new_node h hT hj
    have hjc : s.fresh + j ≠ c := by omega
    by_cases hlast : j + 1 = q.news.length
    · refine Redo.after_last h hT hL rfl ?_ ?_ (HS.Conc.Redo.new_lev h hT hj)
      · simp only [relink, if_neg hjc]
        rw [if_pos (by omega), if_pos (by omega)]
      · rw [hxe]
        exact mkNodes_last h.segs.2.2 hx0 hlast
    · right
      obtain ⟨x1, hx1, hxe1⟩ := HS.Conc.Redo.new_node h hT (j := j + 1) (by omega)
      refine ⟨s.fresh + (j + 1), ?_, ⟨by rw [hfresh]; omega, ?_⟩, ?_, ?_⟩
      · simp only [relink, if_neg hjc]
        rw [if_pos (by omega), if_neg (by omega)]
        rfl
      · rw [hxe1]; exact (mkNodes_get hx1).2.1
      · rw [hxe, hxe1, (mkNodes_get hx0).1, (mkNodes_get hx1).1]
      · rw [hxe, hxe1]
        exact mkNodes_lo hx0 hx1

end

/-- A new root above the old one: it has no next node, nor had the old one. -/
theorem grow_linked (hT : TInv s.nodes s.fresh s.root) (hL : Linked s.nodes s.fresh link) :
    Linked s.grow.nodes s.grow.fresh fun j => if j = s.fresh then none else link j := by
  intro x hx
  by_cases hf : x = s.fresh
  · subst hf
    left
    have := (grow_tinv hT).base.2.2
    exact ⟨this, by simp⟩
  · have hxf : x < s.fresh := by
      have h1 := hx.1
      simp only [St.grow] at h1
      omega
    have hl : Live s.nodes s.fresh x := ⟨hxf, by have := hx.2; rw [grow_old hf] at this; exact this⟩
    rcases hL x hl with ⟨k1, k2⟩ | ⟨y, k1, k2, k3, k4⟩
    · exact Or.inl ⟨by rw [grow_old hf]; exact k1, by simp [hf, k2]⟩
    · have hyf : y ≠ s.fresh := by have := k2.1; omega
      refine Or.inr ⟨y, by simp [hf, k1], ⟨?_, by rw [grow_old hyf]; exact k2.2⟩, ?_, ?_⟩
      · have := k2.1
        simp only [St.grow]
        omega
      · rw [grow_old hyf, grow_old hf]; exact k3
      · rw [grow_old hyf, grow_old hf]; exact k4

/-- Splitting the root. -/
theorem splitRoot_linked {i : Nat} (hT : TInv s.nodes s.fresh s.root) (hL : Linked s.nodes s.fresh link) (h0 : 0 < i)
    (h1 : i < (s.nodes s.root).es.length) :
    Linked (s.splitRoot i).nodes (s.splitRoot i).fresh
      fun j => if j = s.fresh then none else relink link s.root s.root (s.fresh + 1) 1 j := by
  have hrf : s.root < s.fresh := hT.base.1.1
  have hg := grow_tinv hT
  obtain ⟨b, t, hr, he⟩ := split_redo (root_at hT) hg h0 (by rw [grow_old (by omega)]; exact h1)
  rw [splitRoot_eq hT, he]
  have hr' : Redo s.grow s.fresh s.root (splitPlan s.grow 0 s.fresh s.root i b t) b [] (cut b) := hr
  have := Redo.linked hr' hg (grow_linked hT hL)
  have hfun : (relink (fun j => if j = s.fresh then none else link j) s.root ((ids []).getLast?.getD s.root) s.grow.fresh
      (splitPlan s.grow 0 s.fresh s.root i b t).news.length) =
      fun j => if j = s.fresh then none else relink link s.root s.root (s.fresh + 1) 1 j := by
    funext j
    have hgf : s.grow.fresh = s.fresh + 1 := rfl
    simp only [relink, splitPlan, List.length_cons, List.length_nil, ids, List.map_nil, List.getLast?_nil, Option.getD_none, hgf]
    by_cases hjr : j = s.root
    · subst hjr
      have : s.root ≠ s.fresh := by omega
      simp [this]
    · by_cases hjf : j = s.fresh
      · subst hjf
        simp [hjr]
        omega
      · have hrf' : s.root ≠ s.fresh := by omega
        simp [hjr, hjf, hrf']
  rw [hfun] at this
  exact this

/-- The only child becomes the root. -/
theorem collapse_linked {e : Ent} (hT : TInv s.nodes s.fresh s.root) (hL : Linked s.nodes s.fresh link) : Linked (s.collapse e.2).nodes (s.collapse e.2).fresh link := by
  intro x hx
  have hfr : (s.collapse e.2).fresh = s.fresh := rfl
  by_cases hr : x = s.root
  · subst hr
    have := hx.2
    rw [collapse_root] at this
    cases this
  · have hl : Live s.nodes s.fresh x := ⟨hx.1, by have := hx.2; rw [collapse_other hr] at this; exact this⟩
    rcases hL x hl with ⟨k1, k2⟩ | ⟨y, k1, k2, k3, k4⟩
    · exact Or.inl ⟨by rw [collapse_other hr]; exact k1, k2⟩
    · have hyr : y ≠ s.root := by
        rintro rfl
        obtain ⟨a, ha, la⟩ := (hT.node x hl).1
        have h0' := hT.base.2.1
        rw [h0'] at k4
        have := la 0 k4.symm
        omega
      exact Or.inr ⟨y, k1, ⟨k2.1, by rw [collapse_other hyr]; exact k2.2⟩, by rw [collapse_other hyr, collapse_other hr]; exact k3,
        by rw [collapse_other hyr, collapse_other hr]; exact k4⟩

/-- What a node that a query has locked keeps while others go on. -/
structure Still (s s' : St) (x : Nat) : Prop where
  live : Live s'.nodes s'.fresh x
  lev : (s'.nodes x).lev = (s.nodes x).lev
  es : (s'.nodes x).es = (s.nodes x).es
  hi : (s'.nodes x).hi = (s.nodes x).hi
  lo : leB (s'.nodes x).lo (s.nodes x).lo
  loEq : (s.nodes x).lev ≠ 0 → (s'.nodes x).lo = (s.nodes x).lo

theorem Still.same {s' : St} {x : Nat} (hx : Live s.nodes s.fresh x) (hn : s'.nodes = s.nodes) (hf : s'.fresh = s.fresh) : Still s s' x :=
  ⟨by rw [hn, hf]; exact hx, by rw [hn], by rw [hn], by rw [hn], by rw [hn]; exact leB.refl _, fun _ => by rw [hn]⟩

/-- What a step of a thread does to the links and to nodes it has not locked for writing. -/
def Effect (y : Sys) (t : Nat) (a : Act) (s' : St) : Prop :=
  Linked s'.nodes s'.fresh (y.links t a) ∧ ∀ x, Live y.s.nodes y.s.fresh x → (x, true) ∉ (y.s.pcs t).locks →
    (∀ o, y.s.pcs t = .excl o → a = .switchCp) → Still y.s s' x ∧ y.links t a x = y.link x

variable {y : Sys} {t : Nat} {a : Act} {s' : St}

theorem Effect.same (hL : Linked y.s.nodes y.s.fresh y.link) (hn : s'.nodes = y.s.nodes) (hf : s'.fresh = y.s.fresh) (hl : y.links t a = y.link) :
    Effect y t a s' := by
  refine ⟨by rw [hn, hf, hl]; exact hL, fun x hx _ _ => ⟨Still.same hx hn hf, by rw [hl]⟩⟩

theorem Effect.redo {n c : Nat} {q : Plan} {d : Option Nat} {mids : List Ent} {β : Option Nat} (hT : TInv y.s.nodes y.s.fresh y.s.root)
    (hL : Linked y.s.nodes y.s.fresh y.link) (h : Redo y.s n c q d mids β) (hn : s'.nodes = (y.s.merge n c (ids mids) q).nodes)
    (hf : s'.fresh = (y.s.merge n c (ids mids) q).fresh) (h1 : (n, true) ∈ (y.s.pcs t).locks) (h2 : (c, true) ∈ (y.s.pcs t).locks)
    (h3 : ∀ x ∈ ids mids, (x, true) ∈ (y.s.pcs t).locks)
    (hl : y.links t a = relink y.link c ((ids mids).getLast?.getD c) y.s.fresh q.news.length) : Effect y t a s' := by
  refine ⟨by rw [hn, hf, hl]; exact Redo.linked h hT hL, fun x hx hw _ => ?_⟩
  have hxn : x ≠ n := by rintro rfl; exact hw h1
  have hxc : x ≠ c := by rintro rfl; exact hw h2
  have hxm : x ∉ ids mids := fun hm => hw (h3 x hm)
  have hxf := hx.1
  obtain ⟨f1, f2, f3, f4, f5⟩ := h.frame hT hxf hxc hxm
  refine ⟨⟨?_, by rw [hn]; exact f1, by rw [hn]; exact (f5 hxn).1, by rw [hn]; exact f3, by rw [hn]; exact f4, fun hlev => ?_⟩, ?_⟩
  · rw [hn, hf]
    exact ⟨by simp only [St.merge]; omega, by rw [f2]; exact hx.2⟩
  · rw [hn]
    by_cases hp : q.post.head?.map (·.2) = some x
    · rw [merge_next hxn hxc hxm (by omega) hp, h.segs.ends]
      obtain ⟨e, u, hp', rfl⟩ := next_mem hp
      obtain ⟨m, _, _, g3, g4⟩ := h.parts hT
      have hek := h.kid hT (h.mem_post (e := e) (by simp [hp']))
      rw [hp'] at g3
      rw [h.eq (Or.inr (by omega)), ← g4, g3.2.1.2.2.1]
    · rw [merge_same hxn hxc hxm (by omega) hp]
  · rw [hl]
    simp only [relink, if_neg hxc]
    rw [if_neg (by omega)]

theorem label_length (d bm : Option Nat) (fix : Bool) : ∀ (l : List (List Ent)), (label d bm fix l).length = l.length := by
  intro l
  induction l generalizing d with
  | nil => rfl
  | cons p t ih =>
    cases t with
    | nil => rfl
    | cons q u => simp only [label, List.length_cons]; rw [ih none]; rfl

theorem chop_length : ∀ (ns : List Nat) (l : List Ent), (chop ns l).length = ns.length
  | [], _ => rfl
  | m :: ms, l => by simp [chop, chop_length ms]

theorem plan_news {k n c n0 : Nat} {olds ns : List Nat} {q : Plan} (hq : s.plan k n c olds n0 ns = some q) : q.news.length = ns.length := by
  simp only [St.plan] at hq
  split at hq
  · split at hq
    · next f u hl =>
      cases hq
      have := congrArg List.length hl
      rw [label_length] at this
      simpa [chop_length] using this.symm
    · cases hq
  · cases hq

theorem take_nodes (t n : Nat) (w : Bool) : (s.take t n w).nodes = s.nodes := by cases w <;> rfl
theorem take_fresh (t n : Nat) (w : Bool) : (s.take t n w).fresh = s.fresh := by cases w <;> rfl
theorem take_root (t n : Nat) (w : Bool) : (s.take t n w).root = s.root := by cases w <;> rfl

/-- Each step of a thread keeps the links right, and the nodes the others have locked. -/
theorem op_effect (h : Inv y.s) (hL : Linked y.s.nodes y.s.fresh y.link) (hs : step y.s t a = some s') : Effect y t a s' := by
  have hp := h.pcs t
  have hs0 := hs
  simp only [step] at hs
  split at hs
  case isFalse => cases hs
  case isTrue ht =>
  have hp := hp ht
  split at hs
  case h_5 o n w hpc =>
    -- at the leaf
    split at hs
    case isFalse => cases hs
    case isTrue hc =>
    cases hs
    have hl : y.links t .leaf = y.link := by simp [Sys.links, hpc]
    rw [hpc] at hp
    obtain ⟨hlive, hk, _⟩ := hp
    by_cases hes : (leafCall (y.s.nodes n).es o).1 = (y.s.nodes n).es
    · exact Effect.same hL (by simp [St.atLeaf, hes, St.goto, St.emit]) (by simp [St.atLeaf, hes, St.goto, St.emit]) hl
    · have hwt : w = true := by
        rcases hc.2 with hw | hw | hw
        · exact hw
        · exfalso
          apply hes
          cases o with
          | get k => rfl
          | put ty k v => cases hw
          | remove k => cases hw
        · exfalso
          apply hes
          cases o with
          | get k => rfl
          | put ty k v => cases hw.1
          | remove k => simp [leafCall, hw.2, look]
      subst hwt
      have hf : (y.s.atLeaf t n o).fresh = y.s.fresh := by simp [St.atLeaf, hes, St.goto, St.emit, St.set]
      have ho : ∀ j, j ≠ n → (y.s.atLeaf t n o).nodes j = y.s.nodes j := by
        intro j hj
        simp [St.atLeaf, hes, St.goto, St.emit, St.set, hj]
      have hn : ∀ j, ((y.s.atLeaf t n o).nodes j).lev = (y.s.nodes j).lev ∧ ((y.s.atLeaf t n o).nodes j).del = (y.s.nodes j).del ∧
          ((y.s.atLeaf t n o).nodes j).lo = (y.s.nodes j).lo ∧ ((y.s.atLeaf t n o).nodes j).hi = (y.s.nodes j).hi := by
        intro j
        by_cases hj : j = n
        · subst hj
          simp [St.atLeaf, hes, St.goto, St.emit, St.set]
        · rw [ho j hj]
          exact ⟨rfl, rfl, rfl, rfl⟩
      have hlv : ∀ j, Live (y.s.atLeaf t n o).nodes (y.s.atLeaf t n o).fresh j ↔ Live y.s.nodes y.s.fresh j := by
        intro j
        simp only [Live, hf, (hn j).2.1]
      refine ⟨fun x hx => ?_, fun x hx hw _ => ⟨?_, by rw [hl]⟩⟩
      · rw [hl]
        rcases hL x ((hlv x).1 hx) with ⟨k1, k2⟩ | ⟨z, k1, k2, k3, k4⟩
        · exact Or.inl ⟨by rw [(hn x).2.2.2]; exact k1, k2⟩
        · exact Or.inr ⟨z, k1, (hlv z).2 k2, by rw [(hn z).1, (hn x).1]; exact k3, by rw [(hn z).2.2.1, (hn x).2.2.2]; exact k4⟩
      · have hxn : x ≠ n := by rintro rfl; exact hw (by rw [hpc]; simp [Pc.locks])
        exact ⟨(hlv x).2 hx, by rw [ho x hxn], by rw [ho x hxn], by rw [ho x hxn], by rw [ho x hxn]; exact leB.refl _, fun _ => by rw [ho x hxn]⟩
  case h_11 o n c i hpc =>
    -- a split
    split at hs
    case isFalse => cases hs
    case isTrue hc =>
    cases hs
    rw [hpc] at hp
    obtain ⟨b, u, hr, he⟩ := split_redo hp.2 h.tree hc.2.1 hc.2.2
    have hr' : Redo y.s n c (splitPlan y.s o.key n c i b u) b [] (cut b) := hr
    refine Effect.redo h.tree hL hr' (by simp [St.stamp, St.goto, he, ids]) (by simp [St.stamp, St.goto, he, ids])
      (by rw [hpc]; simp [Pc.locks]) (by rw [hpc]; simp [Pc.locks]) (by simp [ids]) ?_
    simp [Sys.links, hpc, splitPlan, ids]
  case h_16 o n c olds n0 ns hpc =>
    -- a merge
    split at hs
    · next q hq =>
      cases hs
      rw [hpc] at hp
      obtain ⟨hw, hat, ho⟩ := hp
      rw [List.append_nil] at ho
      obtain ⟨d, mids, β, rfl, hr⟩ := plan_redo hat h.tree ho hq
      refine Effect.redo h.tree hL hr (by simp [St.stamp, St.goto]) (by simp [St.stamp, St.goto])
        (by rw [hpc]; simp [Pc.locks]) (by rw [hpc]; simp [Pc.locks]) (fun x hx => by rw [hpc]; simp only [Pc.locks, List.mem_cons]; exact Or.inr (Or.inr (List.mem_map.2 ⟨x, hx, rfl⟩))) ?_
      simp [Sys.links, hpc, plan_news hq]
    · cases hs
  case h_19 o i hpc =>
    -- the root is split
    split at hs
    case isFalse => cases hs
    case isTrue hc =>
    split at hs
    case isFalse hf =>
      cases hs
      exact Effect.same hL rfl rfl (by simp [Sys.links, hpc, hf])
    case isTrue hf =>
    cases hs
    refine ⟨?_, fun x _ _ hx => by cases hx o hpc⟩
    have hl : y.links t (.rootSplit i) = fun j => if j = y.s.fresh then none else relink y.link y.s.root y.s.root (y.s.fresh + 1) 1 j := by
      simp [Sys.links, hpc, hf]
    rw [hl]
    exact splitRoot_linked h.tree hL hc.2.2.1 hc.2.2.2
  case h_20 o hpc =>
    -- the only child becomes the root
    split at hs
    case isFalse => cases hs
    case isTrue hc =>
    split at hs
    · next e he =>
      split at hs
      case isFalse => cases hs; exact Effect.same hL rfl rfl (by simp [Sys.links, hpc])
      case isTrue =>
      cases hs
      refine ⟨?_, fun x _ _ hx => by cases hx o hpc⟩
      have hl : y.links t .rootCollapse = y.link := by simp [Sys.links, hpc]
      rw [hl]
      exact collapse_linked (e := e) h.tree hL
    · cases hs
  case h_27 =>
    split at hs
    · cases hs
      refine Effect.same hL rfl rfl ?_
      cases hpc : y.s.pcs t <;> first | simp [Sys.links, hpc]; done | (next o n c olds want => cases want <;> simp [Sys.links, hpc])
    · cases hs
  all_goals repeat' split at hs
  all_goals first
    | (cases hs; done)
    | (cases hs
       refine Effect.same hL ?_ ?_ ?_
       · first | rfl | simp [St.goto, St.emit, take_nodes]; done
       · first | rfl | simp [St.goto, St.emit, take_fresh]; done
       · simp [Sys.links, *]; done)

/-- The locks for writing a step takes are those it awaited. -/
theorem op_locks (hs : step y.s t a = some s') {n : Nat} (hn : (n, true) ∈ (s'.pcs t).locks) :
    (n, true) ∈ (y.s.pcs t).locks ∨ (locking a = true ∧ y.s.awaits (y.s.pcs t) = some (n, true)) := by
  simp only [step] at hs
  split at hs
  case isFalse => cases hs
  case isTrue ht =>
  split at hs
  case h_6 o m w hpc =>
    repeat' split at hs
    all_goals first
      | (cases hs; done)
      | (cases hs; simp [St.goto, Pc.locks] at hn; done)
      | skip
    next c hc _ _ =>
    cases hs
    rw [hpc]
    simp only [St.goto, if_true, Pc.locks, List.mem_cons, List.not_mem_nil, or_false] at hn
    rcases hn with hn | hn
    · left; simp [Pc.locks, hn]
    · right
      refine ⟨rfl, ?_⟩
      simp only [St.awaits, hc, Option.map_some]
      rw [if_neg (by assumption)]
      exact congrArg some hn.symm
  case h_10 o m c gn gc hpc =>
    repeat' split at hs
    all_goals first
      | (cases hs; done)
      | (cases hs; simp [St.goto, Pc.locks] at hn; done)
      | skip
    cases hs
    rw [hpc]
    simp only [St.goto, if_true, Pc.locks, List.mem_cons, List.not_mem_nil, or_false] at hn
    rcases hn with hn | hn
    · left; simp [Pc.locks, hn]
    · right; exact ⟨rfl, congrArg some hn.symm⟩
  case h_16 o m c olds n0 ns hpc =>
    split at hs
    · cases hs
      rw [hpc]
      simp only [St.goto, if_true, Pc.locks, List.mem_cons, List.not_mem_nil, or_false] at hn
      left; simp [Pc.locks, hn]
    · cases hs
  case h_17 o m c olds hpc =>
    cases hs
    rw [hpc]
    simp only [St.goto, if_true, Pc.locks, List.mem_cons, List.not_mem_nil, or_false] at hn
    left
    simp only [Pc.locks, List.mem_cons]
    rcases hn with hn | hn
    · exact Or.inl hn
    · exact Or.inr (Or.inl hn)
  case h_15 o m c olds z want hpc =>
    repeat' split at hs
    all_goals first
      | (cases hs; done)
      | (cases hs; simp [St.goto, Pc.locks] at hn; done)
      | skip
    cases hs
    rw [hpc]
    simp only [St.goto, if_true, Pc.locks, List.mem_cons, List.map_append, List.mem_append, List.map_cons, List.map_nil, List.not_mem_nil, or_false] at hn
    rcases hn with hn | hn | hn | hn
    · left; simp [Pc.locks, hn]
    · left; simp [Pc.locks, hn]
    · left; simp only [Pc.locks, List.mem_cons]; exact Or.inr (Or.inr hn)
    · right; exact ⟨rfl, congrArg some hn.symm⟩
  all_goals repeat' split at hs
  all_goals first
    | (cases hs; done)
    | (cases hs
       first
         | (simp [St.goto, St.emit, take_pcs, Pc.locks, St.stamp, St.split, St.merge, St.splitRoot, St.collapse, St.set, atLeaf_pcs] at hn; done)
         | (simp_all [St.goto, St.emit, take_pcs, Pc.locks, St.stamp, St.split, St.merge, St.splitRoot, St.collapse, St.set, locking, St.awaits]; done)
         | skip)

end HS.Scan
