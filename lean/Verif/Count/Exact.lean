import Verif.Count.Model
import Mathlib.Tactic.Linarith
import Mathlib.Tactic.Ring

/-!
# The counters follow the tree

The functions with counters compute the trees of those without (`putC_ok`, `removeC_ok`), and change a counter by what
the number of nodes changes.
-/

namespace HS.Btree

section
variable {K V A : Type}

/-! ## Weights -/

/-- 1 for the nodes that a counter counts: leaves (`l = true`) or interior nodes. -/
def wt (l : Bool) (n : Nat) : Int := if decide (n = 0) = l then 1 else 0

/-- One of the two counters. -/
def Nums.get (x : Nums) (l : Bool) : Int := if l then x.leaf else x.int

/-- Number of nodes of the kind `l` in a subtree. -/
def W (l : Bool) : (n : Nat) → Tree K V n → Int
  | 0, _ => wt l 0
  | n + 1, t => wt l (n + 1) + ((kv t : List (Tree K V n)).map (W l n)).sum

/-- The same for a list of subtrees. -/
def Ws (l : Bool) (n : Nat) (ts : List (Tree K V n)) : Int := (ts.map (W l n)).sum

theorem Ws_append (l : Bool) (n : Nat) (a b : List (Tree K V n)) : Ws l n (a ++ b) = Ws l n a + Ws l n b := by
  simp [Ws]

theorem Ws_cons (l : Bool) (n : Nat) (a : Tree K V n) (b : List (Tree K V n)) : Ws l n (a :: b) = W l n a + Ws l n b := by
  simp [Ws]

theorem W_succ (l : Bool) (n : Nat) (t : Tree K V (n + 1)) :
    W l (n + 1) t = wt l (n + 1) + Ws l n (kv t) := rfl

theorem kv_kids (t : Node K A) : kv t = t.kids.map (·.2) := by
  unfold kv Node.kids
  cases t.edge <;> simp

theorem alloc_get (c : Cn) (lvl : Nat) (l : Bool) : (c.alloc lvl).num.get l = c.num.get l + wt l lvl := by
  unfold Cn.alloc Nums.get wt
  by_cases h : lvl = 0 <;> cases l <;> simp [h]

theorem free_get (c : Cn) (lvl : Nat) (l : Bool) : (c.free lvl).num.get l = c.num.get l - wt l lvl := by
  unfold Cn.free Nums.get wt
  by_cases h : lvl = 0 <;> cases l <;> simp [h]

theorem allocs_get (lvl : Nat) (l : Bool) : ∀ (k : Nat) (c : Cn),
    (c.allocs lvl k).num.get l = c.num.get l + k * wt l lvl := by
  intro k
  induction k with
  | zero => intro c; simp [Cn.allocs]
  | succ k ih => intro c; unfold Cn.allocs; rw [ih, alloc_get]; push_cast; ring

theorem frees_get (lvl : Nat) (l : Bool) : ∀ (k : Nat) (c : Cn),
    (c.frees lvl k).num.get l = c.num.get l - k * wt l lvl := by
  intro k
  induction k with
  | zero => intro c; simp [Cn.frees]
  | succ k ih => intro c; unfold Cn.frees; rw [ih, free_get]; push_cast; ring

theorem alloc_depth (c : Cn) (lvl : Nat) : (c.alloc lvl).num.depth = c.num.depth ∧ (c.alloc lvl).root = c.root := by
  unfold Cn.alloc; split <;> exact ⟨rfl, rfl⟩

theorem free_depth (c : Cn) (lvl : Nat) : (c.free lvl).num.depth = c.num.depth ∧ (c.free lvl).root = c.root := by
  unfold Cn.free; split <;> exact ⟨rfl, rfl⟩

theorem allocs_depth (lvl : Nat) : ∀ (k : Nat) (c : Cn),
    (c.allocs lvl k).num.depth = c.num.depth ∧ (c.allocs lvl k).root = c.root := by
  intro k
  induction k with
  | zero => intro c; exact ⟨rfl, rfl⟩
  | succ k ih => intro c; unfold Cn.allocs; rw [(ih _).1, (ih _).2]; exact alloc_depth _ _

theorem frees_depth (lvl : Nat) : ∀ (k : Nat) (c : Cn),
    (c.frees lvl k).num.depth = c.num.depth ∧ (c.frees lvl k).root = c.root := by
  intro k
  induction k with
  | zero => intro c; exact ⟨rfl, rfl⟩
  | succ k ih => intro c; unfold Cn.frees; rw [(ih _).1, (ih _).2]; exact free_depth _ _

/-! ## Splits and merges -/

/-- The children of a row of nodes whose edges are empty but for the last. -/
theorem kv_row (xs : List (Node K A)) (h : ∀ x ∈ xs.dropLast, x.edge = none) :
    xs.flatMap kv = (xs.flatMap (·.es)).map (·.2) ++ ((xs.getLast?).bind (·.edge)).toList := by
  induction xs with
  | nil => rfl
  | cons x r ih =>
    cases r with
    | nil => simp [kv]
    | cons y r' =>
      have h1 : x.edge = none := h x (by simp)
      have h2 := ih (fun z hz => h z (by simp [List.dropLast_cons_cons]; right; exact hz))
      rw [List.flatMap_cons, h2]
      simp [kv, h1, List.getLast?_cons_cons]

theorem row_sum (g : A → Int) (w : Int) (xs : List (Node K A)) :
    (xs.map (fun x => w + ((kv x).map g).sum)).sum = xs.length * w + ((xs.flatMap kv).map g).sum := by
  induction xs with
  | nil => simp
  | cons x r ih =>
    rw [List.map_cons, List.sum_cons, ih, List.flatMap_cons, List.map_append, List.sum_append, List.length_cons]
    push_cast
    ring

theorem regroup_sum (g : A → Int) (w : Int) {xs ys : List (Node K A)} {a b : Nat} (h : Regroup xs ys a b) :
    (ys.map (fun x => w + ((kv x).map g).sum)).sum + xs.length * w
      = (xs.map (fun x => w + ((kv x).map g).sum)).sum + ys.length * w := by
  have e : ys.flatMap kv = xs.flatMap kv := by
    rw [kv_row xs h.edgeX, kv_row ys h.edgeY, h.same, h.edge]
  rw [row_sum, row_sum, e]
  ring

theorem kids_sum {t : Node K A} {g : A → Int} {a z : List (Option K × A)} {q : Option K} {c : A}
    (hk : t.kids = a ++ (q, c) :: z) :
    ((kv t).map g).sum = ((a.map (·.2)).map g).sum + g c + ((z.map (·.2)).map g).sum := by
  rw [kv_kids, hk]
  simp only [List.map_append, List.map_cons, List.sum_append, List.sum_cons]
  ring

theorem pair_sum {t : Node K A} (g : A → Int) (w : Int) {q r : Option K} {c d : A} (hk : t.kids = [(q, c), (r, d)]) :
    w + ((kv t).map g).sum = w + (g c + g d) := by
  rw [kv_kids, hk]
  simp

theorem setVal_sum {t : Node K A} {i : Nat} {ch : A} (g : A → Int) (w : Int) (ch' : A) (hc : t.valAt i = some ch) :
    w + ((kv (t.setVal i ch')).map g).sum = w + ((kv t).map g).sum + g ch' - g ch := by
  obtain ⟨a, q, z, hk, ha⟩ := valAt_split hc
  have hk' : (Node.setVal t i ch').kids = a ++ (q, ch') :: z := by
    rw [kids_setVal t (by rw [hk]; simp; omega), hk, ← ha, modify_at]
  rw [kids_sum hk, kids_sum hk']
  ring

theorem Ws_zero (l : Bool) (xs : List (Tree K V 0)) : Ws l 0 xs = xs.length * wt l 0 := by
  induction xs with
  | nil => simp [Ws]
  | cons x r ih => rw [Ws_cons, ih]; push_cast [List.length_cons]; simp only [W]; ring

/-- Regrouping the nodes of one level changes the number of nodes by the number of nodes of that level. -/
theorem Ws_regroup (l : Bool) (n : Nat) {xs ys : List (Tree K V n)} {a b : Nat} (h : Regroup xs ys a b) :
    Ws l n ys + xs.length * wt l n = Ws l n xs + ys.length * wt l n := by
  cases n with
  | zero => rw [Ws_zero, Ws_zero]; ring
  | succ n => exact regroup_sum (W l n) (wt l (n + 1)) h

end

section
variable {K V : Type} [LinearOrder K]

theorem W_splitNode {n : Nat} {p : NK K (Val K V n)} {pct nid : Nat} {nd c1 c2 : Tree K V n} {k : K} (l : Bool)
    (h : splitNode p pct nd nid = .ok (c1, c2, k)) : W l n c1 + W l n c2 = W l n nd + wt l n := by
  obtain ⟨a, b, x, h1, h2, rfl, h4, rfl, rfl⟩ := splitNode_ok h
  have hr : Regroup [nd] [{ nd with next := some nid, es := a, edge := none },
      { id := nid, next := nd.next, es := b, edge := nd.edge }] nid (nid + 1) := by
    refine ⟨by omega, by simp [h1], by simp, by simp, by simp, by simp, by simp, by simp, ?_, by simp, ?_⟩
    · simp [Chain, headId]
    · simp [ids]
  have := Ws_regroup l n hr
  simp only [Ws, List.map_cons, List.map_nil, List.sum_cons, List.sum_nil, List.length_cons, List.length_nil] at this
  push_cast at this
  linarith

theorem splitIn_sum {A : Type} {p : NK K (Node K A)} {pc : NK K A} {pct idx nid : Nat} {t t' : Node K (Node K A)}
    {ch : Node K A} (g : Node K A → Int) (w0 w : Int)
    (hg : ∀ c1 c2 k, splitNode pc pct ch nid = .ok (c1, c2, k) → g c1 + g c2 = g ch + w) (hc : t.valAt idx = some ch)
    (h : splitIn p pc pct t idx ch nid = .ok t') :
    w0 + ((kv t').map g).sum = w0 + ((kv t).map g).sum + w := by
  obtain ⟨a, q, z, hk, ha⟩ := valAt_split hc
  obtain ⟨c1, c2, k, h1, h2⟩ := kids_splitIn hk ha h
  have h3 := hg c1 c2 k h1
  rw [kids_sum hk, kids_sum h2]
  simp only [List.map_cons, List.sum_cons]
  linarith

theorem W_splitIn {n : Nat} {p : NK K (Node K (Val K V n))} {pc : NK K (Val K V n)} {pct idx nid : Nat}
    {t t' : Tree K V (n + 1)} {ch : Tree K V n} (l : Bool) (hc : t.valAt idx = some ch)
    (h : splitIn p pc pct t idx ch nid = .ok t') : W l (n + 1) t' = W l (n + 1) t + wt l n :=
  splitIn_sum (W l n) (wt l (n + 1)) (wt l n) (fun _ _ _ h => W_splitNode l h) hc h

theorem W_setVal {n : Nat} {t : Tree K V (n + 1)} {i : Nat} {ch : Tree K V n} (ch' : Tree K V n) (l : Bool)
    (hc : t.valAt i = some ch) : W l (n + 1) (t.setVal i ch') = W l (n + 1) t + W l n ch' - W l n ch :=
  setVal_sum (W l n) (wt l (n + 1)) ch' hc

/-! ## Put -/

/-- What is proved of a function with counters: a counter changes as the number of nodes does, and the depth and the
superblock are left alone. -/
def Follows (n : Nat) (t t' : Tree K V n) (cn cn' : Cn) : Prop :=
  (∀ l, cn'.num.get l - cn.num.get l = W l n t' - W l n t) ∧ cn'.num.depth = cn.num.depth ∧ cn'.root = cn.root

theorem putLoopC_ok {c : Cfg K V} {r : PutReq K V} {n : Nat}
    {rec : Tree K V n → Nat → Except Fault (Tree K V n × Nat × Status × Option V)}
    {recC : Tree K V n → Nat → Cn → Except Fault ((Tree K V n × Nat × Status × Option V) × Cn)}
    (hrec : ∀ {t nid cn res cn'}, recC t nid cn = .ok (res, cn') → rec t nid = .ok res ∧ Follows n t res.1 cn cn') :
    ∀ (f : Nat) {t : Tree K V (n + 1)} {nid : Nat} {cn : Cn} {res cn'},
      putLoopC c r n recC f t nid cn = .ok (res, cn') →
      putLoop c r n rec f t nid = .ok res ∧ Follows (n + 1) t res.1 cn cn' := by
  intro f
  induction f with
  | zero => intro t nid cn res cn' h; cases h
  | succ f ih =>
    intro t nid cn res cn' h
    unfold putLoopC at h
    unfold putLoop
    cases hb : bsearch t.es r.key with
    | none => rw [hb] at h; cases h
    | some bi =>
      obtain ⟨bb, idx⟩ := bi
      rw [hb] at h
      simp only at h ⊢
      cases hv : t.valAt idx with
      | none => rw [hv] at h; cases h
      | some ch =>
        rw [hv] at h
        simp only at h ⊢
        split at h
        · rename_i hs
          rw [if_pos hs]
          obtain ⟨t1, h1, h2⟩ := bind_ok h
          obtain ⟨h3, h4, h5, h6⟩ := ih h2
          refine ⟨by rw [h1]; exact h3, fun l => ?_, ?_, ?_⟩
          · have a1 := h4 l
            have a2 := W_splitIn l hv h1
            have a3 := alloc_get cn n l
            linarith
          · rw [h5, (alloc_depth _ _).1]
          · rw [h6, (alloc_depth _ _).2]
        · rename_i hs
          rw [if_neg hs]
          obtain ⟨⟨⟨ch', nid', st, ex⟩, cn1⟩, h1, h2⟩ := bind_ok h
          cases h2
          obtain ⟨h3, h4, h5⟩ := hrec h1
          refine ⟨by rw [h3]; rfl, fun l => ?_, h5⟩
          have a1 := h4 l
          have a2 := W_setVal ch' l hv
          simp only at a1 ⊢
          linarith

theorem doPutC_ok {c : Cfg K V} {r : PutReq K V} {f : Nat} (n : Nat) :
    ∀ {t : Tree K V n} {nid : Nat} {cn : Cn} {res cn'}, doPutC c r f n t nid cn = .ok (res, cn') →
      doPut c r f n t nid = .ok res ∧ Follows n t res.1 cn cn' := by
  induction n with
  | zero =>
    intro t nid cn res cn' h
    unfold doPutC at h
    obtain ⟨⟨es, st, ex⟩, h1, h2⟩ := bind_ok h
    cases h2
    refine ⟨by unfold doPut; rw [h1]; rfl, fun l => ?_, rfl, rfl⟩
    simp [W]
  | succ n ih =>
    intro t nid cn res cn' h
    unfold doPutC at h
    unfold doPut
    exact putLoopC_ok (fun h => ih h) f h

/-- The counters are those of the tree. -/
def Right (b : BT K V) (x : Nums) : Prop := ∀ l, x.get l = W l b.lvl b.root

/-- What is proved of a whole call. -/
def FollowsB (b b' : BT K V) (cn cn' : Cn) : Prop :=
  (∀ l, cn'.num.get l - cn.num.get l = W l b'.lvl b'.root - W l b.lvl b.root) ∧
    (cn.num.depth = b.lvl % 256 → cn'.num.depth = b'.lvl % 256) ∧
    (∀ x, cn'.root = some x → (cn.root = some x ∧ b'.lvl = b.lvl) ∨ x.depth = b'.lvl % 256) ∧
    (cn'.root = none → b'.lvl = b.lvl ∧ cn.root = none)

theorem W_splitRoot {c : Cfg K V} {b b' : BT K V} (l : Bool) (h : splitRoot c b = .ok b') :
    b'.lvl = b.lvl + 1 ∧ W l b'.lvl b'.root = W l b.lvl b.root + wt l b.lvl + wt l (b.lvl + 1) := by
  unfold splitRoot at h
  obtain ⟨⟨c1, c2, k⟩, h1, h2⟩ := bind_ok h
  obtain ⟨r1, h3, h4⟩ := bind_ok h2
  obtain ⟨r2, h5, h6⟩ := bind_ok h4
  cases h6
  simp only [NK.updateVal, List.length_nil, if_true] at h3
  cases h3
  obtain ⟨-, h7⟩ := kids_insertNode h5
  simp [Node.kids] at h7
  change r2.kids = [(some k, c1), (none, c2)] at h7
  refine ⟨rfl, ?_⟩
  have h8 := W_splitNode l h1
  show W l (b.lvl + 1) r2 = _
  have h9 : W l (b.lvl + 1) r2 = wt l (b.lvl + 1) + (W l b.lvl c1 + W l b.lvl c2) := by
    exact pair_sum (t := r2) (W l b.lvl) (wt l (b.lvl + 1)) h7
  linarith

theorem rootC_get (lvl : Nat) (cn : Cn) (l : Bool) :
    (rootC lvl cn).num.get l = cn.num.get l + wt l lvl + wt l (lvl + 1) := by
  unfold rootC
  have h1 : ∀ (x : Cn) (d : Nat), (x.setDepth d).num.get l = x.num.get l := fun _ _ => rfl
  have h2 : ∀ (x : Cn) (d : Nat), (x.onRoot d).num.get l = x.num.get l := fun _ _ => rfl
  rw [h1, alloc_get, h2, alloc_get]
  ring

theorem rootC_root (lvl : Nat) (cn : Cn) : ∃ x, (rootC lvl cn).root = some x ∧ x.depth = (lvl + 1) % 256 := by
  refine ⟨{ int := (cn.alloc (lvl + 1)).num.int, leaf := (cn.alloc (lvl + 1)).num.leaf, depth := (lvl + 1) % 256 },
    ?_, rfl⟩
  · show ((((cn.alloc (lvl + 1)).onRoot (lvl + 1)).alloc lvl)).root = _
    rw [(alloc_depth _ _).2]
    rfl

theorem putC_ok {c : Cfg K V} {r : PutReq K V} (f : Nat) :
    ∀ {b b' : BT K V} {st ex} {cn cn' : Cn}, putC c r f b cn = .ok ((b', st, ex), cn') →
      put c r f b = .ok (b', st, ex) ∧ FollowsB b b' cn cn' := by
  induction f with
  | zero => intro b b' st ex cn cn' h; cases h
  | succ f ih =>
    intro b b' st ex cn cn' h
    unfold putC at h
    unfold put
    split at h
    · rename_i hs
      rw [if_pos hs]
      obtain ⟨b1, h1, h2⟩ := bind_ok h
      obtain ⟨h3, h4, h5, h6, h7⟩ := ih h2
      have hl := (W_splitRoot true h1).1
      obtain ⟨x0, hx0, hd0⟩ := rootC_root b.lvl cn
      refine ⟨by rw [h1]; exact h3, fun l => ?_, fun _ => ?_, fun x hx => ?_, fun hn => ?_⟩
      · have a1 := h4 l
        have a2 := (W_splitRoot l h1).2
        have a3 := rootC_get b.lvl cn l
        linarith
      · apply h5
        rw [hl]
        rfl
      · rcases h6 x hx with ⟨e1, e2⟩ | e
        · right
          rw [hx0] at e1
          cases e1
          rw [hd0, e2, hl]
        · exact Or.inr e
      · have := (h7 hn).2
        rw [hx0] at this
        cases this
    · rename_i hs
      rw [if_neg hs]
      obtain ⟨⟨⟨t, nid, st', ex'⟩, cn1⟩, h1, h2⟩ := bind_ok h
      cases h2
      obtain ⟨h3, h4, h5, h6⟩ := doPutC_ok _ h1
      refine ⟨by rw [h3]; rfl, h4, fun hd => by rw [h5]; exact hd, fun x hx => Or.inl ⟨by rw [← h6]; exact hx, rfl⟩,
        fun hn => ⟨rfl, by rw [← h6]; exact hn⟩⟩

/-! ## Remove -/

theorem regroup_mid {n : Nat} (l : Bool) {t t' : Tree K V (n + 1)} {a b xs ys : List (Node K (Val K V n))} {i j : Nat}
    (h1 : (Node.kids t).map (·.2) = a ++ xs ++ b) (h2 : (Node.kids t').map (·.2) = a ++ ys ++ b)
    (hr : Regroup xs ys i j) :
    W l (n + 1) t' + xs.length * wt l n = W l (n + 1) t + ys.length * wt l n := by
  have e : ∀ (t : Tree K V (n + 1)) (zs : List (Tree K V n)), (Node.kids t).map (·.2) = a ++ zs ++ b →
      W l (n + 1) t = wt l (n + 1) + (Ws l n a + Ws l n zs + Ws l n b) := by
    intro t zs h
    have h' : kv t = a ++ zs ++ b := by rw [kv_kids]; exact h
    have : W l (n + 1) t = wt l (n + 1) + Ws l n (a ++ zs ++ b) := by
      rw [W_succ]
      exact congrArg (fun z => wt l (n + 1) + Ws l n z) h'
    rw [this, Ws_append, Ws_append]
  have e1 := e t xs h1
  have e2 := e t' ys h2
  have e3 := Ws_regroup l n hr
  linarith

theorem removeDownC_ok {n : Nat} {key : K}
    {rec : Tree K V n → Nat → Except Fault (Tree K V n × Nat × Option V)}
    {recC : Tree K V n → Nat → Cn → Except Fault ((Tree K V n × Nat × Option V) × Cn)}
    (hrec : ∀ {lo hi t nid cn res cn'}, (levels K V n).P t lo hi → ltLo lo key → leHi key hi →
      recC t nid cn = .ok (res, cn') → rec t nid = .ok res ∧ Follows n t res.1 cn cn')
    {t : Tree K V (n + 1)} {m q : Option K} {i nid : Nat} {ch : Tree K V n} {cn cn' : Cn} {res}
    (hv : t.valAt i = some ch) (h3 : (levels K V n).P ch m q) (h4 : ltLo m key) (h5 : leHi key q)
    (h : removeDownC n recC t i ch nid cn = .ok (res, cn')) :
    removeDown n rec t i ch nid = .ok res ∧ Follows (n + 1) t res.1 cn cn' := by
  unfold removeDownC at h
  obtain ⟨⟨⟨ch', nid', ex⟩, cn1⟩, h1, h2⟩ := bind_ok h
  cases h2
  obtain ⟨g1, g2, g3⟩ := hrec h3 h4 h5 h1
  refine ⟨by unfold removeDown; rw [g1]; rfl, fun l => ?_, g3⟩
  have a1 := g2 l
  have a2 := W_setVal ch' l hv
  simp only at a1 ⊢
  linarith

theorem removeLoopC_ok {c : Cfg K V} (hc : c.Good) {key : K} {n : Nat}
    {rec : Tree K V n → Nat → Except Fault (Tree K V n × Nat × Option V)}
    {recC : Tree K V n → Nat → Cn → Except Fault ((Tree K V n × Nat × Option V) × Cn)}
    (hrec : ∀ {lo hi t nid cn res cn'}, (levels K V n).P t lo hi → ltLo lo key → leHi key hi →
      recC t nid cn = .ok (res, cn') → rec t nid = .ok res ∧ Follows n t res.1 cn cn') :
    ∀ (f : Nat) {lo hi : Option K} {t : Tree K V (n + 1)} {nid : Nat} {cn : Cn} {res cn'},
      (levels K V (n + 1)).P t lo hi → ltLo lo key → leHi key hi →
      removeLoopC c key n recC f t nid cn = .ok (res, cn') →
      removeLoop c key n rec f t nid = .ok res ∧ Follows (n + 1) t res.1 cn cn' := by
  intro f
  induction f with
  | zero => intro lo hi t nid cn res cn' _ _ _ h; cases h
  | succ f ih =>
    intro lo hi t nid cn res cn' hQ hlo hhi h
    obtain ⟨b, i, ch, a, q, z, m, hb, hv, hk, ha, h1, h2, h3, h4, h5⟩ :=
      find_kid (L := levels K V n) hQ hlo hhi
    replace hb : bsearch t.es key = some (b, i) := hb
    replace hv : t.valAt i = some ch := hv
    unfold removeLoopC at h
    unfold removeLoop
    rw [hb] at h ⊢
    simp only [hv] at h ⊢
    split at h
    · rename_i hm
      rw [if_pos hm]
      simp only [Bool.and_eq_true, decide_eq_true_eq] at hm
      obtain ⟨⟨r, nid'⟩, hr, h⟩ := bind_ok h
      obtain ⟨g1, g2⟩ := mergeNodes_full (L := levels K V n) (hc.nk n).1 (hc.nk n).2 hc.ideal hm.2 hQ hr
      rw [hr]
      cases r with
      | none =>
        obtain ⟨e1, e2, e3, e4⟩ := removeDownC_ok (rec := rec) (recC := recC) (nid := nid') hrec hv h3.head h4 h5 h
        refine ⟨e1, fun l => ?_, ?_, ?_⟩
        · have a1 := e2 l
          rw [frees_get, allocs_get] at a1
          linarith
        · rw [e3, (frees_depth _ _ _).1, (allocs_depth _ _ _).1]
        · rw [e4, (frees_depth _ _ _).2, (allocs_depth _ _ _).2]
      | some t' =>
        obtain ⟨g3, -, -, xa, xb, xs, ys, k1, k2, k3, k4⟩ := g2 t' rfl
        obtain ⟨e1, e2, e3, e4⟩ := ih g3 hlo hhi h
        refine ⟨e1, fun l => ?_, ?_, ?_⟩
        · have a1 := e2 l
          rw [frees_get, allocs_get] at a1
          have a2 := regroup_mid l k1 k2 k3
          have a3 : (ys.length : Int) + ((nodeEnd c.maxMergeNodes t i - i : Nat) : Int) + nid = xs.length + nid' := by
            exact_mod_cast k4
          have a4 : ((nid' - nid : Nat) : Int) = nid' - nid := by omega
          rw [a4] at a1
          have a5 : (ys.length : Int) * wt l n + ((nodeEnd c.maxMergeNodes t i - i : Nat) : Int) * wt l n + nid * wt l n
              = xs.length * wt l n + nid' * wt l n := by
            rw [← Int.add_mul, ← Int.add_mul, ← Int.add_mul, a3]
          rw [Int.sub_mul] at a1
          linarith
        · rw [e3, (frees_depth _ _ _).1, (allocs_depth _ _ _).1]
        · rw [e4, (frees_depth _ _ _).2, (allocs_depth _ _ _).2]
    · rename_i hm
      rw [if_neg hm]
      exact removeDownC_ok (rec := rec) (recC := recC) (nid := nid) hrec hv h3.head h4 h5 h

theorem doRemoveC_ok {c : Cfg K V} (hc : c.Good) {key : K} {f : Nat} (n : Nat) :
    ∀ {lo hi : Option K} {t : Tree K V n} {nid : Nat} {cn : Cn} {res cn'},
      (levels K V n).P t lo hi → ltLo lo key → leHi key hi → doRemoveC c key f n t nid cn = .ok (res, cn') →
      doRemove c key f n t nid = .ok res ∧ Follows n t res.1 cn cn' := by
  induction n with
  | zero =>
    intro lo hi t nid cn res cn' _ _ _ h
    unfold doRemoveC at h
    obtain ⟨⟨es, ex⟩, h1, h2⟩ := bind_ok h
    cases h2
    refine ⟨by unfold doRemove; rw [h1]; rfl, fun l => ?_, rfl, rfl⟩
    simp [W]
  | succ n ih =>
    intro lo hi t nid cn res cn' hQ hlo hhi h
    unfold doRemoveC at h
    unfold doRemove
    exact removeLoopC_ok hc (fun h1 h2 h3 h4 => ih h1 h2 h3 h4) f hQ hlo hhi h

omit [LinearOrder K] in
theorem W_collapse {c : Cfg K V} {b b' : BT K V} (l : Bool) (h : collapse c b = .ok (some (some b'))) :
    (c.mergeOn = true ∧ b.lvl = b'.lvl + 1 ∧ W l b.lvl b.root = W l b'.lvl b'.root + wt l b.lvl) ∨
      (c.mergeOn = false ∧ b' = b) := by
  obtain ⟨n, root, nid⟩ := b
  cases n with
  | zero =>
    simp only [collapse] at h
    split at h <;> simp at h
  | succ n =>
    simp only [collapse] at h
    split at h
    · rename_i he
      split at h
      · cases h
      · rename_i ch hch
        have he' : root.es = [] := by simpa using he
        simp only [Except.ok.injEq, Option.some.injEq] at h
        cases hm : c.mergeOn with
        | false => right; rw [hm] at h; simp at h; exact ⟨rfl, h.symm⟩
        | true =>
          left
          rw [hm] at h
          simp only [if_true] at h
          subst h
          refine ⟨rfl, rfl, ?_⟩
          have hk : kv root = [ch] := by unfold kv; rw [he', hch]; rfl
          have : W l (n + 1) root = wt l (n + 1) + Ws l n [ch] := congrArg (fun z => wt l (n + 1) + Ws l n z) hk
          show W l (n + 1) root = _
          rw [this]
          simp [Ws]
          ring
    · simp at h

theorem collapseC_get (lvl : Nat) (cn : Cn) (l : Bool) : (collapseC lvl cn).num.get l = cn.num.get l - wt l lvl := by
  unfold collapseC
  have h1 : ∀ (x : Cn) (d : Nat), (x.setDepth d).num.get l = x.num.get l := fun _ _ => rfl
  have h2 : ∀ (x : Cn) (d : Nat), (x.onRoot d).num.get l = x.num.get l := fun _ _ => rfl
  rw [h1, free_get, h2]

theorem collapseC_root (lvl : Nat) (cn : Cn) : ∃ x, (collapseC lvl cn).root = some x ∧ x.depth = (lvl - 1) % 256 := by
  refine ⟨{ int := cn.num.int, leaf := cn.num.leaf, depth := (lvl - 1) % 256 }, ?_, rfl⟩
  show ((cn.onRoot (lvl - 1)).free lvl).root = _
  rw [(free_depth _ _).2]
  rfl

theorem removeC_ok {c : Cfg K V} (hc : c.Good) {key : K} (f : Nat) :
    ∀ {b b' : BT K V} {ex : Option V} {cn cn' : Cn}, b.Inv → removeC c key f b cn = .ok ((b', ex), cn') →
      remove c key f b = .ok (b', ex) ∧ FollowsB b b' cn cn' := by
  induction f with
  | zero => intro b b' ex cn cn' _ h; cases h
  | succ f ih =>
    intro b b' ex cn cn' hb h
    unfold removeC at h
    unfold remove
    obtain ⟨r, h1, h2⟩ := bind_ok h
    rw [h1]
    cases r with
    | none =>
      simp only at h2
      obtain ⟨⟨⟨t, nid, ex'⟩, cn1⟩, h3, h4⟩ := bind_ok h2
      cases h4
      obtain ⟨e1, e2, e3, e4⟩ := doRemoveC_ok hc b.lvl hb.cover (by simp) (by simp) h3
      refine ⟨by show (do let (t, nid, ex) ← doRemove c key f b.lvl b.root b.nid; _) = _; rw [e1]; rfl, e2,
        fun hd => by rw [e3]; exact hd, fun x hx => Or.inl ⟨by rw [← e4]; exact hx, rfl⟩,
        fun hn => ⟨rfl, by rw [← e4]; exact hn⟩⟩
    | some r =>
      cases r with
      | none =>
        cases h2
        exact ⟨rfl, fun l => by simp, fun h => h, fun x hx => Or.inl ⟨hx, rfl⟩, fun h => ⟨rfl, h⟩⟩
      | some b1 =>
        have hb1 := ((collapse_ok hb h1).2 b1 rfl).1
        rcases W_collapse true h1 with ⟨hm, hl, -⟩ | ⟨hm, rfl⟩
        · simp only [hm, if_true] at h2
          obtain ⟨e1, e2, e3, e4, e5⟩ := ih hb1 h2
          obtain ⟨x0, hx0, hd0⟩ := collapseC_root b.lvl cn
          refine ⟨e1, fun l => ?_, fun _ => ?_, fun x hx => ?_, fun hn => ?_⟩
          · have a1 := e2 l
            rw [collapseC_get] at a1
            rcases W_collapse l h1 with ⟨-, -, a2⟩ | ⟨h, -⟩
            · linarith
            · rw [hm] at h; cases h
          · apply e3
            show (b.lvl - 1) % 256 = _
            rw [hl]
            rfl
          · rcases e4 x hx with ⟨k1, k2⟩ | k
            · right
              rw [hx0] at k1
              cases k1
              rw [hd0, k2, hl]
              rfl
            · exact Or.inr k
          · have := (e5 hn).2
            rw [hx0] at this
            cases this
        · simp only [hm] at h2
          exact ih hb1 h2

/-! ## A call with counters returns whenever the call without does -/

theorem putLoopC_ret {c : Cfg K V} {r : PutReq K V} {n : Nat}
    {rec : Tree K V n → Nat → Except Fault (Tree K V n × Nat × Status × Option V)}
    {recC : Tree K V n → Nat → Cn → Except Fault ((Tree K V n × Nat × Status × Option V) × Cn)}
    (hrec : ∀ {t nid res}, rec t nid = .ok res → ∀ cn, ∃ cn', recC t nid cn = .ok (res, cn')) :
    ∀ (f : Nat) {t : Tree K V (n + 1)} {nid : Nat} {res}, putLoop c r n rec f t nid = .ok res →
      ∀ cn, ∃ cn', putLoopC c r n recC f t nid cn = .ok (res, cn') := by
  intro f
  induction f with
  | zero => intro t nid res h; cases h
  | succ f ih =>
    intro t nid res h cn
    unfold putLoop at h
    unfold putLoopC
    cases hb : bsearch t.es r.key with
    | none => rw [hb] at h; cases h
    | some bi =>
      obtain ⟨bb, idx⟩ := bi
      rw [hb] at h
      simp only at h ⊢
      cases hv : t.valAt idx with
      | none => rw [hv] at h; cases h
      | some ch =>
        rw [hv] at h
        simp only at h ⊢
        split at h
        · rename_i hs
          rw [if_pos hs]
          obtain ⟨t1, h1, h2⟩ := bind_ok h
          obtain ⟨cn', h3⟩ := ih h2 (cn.alloc n)
          exact ⟨cn', by rw [h1]; exact h3⟩
        · rename_i hs
          rw [if_neg hs]
          obtain ⟨⟨ch', nid', st, ex⟩, h1, h2⟩ := bind_ok h
          cases h2
          obtain ⟨cn', h3⟩ := hrec h1 cn
          exact ⟨cn', by rw [h3]; rfl⟩

theorem doPutC_ret {c : Cfg K V} {r : PutReq K V} {f : Nat} (n : Nat) :
    ∀ {t : Tree K V n} {nid : Nat} {res}, doPut c r f n t nid = .ok res →
      ∀ cn, ∃ cn', doPutC c r f n t nid cn = .ok (res, cn') := by
  induction n with
  | zero =>
    intro t nid res h cn
    unfold doPut at h
    obtain ⟨⟨es, st, ex⟩, h1, h2⟩ := bind_ok h
    cases h2
    exact ⟨cn, by unfold doPutC; rw [h1]; rfl⟩
  | succ n ih =>
    intro t nid res h cn
    unfold doPut at h
    unfold doPutC
    exact putLoopC_ret (fun h => ih h) f h cn

theorem putC_ret {c : Cfg K V} {r : PutReq K V} (f : Nat) :
    ∀ {b : BT K V} {res}, put c r f b = .ok res → ∀ cn, ∃ cn', putC c r f b cn = .ok (res, cn') := by
  induction f with
  | zero => intro b res h; cases h
  | succ f ih =>
    intro b res h cn
    unfold put at h
    unfold putC
    split at h
    · rename_i hs
      rw [if_pos hs]
      obtain ⟨b1, h1, h2⟩ := bind_ok h
      obtain ⟨cn', h3⟩ := ih h2 (rootC b.lvl cn)
      exact ⟨cn', by rw [h1]; exact h3⟩
    · rename_i hs
      rw [if_neg hs]
      obtain ⟨⟨t, nid, st, ex⟩, h1, h2⟩ := bind_ok h
      cases h2
      obtain ⟨cn', h3⟩ := doPutC_ret _ h1 cn
      exact ⟨cn', by rw [h3]; rfl⟩

theorem removeDownC_ret {n : Nat} {rec : Tree K V n → Nat → Except Fault (Tree K V n × Nat × Option V)}
    {recC : Tree K V n → Nat → Cn → Except Fault ((Tree K V n × Nat × Option V) × Cn)}
    (hrec : ∀ {t nid res}, rec t nid = .ok res → ∀ cn, ∃ cn', recC t nid cn = .ok (res, cn'))
    {t : Tree K V (n + 1)} {i nid : Nat} {ch : Tree K V n} {res} (h : removeDown n rec t i ch nid = .ok res) (cn : Cn) :
    ∃ cn', removeDownC n recC t i ch nid cn = .ok (res, cn') := by
  unfold removeDown at h
  obtain ⟨⟨ch', nid', ex⟩, h1, h2⟩ := bind_ok h
  cases h2
  obtain ⟨cn', h3⟩ := hrec h1 cn
  exact ⟨cn', by unfold removeDownC; rw [h3]; rfl⟩

theorem removeLoopC_ret {c : Cfg K V} {key : K} {n : Nat}
    {rec : Tree K V n → Nat → Except Fault (Tree K V n × Nat × Option V)}
    {recC : Tree K V n → Nat → Cn → Except Fault ((Tree K V n × Nat × Option V) × Cn)}
    (hrec : ∀ {t nid res}, rec t nid = .ok res → ∀ cn, ∃ cn', recC t nid cn = .ok (res, cn')) :
    ∀ (f : Nat) {t : Tree K V (n + 1)} {nid : Nat} {res}, removeLoop c key n rec f t nid = .ok res →
      ∀ cn, ∃ cn', removeLoopC c key n recC f t nid cn = .ok (res, cn') := by
  intro f
  induction f with
  | zero => intro t nid res h; cases h
  | succ f ih =>
    intro t nid res h cn
    unfold removeLoop at h
    unfold removeLoopC
    cases hb : bsearch t.es key with
    | none => rw [hb] at h; cases h
    | some bi =>
      obtain ⟨bb, idx⟩ := bi
      rw [hb] at h
      simp only at h ⊢
      cases hv : t.valAt idx with
      | none => rw [hv] at h; cases h
      | some ch =>
        rw [hv] at h
        simp only at h ⊢
        split at h
        · rename_i hs
          rw [if_pos hs]
          obtain ⟨⟨o, nid'⟩, h1, h2⟩ := bind_ok h
          rw [h1]
          cases o with
          | none => exact removeDownC_ret (rec := rec) (recC := recC) hrec h2 _
          | some t' => exact ih h2 _
        · rename_i hs
          rw [if_neg hs]
          exact removeDownC_ret (rec := rec) (recC := recC) hrec h _

theorem doRemoveC_ret {c : Cfg K V} {key : K} {f : Nat} (n : Nat) :
    ∀ {t : Tree K V n} {nid : Nat} {res}, doRemove c key f n t nid = .ok res →
      ∀ cn, ∃ cn', doRemoveC c key f n t nid cn = .ok (res, cn') := by
  induction n with
  | zero =>
    intro t nid res h cn
    unfold doRemove at h
    obtain ⟨⟨es, ex⟩, h1, h2⟩ := bind_ok h
    cases h2
    exact ⟨cn, by unfold doRemoveC; rw [h1]; rfl⟩
  | succ n ih =>
    intro t nid res h cn
    unfold doRemove at h
    unfold doRemoveC
    exact removeLoopC_ret (fun h => ih h) f h cn

theorem removeC_ret {c : Cfg K V} {key : K} (f : Nat) :
    ∀ {b : BT K V} {res}, remove c key f b = .ok res → ∀ cn, ∃ cn', removeC c key f b cn = .ok (res, cn') := by
  induction f with
  | zero => intro b res h; cases h
  | succ f ih =>
    intro b res h cn
    unfold remove at h
    unfold removeC
    obtain ⟨r, h1, h2⟩ := bind_ok h
    rw [h1]
    cases r with
    | none =>
      obtain ⟨⟨t, nid, ex⟩, h3, h4⟩ := bind_ok h2
      cases h4
      obtain ⟨cn', h5⟩ := doRemoveC_ret _ h3 cn
      refine ⟨cn', ?_⟩
      show (do let ((t, nid, ex), cn') ← doRemoveC c key f b.lvl b.root b.nid cn; _) = _
      rw [h5]
      rfl
    | some r =>
      cases r with
      | none => cases h2; exact ⟨cn, rfl⟩
      | some b1 => exact ih h2 _

end
end HS.Btree
