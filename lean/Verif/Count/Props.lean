import Verif.Count.Exact
import Verif.Btree.Props

/-!
# C119: An index reports the number of its keys, nodes and levels
-/

namespace HS.Btree

/-! ## Specification -/

section
variable {K V : Type}

/-- All nodes of a tree, each with its level: the node, then those below it. -/
def nodesOf : (n : Nat) → Tree K V n → List (Nat × Nat)
  | 0, t => [(0, t.id)]
  | n + 1, t => (n + 1, t.id) :: ((t.es.map (·.2) ++ t.edge.toList : List (Tree K V n))).flatMap (nodesOf n)

/-- Number of interior nodes and number of leaves. -/
def Spec.counts (b : BT K V) : Nat × Nat :=
  (((nodesOf b.lvl b.root).filter (fun x => x.1 ≠ 0)).length, ((nodesOf b.lvl b.root).filter (fun x => x.1 = 0)).length)

/-- The index reports the numbers of nodes of its tree. -/
def Spec.Exact (s : Idx K V) : Prop := s.numNodes = (((Spec.counts s.b).1 : Int), ((Spec.counts s.b).2 : Int))

/-- Does the process start again in this step? -/
def IOp.restarts : IOp K V → Bool
  | .restart => true
  | _ => false

/-- Every shutdown's checkpoint comes right after an ordinary checkpoint, a restart or another such. -/
def Spec.Careful : Bool → List (IOp K V) → Prop
  | _, [] => True
  | saved, .stop :: ops => saved = true ∧ Spec.Careful true ops
  | _, .cp _ :: ops => Spec.Careful true ops
  | _, .restart :: ops => Spec.Careful true ops
  | _, .put _ :: ops => Spec.Careful false ops
  | _, .remove _ :: ops => Spec.Careful false ops
  | _, .count :: ops => Spec.Careful false ops
  | _, .depth :: ops => Spec.Careful false ops

/-! ## Numbers of nodes -/

theorem W_counts (n : Nat) : ∀ (t : Tree K V n),
    W false n t = (((nodesOf n t).filter (fun x => x.1 ≠ 0)).length : Int) ∧
      W true n t = (((nodesOf n t).filter (fun x => x.1 = 0)).length : Int) := by
  induction n with
  | zero => intro t; simp [W, nodesOf, wt]
  | succ n ih =>
    intro t
    have key : ∀ (ts : List (Tree K V n)),
        Ws false n ts = (((ts.flatMap (nodesOf n)).filter (fun x => x.1 ≠ 0)).length : Int) ∧
        Ws true n ts = (((ts.flatMap (nodesOf n)).filter (fun x => x.1 = 0)).length : Int) := by
      intro ts
      induction ts with
      | nil => simp [Ws]
      | cons a r ih2 =>
        rw [Ws_cons, Ws_cons, (ih a).1, (ih a).2, ih2.1, ih2.2, List.flatMap_cons, List.filter_append, List.filter_append,
          List.length_append, List.length_append]
        push_cast
        exact ⟨rfl, rfl⟩
    obtain ⟨k1, k2⟩ := key (kv t)
    constructor
    · rw [W_succ, k1]
      show wt false (n + 1) + _ = ((List.filter _ ((n + 1, t.id) :: (kv t : List (Tree K V n)).flatMap (nodesOf n))).length : Int)
      rw [List.filter_cons, if_pos (by simp), List.length_cons]
      simp [wt]
      omega
    · rw [W_succ, k2]
      show wt true (n + 1) + _ = ((List.filter _ ((n + 1, t.id) :: (kv t : List (Tree K V n)).flatMap (nodesOf n))).length : Int)
      rw [List.filter_cons, if_neg (by simp)]
      simp [wt]

theorem right_iff {b : BT K V} {x : Nums} :
    Right b x ↔ (x.int, x.leaf) = (((Spec.counts b).1 : Int), ((Spec.counts b).2 : Int)) := by
  have h := W_counts b.lvl b.root
  constructor
  · intro hr
    have h1 := hr false
    have h2 := hr true
    rw [h.1] at h1
    rw [h.2] at h2
    exact Prod.ext h1 h2
  · intro hr l
    simp only [Prod.mk.injEq] at hr
    cases l
    · rw [h.1]; exact hr.1
    · rw [h.2]; exact hr.2

theorem nodeCount_W : ∀ (n : Nat) (t : Tree K V n),
    ((nodeCount n t).1 : Int) = W false n t ∧ ((nodeCount n t).2 : Int) = W true n t
  | 0, t => by simp [nodeCount, W, wt]
  | 1, t => by
    have h : ∀ l, W l 1 t = wt l 1 + Ws l 0 (kv t) := fun l => W_succ l 0 t
    rw [h, h, Ws_zero, Ws_zero]
    have h2 : (kv t).length = t.es.length + if t.edge.isSome then 1 else 0 := by
      unfold kv
      cases t.edge <;> simp
    constructor
    · simp [nodeCount, wt]
    · have h3 : (nodeCount 1 t).2 = (kv t).length := by rw [h2]; rfl
      rw [h3]
      simp [wt]
      rfl
  | n + 2, t => by
    have key : ∀ (ts : List (Tree K V (n + 1))),
        ((ts.map (fun x => (nodeCount (n + 1) x).1)).sum : Int) = Ws false (n + 1) ts ∧
        ((ts.map (fun x => (nodeCount (n + 1) x).2)).sum : Int) = Ws true (n + 1) ts := by
      intro ts
      induction ts with
      | nil => simp [Ws]
      | cons a r ih2 =>
        have := nodeCount_W (n + 1) a
        rw [Ws_cons, Ws_cons, ← ih2.1, ← ih2.2, ← this.1, ← this.2, List.map_cons, List.sum_cons, List.map_cons,
          List.sum_cons]
        push_cast
        exact ⟨rfl, rfl⟩
    obtain ⟨k1, k2⟩ := key (kv t)
    have e1 : (nodeCount (n + 2) t).1 = 1 + ((kv t : List (Tree K V (n + 1))).map (fun x => (nodeCount (n + 1) x).1)).sum := rfl
    have e2 : (nodeCount (n + 2) t).2 = ((kv t : List (Tree K V (n + 1))).map (fun x => (nodeCount (n + 1) x).2)).sum := rfl
    rw [e1, e2]
    push_cast
    constructor
    · rw [W_succ, ← k1]; simp [wt]
    · rw [W_succ, ← k2]; simp [wt]

/-- C119, `compute_node_count`: for every tree, of any depth and fanout, it finds the number of interior nodes and the
number of leaves. -/
theorem C119_node_count (b : BT K V) : nodeCount b.lvl b.root = Spec.counts b := by
  obtain ⟨h1, h2⟩ := nodeCount_W b.lvl b.root
  obtain ⟨h3, h4⟩ := W_counts b.lvl b.root
  apply Prod.ext
  · have := h1.trans h3; exact_mod_cast this
  · have := h2.trans h4; exact_mod_cast this

end

section
variable {K V : Type} [LinearOrder K]

/-! ## Numbers of keys -/

theorem lv_kv {A : Type} (L : Lvl K V A) (t : Node K (Node K A)) : (intLvl L).lv t = (kv t).flatMap L.lv := by
  rw [lv_kids, kv_kids]
  simp [lvs, List.flatMap_map]

theorem countKeys_cont (n : Nat) : ∀ (t : Tree K V n), countKeys n t = (cont ((levels K V n).lv t)).length := by
  induction n with
  | zero => intro t; show t.es.length = (cont [t]).length; simp
  | succ n ih =>
    intro t
    have e : (levels K V (n + 1)).lv t = (kv t : List (Node K (Val K V n))).flatMap (levels K V n).lv := by
      exact lv_kv (levels K V n) t
    rw [e]
    have key : ∀ (ts : List (Tree K V n)), (ts.map (countKeys n)).sum = (cont (ts.flatMap (levels K V n).lv)).length := by
      intro ts
      induction ts with
      | nil => rfl
      | cons a r ih2 => rw [List.map_cons, List.sum_cons, ih2, ih, List.flatMap_cons, cont_append, List.length_append]
    exact key (kv t)

/-- C119, `count_keys`: in every state that calls lead to, it returns the number of keys of the index; the keys
are those for which a `get` finds a value. -/
theorem C119_count_keys {c : Cfg K V} (hc : c.Good) {b : BT K V} (h : Reach c b) :
    ∃ ks : List K, ks.Nodup ∧ (∀ k, k ∈ ks ↔ ∃ v, get b k = .ok (some v)) ∧ countKeys b.lvl b.root = ks.length := by
  have hi := h.inv hc
  have ha := hi.asc
  refine ⟨b.entries.map (·.1), ?_, fun k => ?_, ?_⟩
  · unfold List.Nodup
    rw [List.pairwise_map]
    exact ha.imp (fun h => h.ne)
  · rw [get_ok hi]
    simp only [Except.ok.injEq]
    constructor
    · intro hk
      obtain ⟨x, hx, rfl⟩ := List.mem_map.mp hk
      exact ⟨x.2, (look_mem ha).mpr hx⟩
    · rintro ⟨v, hv⟩
      exact List.mem_map.mpr ⟨(k, v), (look_mem ha).mp hv, rfl⟩
  · rw [countKeys_cont, List.length_map]
    rfl

/-- C119, `count_keys` beside other calls: if the root of the tree is the same when its id is read and when its node
is locked, the number is that of the keys at the second moment. -/
theorem C119_count_keys_same_root_partial (b b' : BT K V) (h : b.root.id = b'.root.id) :
    countLate b b' = countKeys b'.lvl b'.root := by
  obtain ⟨n, root, nid⟩ := b'
  unfold countLate
  simp only at h
  rw [h]
  cases n <;> simp [findNode]

/-! ## Counters -/

theorem idx_step_ok {c : Cfg K V} (hc : c.Good) {fuel : Nat} {s s' : Idx K V} {op : IOp K V} (hb : s.b.Inv) (hd : s.disk.Inv)
    (h : s.step c fuel op = .ok s') : s'.b.Inv ∧ s'.disk.Inv ∧ s'.zero = s.zero := by
  cases op with
  | put r =>
    simp only [Idx.step] at h
    split at h
    · cases h
    · rename_i b' st ex cn he
      cases h
      exact ⟨(put_ok _ hb (putC_ok _ he).1).1, hd, rfl⟩
  | remove k =>
    simp only [Idx.step] at h
    split at h
    · cases h
    · rename_i b' ex cn he
      cases h
      exact ⟨(remove_ok hc _ hb (removeC_ok hc _ hb he).1).1, hd, rfl⟩
  | count => cases h; exact ⟨hb, hd, rfl⟩
  | depth => cases h; exact ⟨hb, hd, rfl⟩
  | cp own => cases h; exact ⟨hb, hb, rfl⟩
  | stop => cases h; exact ⟨hb, hb, rfl⟩
  | restart => cases h; exact ⟨hd, hd, rfl⟩

theorem right_follows {b b' : BT K V} {cn cn' : Cn} (h : FollowsB b b' cn cn') (hr : Right b cn.num) : Right b' cn'.num := by
  intro l
  have h1 := h.1 l
  have h2 := hr l
  omega

theorem idx_step_right {c : Cfg K V} (hc : c.Good) {fuel : Nat} {s s' : Idx K V} {op : IOp K V} (hb : s.b.Inv)
    (hr : Right s.b s.num) (hn : op.restarts = false) (h : s.step c fuel op = .ok s') : Right s'.b s'.num := by
  cases op with
  | put r =>
    simp only [Idx.step] at h
    split at h
    · cases h
    · rename_i b' st ex cn he
      cases h
      exact right_follows (putC_ok _ he).2 hr
  | remove k =>
    simp only [Idx.step] at h
    split at h
    · cases h
    · rename_i b' ex cn he
      cases h
      exact right_follows (removeC_ok hc _ hb he).2 hr
  | count =>
    cases h
    intro l
    have := nodeCount_W s.b.lvl s.b.root
    cases l
    · exact this.1
    · exact this.2
  | depth => cases h; exact hr
  | cp own => cases h; exact hr
  | stop => cases h; exact hr
  | restart => cases hn

theorem idx_run_right {c : Cfg K V} (hc : c.Good) {fuel : Nat} {ops : List (IOp K V)} : ∀ {s s' : Idx K V}, s.b.Inv →
    s.disk.Inv → Right s.b s.num → (∀ op ∈ ops, op.restarts = false) → s.run c fuel ops = .ok s' → Right s'.b s'.num := by
  induction ops with
  | nil => intro s s' _ _ hr _ h; cases h; exact hr
  | cons op ops ih =>
    intro s s' hb hd hr hn h
    unfold Idx.run at h
    split at h
    · cases h
    · rename_i s1 h1
      obtain ⟨g1, g2, -⟩ := idx_step_ok hc hb hd h1
      exact ih g1 g2 (idx_step_right hc hb hr (hn op (by simp)) h1) (fun o ho => hn o (by simp [ho])) h

theorem idx_run_inv {c : Cfg K V} (hc : c.Good) {fuel : Nat} {ops : List (IOp K V)} : ∀ {s s' : Idx K V}, s.b.Inv →
    s.disk.Inv → s.run c fuel ops = .ok s' → s'.b.Inv ∧ s'.disk.Inv ∧ s'.zero = s.zero := by
  induction ops with
  | nil => intro s s' hb hd h; cases h; exact ⟨hb, hd, rfl⟩
  | cons op ops ih =>
    intro s s' hb hd h
    unfold Idx.run at h
    split at h
    · cases h
    · rename_i s1 h1
      obtain ⟨g1, g2, g3⟩ := idx_step_ok hc hb hd h1
      obtain ⟨g4, g5, g6⟩ := ih g1 g2 h
      exact ⟨g4, g5, g6.trans g3⟩

theorem idx_run_append {c : Cfg K V} {fuel : Nat} (xs : List (IOp K V)) : ∀ {ys : List (IOp K V)} {s s' : Idx K V},
    s.run c fuel (xs ++ ys) = .ok s' → ∃ m, s.run c fuel xs = .ok m ∧ m.run c fuel ys = .ok s' := by
  induction xs with
  | nil => intro ys s s' h; exact ⟨s, rfl, h⟩
  | cons op xs ih =>
    intro ys s s' h
    simp only [List.cons_append, Idx.run] at h ⊢
    split at h
    · cases h
    · rename_i s1 h1
      obtain ⟨m, h2, h3⟩ := ih h
      exact ⟨m, h2, h3⟩

theorem init_right (zero : Bool) : Right (Idx.init zero : Idx K V).b (Idx.init zero : Idx K V).num := by
  intro l
  cases l <;> rfl

/-- C119, `get_num_nodes`: after every history of puts, removes, recounts and checkpoints in one run of the process, of
any length, it returns the number of interior nodes and the number of leaves of the tree.  Missing: range calls;
restarts, for which see below. -/
theorem C119_counters_partial {c : Cfg K V} (hc : c.Good) {fuel : Nat} {zero : Bool} {ops : List (IOp K V)} {s : Idx K V}
    (hn : ∀ op ∈ ops, op.restarts = false) (h : (Idx.init zero).run c fuel ops = .ok s) : Spec.Exact s :=
  right_iff.mp (idx_run_right hc empty_inv empty_inv (init_right zero) hn h)

/-- C119, `compute_node_count` mends the counters: after any history, with restarts, in which a recount
follows the last restart, `get_num_nodes` is exact. -/
theorem C119_recounted {c : Cfg K V} (hc : c.Good) {fuel : Nat} {zero : Bool} {xs ys : List (IOp K V)} {s : Idx K V}
    (hn : ∀ op ∈ ys, op.restarts = false) (h : (Idx.init zero).run c fuel (xs ++ .count :: ys) = .ok s) :
    Spec.Exact s := by
  obtain ⟨m, h1, h2⟩ := idx_run_append xs h
  obtain ⟨g1, g2, -⟩ := idx_run_inv hc (s := Idx.init zero) empty_inv empty_inv h1
  unfold Idx.run at h2
  split at h2
  · cases h2
  · rename_i m' hm
    have hr : Right m'.b m'.num := by
      cases hm
      intro l
      have := nodeCount_W m.b.lvl m.b.root
      cases l
      · exact this.1
      · exact this.2
    obtain ⟨g3, g4, -⟩ := idx_step_ok hc g1 g2 hm
    exact right_iff.mp (idx_run_right hc g3 g4 hr hn h2)

/-! ## Depth -/

/-- Depths in memory, in the superblock that waits, and on disk are those of the trees. -/
structure DepthOk (s : Idx K V) : Prop where
  b : s.b.Inv
  disk : s.disk.Inv
  num : s.num.depth = s.b.lvl % 256
  sb : s.sb.depth = s.disk.lvl % 256
  buf : ∀ x, s.buf = some x → x.depth = s.b.lvl % 256
  none : s.buf = none → s.disk.lvl = s.b.lvl

theorem depth_call {s : Idx K V} (h : DepthOk s) {b' : BT K V} {cn : Cn} (hb : b'.Inv)
    (hf : FollowsB s.b b' { num := s.num } cn) :
    DepthOk { s with b := b', num := cn.num, buf := if cn.root.isSome then cn.root else s.buf } := by
  obtain ⟨-, h2, h3, h4⟩ := hf
  refine ⟨hb, h.disk, h2 h.num, h.sb, fun x hx => ?_, fun hx => ?_⟩
  · simp only at hx ⊢
    cases hr : cn.root with
    | none =>
      rw [hr] at hx
      rw [(h4 hr).1]
      exact h.buf x hx
    | some y =>
      rw [hr] at hx
      cases hx
      rcases h3 x hr with ⟨e, -⟩ | e
      · cases e
      · exact e
  · simp only at hx ⊢
    cases hr : cn.root with
    | none =>
      rw [hr] at hx
      rw [(h4 hr).1]
      exact h.none hx
    | some y => rw [hr] at hx; cases hx

theorem sb_depth {s : Idx K V} (h : DepthOk s) : (s.buf.getD s.sb).depth = s.b.lvl % 256 := by
  cases hb : s.buf with
  | none => rw [Option.getD_none, h.sb, h.none hb]
  | some x => exact h.buf x hb

theorem idx_step_depth {c : Cfg K V} (hc : c.Good) {fuel : Nat} {s s' : Idx K V} {op : IOp K V} (h : DepthOk s)
    (hs : s.step c fuel op = .ok s') : DepthOk s' := by
  obtain ⟨i1, i2, -⟩ := idx_step_ok hc h.b h.disk hs
  cases op with
  | put r =>
    simp only [Idx.step] at hs
    split at hs
    · cases hs
    · rename_i b' st ex cn he
      cases hs
      exact depth_call h i1 (putC_ok _ he).2
  | remove k =>
    simp only [Idx.step] at hs
    split at hs
    · cases hs
    · rename_i b' ex cn he
      cases hs
      exact depth_call h i1 (removeC_ok hc _ h.b he).2
  | count => cases hs; exact ⟨h.b, h.disk, h.num, h.sb, h.buf, h.none⟩
  | depth => cases hs; exact ⟨h.b, h.disk, rfl, h.sb, h.buf, h.none⟩
  | cp own =>
    cases hs
    refine ⟨i1, i2, h.num, ?_, by simp, by simp⟩
    show (if s.zero || own then s.num else s.buf.getD s.sb).depth = _
    split
    · exact h.num
    · exact sb_depth h
  | stop =>
    cases hs
    exact ⟨i1, i2, h.num, sb_depth h, by simp, by simp⟩
  | restart => cases hs; exact ⟨i1, i2, h.sb, h.sb, by simp, by simp⟩

/-- C119, `get_btree_depth`: after every history, with checkpoints, shutdowns and restarts, it returns the level of the
root, of which the code keeps 8 bits. -/
theorem C119_depth {c : Cfg K V} (hc : c.Good) {fuel : Nat} {zero : Bool} {ops : List (IOp K V)} {s : Idx K V}
    (h : (Idx.init zero).run c fuel ops = .ok s) : s.btreeDepth = s.b.lvl % 256 := by
  have : ∀ (ops : List (IOp K V)) {s s' : Idx K V}, DepthOk s → s.run c fuel ops = .ok s' → DepthOk s' := by
    intro ops
    induction ops with
    | nil => intro s s' hs h; cases h; exact hs
    | cons op ops ih =>
      intro s s' hs h
      unfold Idx.run at h
      split at h
      · cases h
      · rename_i s1 h1
        exact ih (idx_step_depth hc hs h1) h
  exact (this ops (s := Idx.init zero) ⟨empty_inv, empty_inv, rfl, rfl, (fun x hx => by cases hx), fun _ => rfl⟩ h).num

/-! ## Restarts of the index with ordinal 0 -/

/-- What holds of the index with ordinal 0: counters are right in memory and on disk; `saved`: both are the same. -/
structure ZeroOk (saved : Bool) (s : Idx K V) : Prop where
  b : s.b.Inv
  disk : s.disk.Inv
  zero : s.zero = true
  num : Right s.b s.num
  sb : Right s.disk s.sb
  same : saved = true → s.disk = s.b ∧ s.sb = s.num ∧ s.buf = none

/-- C119, the index with ordinal 0: if every shutdown's checkpoint comes right after an ordinary one, `get_num_nodes`
is exact after every history, with any number of restarts, by a shutdown or a failure.  Missing: other ordinals and
other shutdowns, for which it is false. -/
theorem C119_restart_ordinal_zero_partial {c : Cfg K V} (hc : c.Good) {fuel : Nat} {ops : List (IOp K V)} {s : Idx K V}
    (ho : Spec.Careful true ops) (h : (Idx.init true).run c fuel ops = .ok s) : Spec.Exact s := by
  have : ∀ (ops : List (IOp K V)) {saved : Bool} {s s' : Idx K V}, ZeroOk saved s → Spec.Careful saved ops →
      s.run c fuel ops = .ok s' → Right s'.b s'.num := by
    intro ops
    induction ops with
    | nil => intro saved s s' hs _ h; cases h; exact hs.num
    | cons op ops ih =>
      intro saved s s' hs ho h
      unfold Idx.run at h
      split at h
      · cases h
      rename_i s1 h1
      obtain ⟨i1, i2, i3⟩ := idx_step_ok hc hs.b hs.disk h1
      rw [hs.zero] at i3
      cases op with
      | put r =>
        have hr := idx_step_right hc hs.b hs.num rfl h1
        refine ih (saved := false) ⟨i1, i2, i3, hr, ?_, by simp⟩ ho h
        simp only [Idx.step] at h1
        split at h1 <;> cases h1
        exact hs.sb
      | remove k =>
        have hr := idx_step_right hc hs.b hs.num rfl h1
        refine ih (saved := false) ⟨i1, i2, i3, hr, ?_, by simp⟩ ho h
        simp only [Idx.step] at h1
        split at h1 <;> cases h1
        exact hs.sb
      | count =>
        have hr := idx_step_right hc hs.b hs.num rfl h1
        cases h1
        exact ih (saved := false) ⟨i1, i2, i3, hr, hs.sb, by simp⟩ ho h
      | depth =>
        have hr := idx_step_right hc hs.b hs.num rfl h1
        cases h1
        exact ih (saved := false) ⟨i1, i2, i3, hr, hs.sb, by simp⟩ ho h
      | cp own =>
        cases h1
        refine ih (saved := true) ⟨i1, i2, i3, hs.num, ?_, fun _ => ⟨rfl, ?_, rfl⟩⟩ ho h
        · show Right s.b (if s.zero || own then s.num else s.buf.getD s.sb)
          rw [hs.zero]
          exact hs.num
        · show (if s.zero || own then s.num else s.buf.getD s.sb) = s.num
          rw [hs.zero]
          rfl
      | stop =>
        obtain ⟨hsv, ho⟩ := ho
        obtain ⟨e1, e2, e3⟩ := hs.same hsv
        cases h1
        refine ih (saved := true) ⟨i1, i2, i3, hs.num, ?_, fun _ => ⟨rfl, ?_, rfl⟩⟩ ho h
        · show Right s.b (s.buf.getD s.sb)
          rw [e3, Option.getD_none, e2]
          exact hs.num
        · show s.buf.getD s.sb = s.num
          rw [e3, Option.getD_none, e2]
      | restart =>
        cases h1
        exact ih (saved := true) ⟨i1, i2, i3, hs.sb, hs.sb, fun _ => ⟨rfl, rfl, rfl⟩⟩ ho h
  exact right_iff.mp (this ops (s := Idx.init true)
    ⟨empty_inv, empty_inv, rfl, init_right true, init_right true, fun _ => ⟨rfl, rfl, rfl⟩⟩ ho h)

/-- The trees of an index, in memory and on disk, are those of `C119_count_keys`. -/
theorem idx_reach {c : Cfg K V} (hc : c.Good) {fuel : Nat} {zero : Bool} {ops : List (IOp K V)} {s : Idx K V}
    (h : (Idx.init zero).run c fuel ops = .ok s) : Reach c s.b ∧ Reach c s.disk := by
  have : ∀ (ops : List (IOp K V)) {s s' : Idx K V}, Reach c s.b → Reach c s.disk → s.run c fuel ops = .ok s' →
      Reach c s'.b ∧ Reach c s'.disk := by
    intro ops
    induction ops with
    | nil => intro s s' h1 h2 h; cases h; exact ⟨h1, h2⟩
    | cons op ops ih =>
      intro s s' h1 h2 h
      unfold Idx.run at h
      split at h
      · cases h
      rename_i s1 hs
      refine ih ?_ ?_ h <;> cases op <;> simp only [Idx.step] at hs
      case refine_1.put => split at hs <;> cases hs; rename_i he; exact .put h1 (putC_ok _ he).1
      case refine_1.remove => split at hs <;> cases hs; rename_i he; exact .remove h1 (removeC_ok hc _ (h1.inv hc) he).1
      case refine_2.put => split at hs <;> cases hs; exact h2
      case refine_2.remove => split at hs <;> cases hs; exact h2
      all_goals (cases hs; first | exact h1 | exact h2)
  exact this ops (s := Idx.init zero) .empty .empty h

/-- The calls of this part do to the tree what the calls of C39 do: a history returns with counters whenever the
calls return without, with the same trees and answers. -/
theorem C119_same_calls {c : Cfg K V} (hc : c.Good) {fuel : Nat} {b : BT K V} (hb : b.Inv) (cn : Cn) :
    (∀ r res, put c r fuel b = .ok res ↔ ∃ cn', putC c r fuel b cn = .ok (res, cn')) ∧
      ∀ k res, remove c k fuel b = .ok res ↔ ∃ cn', removeC c k fuel b cn = .ok (res, cn') := by
  refine ⟨fun r res => ⟨fun h => putC_ret _ h cn, ?_⟩, fun k res => ⟨fun h => removeC_ret _ h cn, ?_⟩⟩
  · rintro ⟨cn', h⟩; exact (putC_ok _ h).1
  · rintro ⟨cn', h⟩; exact (removeC_ok hc _ hb h).1

end

/-! ## Examples and violations -/

namespace CountDemo

/-- The keys `0 .. n - 1` are inserted. -/
def ins (n : Nat) : List (IOp Nat Nat) := (List.range n).map (fun k => .put { key := k, val := k, type := .insert })

/-- Keys are removed. -/
def rem (l : List Nat) : List (IOp Nat Nat) := l.map (fun k => .remove k)

/-- What the index reports after a history (`get_num_nodes`, `get_btree_depth`, `count_keys`) and the numbers of nodes
of its tree. -/
def report (zero : Bool) (ops : List (IOp Nat Nat)) : Option (((Int × Int) × Nat × Nat) × (Nat × Nat)) :=
  match (Idx.init zero).run c0 20 ops with
  | .error _ => none
  | .ok s => some ((s.numNodes, s.btreeDepth, countKeys s.b.lvl s.b.root), Spec.counts s.b)

end CountDemo

open CountDemo

/-- A history with splits, merges, a root that is split twice, a recount and a checkpoint meets the hypotheses of
`C119_counters_partial`, `C119_recounted` and `C119_depth`. -/
example : c0.Good ∧
    (∀ op ∈ ins 20 ++ rem [4, 5, 6, 7, 8, 9, 10, 12, 2, 1] ++ [.count, .cp, .depth], op.restarts = false) ∧
    report false (ins 20 ++ rem [4, 5, 6, 7, 8, 9, 10, 12, 2, 1] ++ [.count, .cp, .depth]) =
      some (((4, 8), 2, 10), (4, 8)) := by
  refine ⟨⟨by decide, by decide, by decide⟩, by decide +kernel, by decide +kernel⟩

/-- A history in which the root is collapsed. -/
example : report true (ins 10 ++ rem [5, 6, 7, 8, 9, 4, 3, 2, 1, 0, 0]) = some (((0, 1), 0, 0), (0, 1)) := by
  decide +kernel

/-- A history with a failure, a shutdown and restarts meets the hypotheses of `C119_restart_ordinal_zero_partial`. -/
example : Spec.Careful true (ins 10 ++ [.cp] ++ rem [1, 3] ++ [.restart] ++ rem [1, 3, 5, 7, 9, 0, 2] ++ [.cp, .stop, .restart]) ∧
    report true (ins 10 ++ [.cp] ++ rem [1, 3] ++ [.restart] ++ rem [1, 3, 5, 7, 9, 0, 2] ++ [.cp, .stop, .restart]) =
      some (((1, 2), 1, 3), (1, 2)) := by
  refine ⟨?_, by decide +kernel⟩
  simp [Spec.Careful, ins, rem, List.range, List.range.loop]

/-- The state of `C119_count_keys`: a tree of three levels with ten keys. -/
example : ∃ b : BT Nat Nat, Reach c0 b ∧ b.lvl = 2 ∧ countKeys b.lvl b.root = 10 := by
  have h : (match (Idx.init true).run c0 20 (ins 20 ++ rem [4, 5, 6, 7, 8, 9, 10, 12, 2, 1]) with
      | .error _ => false
      | .ok s => decide (s.b.lvl = 2 ∧ countKeys s.b.lvl s.b.root = 10)) = true := by decide +kernel
  split at h
  · cases h
  · rename_i s hs
    exact ⟨s.b, (idx_reach ⟨by decide, by decide, by decide⟩ hs).1, by simpa using h⟩

/-- C119 is false for an index whose ordinal is not 0 (1): five keys are inserted, the root is split, a checkpoint is
taken, and the process starts again.  The tree has two leaves; one is reported. -/
theorem C119_restart_other_ordinal_violated :
    report false (ins 5 ++ [.cp]) = some (((1, 2), 1, 5), (1, 2)) ∧
      report false (ins 5 ++ [.cp, .restart]) = some (((1, 1), 1, 5), (1, 2)) := by
  constructor <;> decide +kernel

/-- C119 is false after a clean shutdown (2), for the index with ordinal 0 as for others: what changed after the last
ordinary checkpoint is not counted. -/
theorem C119_restart_after_shutdown_violated :
    report true (ins 5 ++ [.stop]) = some (((1, 2), 1, 5), (1, 2)) ∧
      report true (ins 5 ++ [.stop, .restart]) = some (((1, 1), 1, 5), (1, 2)) := by
  constructor <;> decide +kernel

/-- C119 is false later on (3): counters that were too small after a restart fall below 0 when nodes are merged; they
are unsigned, so that a tree of one leaf is reported to have 2^64 - 2 leaves. -/
theorem C119_counter_wraps_violated :
    report false (ins 10 ++ [.cp, .restart] ++ rem [1, 3, 5, 7, 9, 0, 2, 4]) = some (((1, -2), 1, 2), (1, 1)) := by
  decide +kernel

/-- C119 is false beside a put that splits the root (4): `count_keys` reads the id of the root, then a fifth key is
put.  It returns 2, though there were never fewer than four keys. -/
theorem C119_count_keys_root_split_violated :
    ∃ s s' : Idx Nat Nat, (Idx.init true).run c0 20 (ins 4) = .ok s ∧
      s.step c0 20 (.put { key := 4, val := 4, type := .insert }) = .ok s' ∧
      countKeys s.b.lvl s.b.root = 4 ∧ countKeys s'.b.lvl s'.b.root = 5 ∧ countLate s.b s'.b = 2 := by
  have h : (match (Idx.init true).run c0 20 (ins 4) with
      | .error _ => false
      | .ok s => match s.step c0 20 (.put { key := 4, val := 4, type := .insert }) with
        | .error _ => false
        | .ok s' => decide (countKeys s.b.lvl s.b.root = 4 ∧ countKeys s'.b.lvl s'.b.root = 5 ∧ countLate s.b s'.b = 2))
      = true := by decide +kernel
  split at h
  · cases h
  · rename_i s hs
    split at h
    · cases h
    · rename_i s' hs'
      exact ⟨s, s', hs, hs', by simpa using h⟩

/-- The hypothesis of `C119_count_keys_same_root_partial` holds when a put does not split the root. -/
example : ∃ s s' : Idx Nat Nat, (Idx.init true).run c0 20 (ins 7) = .ok s ∧
      s.step c0 20 (.put { key := 7, val := 7, type := .insert }) = .ok s' ∧ s.b.root.id = s'.b.root.id ∧
      countLate s.b s'.b = 8 := by
  have h : (match (Idx.init true).run c0 20 (ins 7) with
      | .error _ => false
      | .ok s => match s.step c0 20 (.put { key := 7, val := 7, type := .insert }) with
        | .error _ => false
        | .ok s' => decide (s.b.root.id = s'.b.root.id ∧ countLate s.b s'.b = 8)) = true := by decide +kernel
  split at h
  · cases h
  · rename_i s hs
    split at h
    · cases h
    · rename_i s' hs'
      exact ⟨s, s', hs, hs', by simpa using h⟩

end HS.Btree
