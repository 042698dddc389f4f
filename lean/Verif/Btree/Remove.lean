import Verif.Btree.MergeInv

/-!
# Single remove

`btree_remove_impl.ipp` 22-240 and `btree.ipp` 176-234 for one key, and the proof that it removes exactly
that key.
-/

namespace HS.Btree

section
variable {K V : Type} [LinearOrder K]

/-- `is_merge_needed`, `btree_node.hpp` 545-551 (release build), for a node of level `n`. -/
def mergeNeeded (c : Cfg K V) (n : Nat) (es : List (K × Val K V n)) : Bool :=
  decide (n ≤ c.maxMergeLevel) && decide ((c.nk n).used es < c.minFill)

/-- `node_end_idx`, `btree_remove_impl.ipp` 101-105: the last child that takes part in a merge.
`curr_idx + m_max_merge_nodes - 1` is computed with 32 bits. -/
def nodeEnd {A : Type} (m : Nat) (t : Node K A) (idx : Nat) : Nat :=
  let e := t.es.length - (if t.edge.isNone then 1 else 0)
  if idx + m = 0 then e else min e (idx + m - 1)

/-- Descend into the child at `idx`, `btree_remove_impl.ipp` 159-168. -/
def removeDown (n : Nat) (rec : Tree K V n → Nat → Except Fault (Tree K V n × Nat × Option V))
    (t : Tree K V (n + 1)) (idx : Nat) (ch : Tree K V n) (nid : Nat) :
    Except Fault (Tree K V (n + 1) × Nat × Option V) := do
  let (ch', nid', ex) ← rec ch nid
  pure (t.setVal idx ch', nid', ex)

/-- The interior part of `do_remove`, `btree_remove_impl.ipp` 58-176, for one key.  One unit of fuel per
`goto retry`. -/
def removeLoop (c : Cfg K V) (key : K) (n : Nat)
    (rec : Tree K V n → Nat → Except Fault (Tree K V n × Nat × Option V)) :
    Nat → Tree K V (n + 1) → Nat → Except Fault (Tree K V (n + 1) × Nat × Option V)
  | 0, _, _ => .error .fuel
  | f + 1, t, nid =>
    match bsearch t.es key with
    | none => .error .ub
    | some (_, idx) =>
      match t.valAt idx with
      | none => .error .assert
      | some (ch : Tree K V n) =>
        if mergeNeeded c n ch.es && decide (idx < nodeEnd c.maxMergeNodes t idx) then do
          let (r, nid') ← mergeNodes c (c.nk (n + 1)) (c.nk n) f t idx (nodeEnd c.maxMergeNodes t idx) nid
          match r with
          | some t' => removeLoop c key n rec f t' nid'
          | none => removeDown n rec t idx ch nid'
        else removeDown n rec t idx ch nid

/-- `do_remove` for one key; at a leaf `remove_one`, `btree_remove_impl.ipp` 26-56. -/
def doRemove (c : Cfg K V) (key : K) (fuel : Nat) :
    (n : Nat) → Tree K V n → Nat → Except Fault (Tree K V n × Nat × Option V)
  | 0, t, nid => do
    let (es, ex) ← leafRemoveOne t.es key
    pure ({ t with es := es }, nid, ex)
  | n + 1, t, nid => removeLoop c key n (doRemove c key fuel n) fuel t nid

/-- The test of `Btree::remove` for an empty root, `btree.ipp` 193-217, with `check_collapse_root`,
`btree_remove_impl.ipp` 178-240: `none`, the root has entries; `some none`, the tree is empty;
`some (some b')`, try again with `b'`. -/
def collapse (c : Cfg K V) : BT K V → Except Fault (Option (Option (BT K V)))
  | ⟨0, root, _⟩ => .ok (if root.es.isEmpty then some none else none)
  | ⟨n + 1, root, nid⟩ =>
    if root.es.isEmpty then
      match root.edge with
      | none => .error .assert
      | some (ch : Tree K V n) => .ok (some (some (if c.mergeOn then ⟨n, ch, nid⟩ else ⟨n + 1, root, nid⟩)))
    else .ok none

/-- `Btree::remove` for one key, `btree.ipp` 176-234: the removed value, if any.  Fuel: one unit per `goto
retry`. -/
def remove (c : Cfg K V) (key : K) : Nat → BT K V → Except Fault (BT K V × Option V)
  | 0, _ => .error .fuel
  | f + 1, b => do
    match ← collapse c b with
    | some none => pure (b, none)
    | some (some b') => remove c key f b'
    | none =>
      let (t, nid, ex) ← doRemove c key f b.lvl b.root b.nid
      pure ({ lvl := b.lvl, root := t, nid := nid }, ex)

end

/-! ## Proofs -/

section
variable {K V A : Type} [LinearOrder K]

theorem Cfg.Good.nk {c : Cfg K V} (h : c.Good) (n : Nat) :
    (c.nk n).Good ∧ (c.nk n).data = c.nodeData := by
  cases n with
  | zero =>
    refine ⟨fun hf => ?_, rfl⟩
    have hf' : c.leafFixed = true := hf
    exact ⟨by simp [Cfg.nk, hf'], h.leaf hf'⟩
  | succ n =>
    refine ⟨fun hf => ?_, rfl⟩
    have hf' : c.intFixed = true := hf
    exact ⟨by simp [Cfg.nk, hf'], h.int hf'⟩

theorem leafRemoveOne_spec {es es' : List (K × V)} {key : K} {ex : Option V} (hs : Asc es)
    (h : leafRemoveOne es key = .ok (es', ex)) :
    Asc es' ∧ (∀ x ∈ es', x ∈ es) ∧ (look es', ex) = Spec.remove (look es) key := by
  unfold leafRemoveOne at h
  rcases bsearch_split hs key with ⟨a, w, b, he, hb, ha, hbb⟩ | ⟨a, b, he, hb, ha, hbb⟩
  · rw [hb] at h
    have hget : es[a.length]? = some (key, w) := by rw [he]; simp
    simp only [if_true, hget] at h
    cases h
    have her : es.eraseIdx a.length = a ++ b := by
      rw [he, List.eraseIdx_append_of_length_le le_rfl]; simp
    rw [her]
    have hsub : (a ++ b).Sublist es := by rw [he]; simp
    refine ⟨hs.sublist hsub, fun x hx => hsub.mem hx, ?_⟩
    unfold Spec.remove
    have h1 : look es key = some w := by rw [he, look_mid ha, if_pos rfl]
    rw [h1]
    congr 1
    funext k
    unfold Spec.del
    rw [he, look_mid ha]
    by_cases hk : k = key
    · subst hk; simp [look_gap ha hbb]
    · simp [hk]
  · rw [hb] at h
    simp only [Bool.false_eq_true, if_false] at h
    cases h
    refine ⟨hs, fun x hx => hx, ?_⟩
    unfold Spec.remove
    have h1 : look es key = none := by rw [he, look_gap ha hbb]
    rw [h1]
    congr 1
    funext k
    unfold Spec.del
    by_cases hk : k = key
    · subst hk; simp [h1]
    · simp [hk]

theorem remove_local {X X' B C : List (K × V)} {key : K} {ex : Option V}
    (hB : ∀ x ∈ B, x.1 ≠ key) (hC : ∀ x ∈ C, x.1 ≠ key)
    (h : (look X', ex) = Spec.remove (look X) key) :
    (look (B ++ (X' ++ C)), ex) = Spec.remove (look (B ++ (X ++ C))) key := by
  unfold Spec.remove at h ⊢
  simp only [Prod.mk.injEq] at h ⊢
  obtain ⟨h1, h2⟩ := h
  constructor
  · funext k
    rw [look_append, look_append, h1]
    unfold Spec.del
    by_cases hk : k = key
    · subst hk; simp [look_none hB, look_none hC]
    · simp only [if_neg hk]; rw [look_append, look_append]
  · rw [h2, look_append, look_append, look_none hB, look_none hC]
    simp

/-- What a remove must do to a subtree that covers `(lo, hi]`. -/
def RemOk (L : Lvl K V A) (key : K) (lo hi : Option K) (t : Node K A) (nid : Nat)
    (res : Node K A × Nat × Option V) : Prop :=
  L.P res.1 lo hi ∧ Step (L.lv t) (L.lv res.1) nid res.2.1 ∧
    (look (cont (L.lv res.1)), res.2.2) = Spec.remove (look (cont (L.lv t))) key

theorem removeDown_ok {key : K} {n : Nat}
    {rec : Tree K V n → Nat → Except Fault (Tree K V n × Nat × Option V)}
    (hrec : ∀ {lo hi t nid res}, (levels K V n).P t lo hi → ltLo lo key → leHi key hi →
      rec t nid = .ok res → RemOk (levels K V n) key lo hi t nid res)
    {t : Tree K V (n + 1)} {lo hi q m : Option K} {a z : List (Option K × Node K (Val K V n))} {i nid0 nid : Nat}
    {ch : Tree K V n} {res}
    (hk : t.kids = a ++ (q, ch) :: z) (ha : a.length = i) (h1 : USeg (levels K V n).P lo a m)
    (h2 : ∀ y ∈ a, y.1 ≠ none) (h3 : USeg (levels K V n).P m ((q, ch) :: z) hi) (h4 : ltLo m key)
    (h5 : leHi key q) (hn : nid0 ≤ nid)
    (h : removeDown n rec t i ch nid = .ok res) : RemOk (levels K V (n + 1)) key lo hi t nid0 res := by
  unfold removeDown at h
  obtain ⟨⟨ch', nid', ex⟩, hr, h6⟩ := bind_ok h
  cases h6
  obtain ⟨h7, h8, h9⟩ := hrec h3.head h4 h5 hr
  have hl : (levels K V (n + 1)).lv t =
      lvs (levels K V n) a ++ ((levels K V n).lv ch ++ lvs (levels K V n) z) := lv_split hk
  obtain ⟨hP, hl'⟩ := set_kid (L := levels K V n) hk ha h1 h2 h3 h7
  replace hl' : (levels K V (n + 1)).lv (t.setVal i ch') =
      lvs (levels K V n) a ++ ((levels K V n).lv ch' ++ lvs (levels K V n) z) := hl'
  refine ⟨hP, ?_, ?_⟩
  · simp only
    rw [hl, hl']
    have := ((Step.refl _ hn).trans h8).ctx (lvs (levels K V n) a) (lvs (levels K V n) z)
    simpa [List.append_assoc] using this
  · simp only
    rw [hl, hl']
    simp only [cont_append]
    obtain ⟨hA, hB⟩ := around h1 h3 h4 h5 h2
    exact remove_local (fun x hx => (hA x hx).ne) (fun x hx => (hB x hx).ne') h9

theorem removeLoop_ok {c : Cfg K V} (hc : c.Good) {key : K} {n : Nat}
    {rec : Tree K V n → Nat → Except Fault (Tree K V n × Nat × Option V)}
    (hrec : ∀ {lo hi t nid res}, (levels K V n).P t lo hi → ltLo lo key → leHi key hi →
      rec t nid = .ok res → RemOk (levels K V n) key lo hi t nid res) :
    ∀ (f : Nat) {lo hi : Option K} {t : Tree K V (n + 1)} {nid : Nat} {res},
      (levels K V (n + 1)).P t lo hi → ltLo lo key → leHi key hi →
      removeLoop c key n rec f t nid = .ok res → RemOk (levels K V (n + 1)) key lo hi t nid res := by
  intro f
  induction f with
  | zero => intro lo hi t nid res _ _ _ h; cases h
  | succ f ih =>
    intro lo hi t nid res hQ hlo hhi h
    obtain ⟨b, i, ch, a, q, z, m, hb, hv, hk, ha, h1, h2, h3, h4, h5⟩ :=
      find_kid (L := levels K V n) hQ hlo hhi
    replace hb : bsearch t.es key = some (b, i) := hb
    replace hv : t.valAt i = some ch := hv
    unfold removeLoop at h
    rw [hb] at h
    simp only [hv] at h
    split at h
    · rename_i hm
      simp only [Bool.and_eq_true, decide_eq_true_eq] at hm
      obtain ⟨⟨r, nid'⟩, hr, h⟩ := bind_ok h
      obtain ⟨g1, g2⟩ := mergeNodes_inv (L := levels K V n) (hc.nk n).1 (hc.nk n).2 hc.ideal hm.2 hQ hr
      cases r with
      | none => exact removeDown_ok hrec hk ha h1 h2 h3 h4 h5 g1 h
      | some t' =>
        obtain ⟨g3, g4, g5⟩ := g2 t' rfl
        obtain ⟨h10, h11, h12⟩ := ih g3 hlo hhi h
        refine ⟨h10, g4.trans h11, ?_⟩
        rw [h12]
        show Spec.remove (look (cont ((intLvl (levels K V n)).lv t'))) _ = _
        rw [g5]
        rfl
    · exact removeDown_ok hrec hk ha h1 h2 h3 h4 h5 le_rfl h

theorem doRemove_ok {c : Cfg K V} (hc : c.Good) {key : K} {f : Nat} (n : Nat) :
    ∀ {lo hi : Option K} {t : Tree K V n} {nid : Nat} {res},
      (levels K V n).P t lo hi → ltLo lo key → leHi key hi →
      doRemove c key f n t nid = .ok res → RemOk (levels K V n) key lo hi t nid res := by
  induction n with
  | zero =>
    intro lo hi t nid res hQ hlo hhi h
    unfold doRemove at h
    obtain ⟨⟨es, ex⟩, h1, h2⟩ := bind_ok h
    cases h2
    obtain ⟨q1, q2, q3⟩ : t.edge = none ∧ Asc t.es ∧ ∀ x ∈ t.es, ltLo lo x.1 ∧ leHi x.1 hi := hQ
    obtain ⟨h3, h4, h5⟩ := leafRemoveOne_spec q2 h1
    refine ⟨⟨q1, h3, fun x hx => q3 x (h4 x hx)⟩, ?_, ?_⟩
    · show Step [t] [{ t with es := es }] nid nid
      exact ⟨le_rfl, fun nx => rfl, fun nx h => h, fun i hi => Or.inl hi, fun h _ => h⟩
    · show (look (cont [{ t with es := es }]), ex) = Spec.remove (look (cont [t])) _
      simpa using h5
  | succ n ih =>
    intro lo hi t nid res hQ hlo hhi h
    unfold doRemove at h
    exact removeLoop_ok hc (fun h1 h2 h3 h4 => ih h1 h2 h3 h4) f hQ hlo hhi h

theorem only_edge {L : Lvl K V A} {t : Node K (Node K A)} {ch : Node K A} {lo hi : Option K}
    (he : t.es = []) (hd : t.edge = some ch) (h : (intLvl L).P t lo hi) :
    L.P ch lo hi ∧ (intLvl L).lv t = L.lv ch := by
  have hk : t.kids = [(none, ch)] := by unfold Node.kids; rw [he, hd]; rfl
  have h' : Kids L.P lo t.es t.edge hi := h
  obtain ⟨-, hu⟩ := Kids_iff.mp h'
  rw [hk] at hu
  obtain ⟨-, h2, h3⟩ := hu
  rw [h2]
  exact ⟨h3, by rw [lv_kids, hk]; simp⟩

theorem collapse_ok {c : Cfg K V} {b : BT K V} {r : Option (Option (BT K V))} (hb : b.Inv)
    (h : collapse c b = .ok r) :
    (r = some none → b.map = fun _ => none) ∧ (∀ b', r = some (some b') → b'.Inv ∧ b'.map = b.map) := by
  obtain ⟨n, root, nid⟩ := b
  cases n with
  | zero =>
    simp only [collapse] at h
    split at h
    · rename_i he
      cases h
      refine ⟨fun _ => ?_, by simp⟩
      show look (cont [root]) = _
      funext k
      have : root.es = [] := by simpa using he
      simp [this]
      rfl
    · cases h; simp
  | succ n =>
    simp only [collapse] at h
    split at h
    · rename_i he
      have he' : root.es = [] := by simpa using he
      split at h
      · cases h
      · rename_i ch hch
        cases h
        refine ⟨by simp, ?_⟩
        intro b' hb'
        simp only [Option.some.injEq] at hb'
        subst hb'
        split
        · obtain ⟨h1, h2⟩ := only_edge (L := levels K V n) he' hch hb.cover
          constructor
          · apply hb.step h1
            show Step ((levels K V (n + 1)).lv root) ((levels K V n).lv ch) nid nid
            have h2' : (levels K V (n + 1)).lv root = (levels K V n).lv ch := h2
            rw [h2']
            exact Step.refl _ le_rfl
          · show look (cont ((levels K V n).lv ch)) = look (cont ((intLvl (levels K V n)).lv root))
            rw [h2]
        · exact ⟨hb, rfl⟩
    · cases h; simp

theorem remove_ok {c : Cfg K V} (hc : c.Good) {key : K} (f : Nat) :
    ∀ {b b' : BT K V} {ex : Option V}, b.Inv → remove c key f b = .ok (b', ex) →
      b'.Inv ∧ (b'.map, ex) = Spec.remove b.map key := by
  induction f with
  | zero => intro b b' ex _ h; cases h
  | succ f ih =>
    intro b b' ex hb h
    unfold remove at h
    obtain ⟨r, h1, h2⟩ := bind_ok h
    obtain ⟨g1, g2⟩ := collapse_ok hb h1
    cases r with
    | none =>
      simp only at h2
      obtain ⟨⟨t, nid, ex'⟩, h3, h4⟩ := bind_ok h2
      cases h4
      obtain ⟨h5, h6, h7⟩ := doRemove_ok hc (n := b.lvl) hb.cover (by simp) (by simp) h3
      exact ⟨hb.step h5 h6, h7⟩
    | some r =>
      cases r with
      | none =>
        cases h2
        refine ⟨hb, ?_⟩
        unfold Spec.remove
        rw [g1 rfl]
        congr 1
        funext k
        simp [Spec.del]
      | some b1 =>
        obtain ⟨g3, g4⟩ := g2 b1 rfl
        rw [← g4]
        exact ih g3 h2

end
end HS.Btree
