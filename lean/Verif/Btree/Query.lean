import Verif.Btree.Range

/-!
# Range queries

`btree_query_impl.ipp` and `btree.ipp` 237-283: the sweep query, which goes to the leaf of the first key and
then along the sibling links, and the traversal query, which visits the children from their parent.

Simplifications: operations run one at a time, so that a node does not change between two reads; reading a
node from the store does not fail.
-/

namespace HS.Btree

section
variable {K V A : Type} [LinearOrder K]

/-- The leaves of a tree, left to right: what `read_and_lock_node` can find by their ids. -/
def treeLeaves : (n : Nat) → Tree K V n → List (Node K V)
  | 0, t => [t]
  | n + 1, t => (t.es.flatMap fun x => treeLeaves n x.2) ++ (t.edge.map (treeLeaves n)).getD []

/-- `read_and_lock_node` of a leaf. -/
def BT.readLeaf (b : BT K V) (id : Nat) : Option (Node K V) :=
  (treeLeaves b.lvl b.root).find? (fun nd => nd.id == id)

/-- The leaf part of `do_sweep_query`, `btree_query_impl.ipp` 24-65: `out` is what this call has added to
`out_values` so far, `out.length` is `count`.  Fuel: one unit per leaf. -/
def sweepLoop (dflt : K) (read : Nat → Option (Node K V)) (r : KeyRange K) (batch : Nat)
    (filter : Option (K → V → Bool)) : Nat → Node K V → List (K × V) → Except Fault (List (K × V) × Status)
  | 0, _, _ => .error .fuel
  | f + 1, nd, out =>
    match multiGet nd r (batch - out.length) filter with
    | .error e => .error e
    | .ok (o, _) =>
      if (out ++ o).length < batch then
        if r.endKey ≤ lastKey dflt nd then .ok (out ++ o, .success)           -- 51
        else match nd.next with
          | none => .ok (out ++ o, .success)                                  -- 52
          | some id =>
            match read id with
            | none => .error .ub
            | some nd' => sweepLoop dflt read r batch filter f nd' (out ++ o)
      else .ok (out ++ o, .has_more)

/-- The descent of `do_sweep_query`, `btree_query_impl.ipp` 67-79: the leaf of the first key. -/
def sweepDown (key : K) : (n : Nat) → Tree K V n → Except Fault (Node K V)
  | 0, t => .ok t
  | n + 1, t =>
    match bsearch t.es key with
    | none => .error .ub
    | some (_, idx) =>
      match t.valAt idx with
      | none => .error .assert
      | some (ch : Tree K V n) => sweepDown key n ch

/-- The loop over the children in `do_traversal_query`, `btree_query_impl.ipp` 121-141: `cnt` children from
`idx` on. -/
def travLoop (rec : A → List (K × V) → Except Fault (List (K × V) × Status)) (t : Node K A) :
    Nat → Nat → List (K × V) → Except Fault (List (K × V) × Status)
  | 0, _, out => .ok (out, .success)
  | cnt + 1, idx, out =>
    match t.valAt idx with
    | none => .error .ub
    | some ch =>
      match rec ch out with
      | .error e => .error e
      | .ok (out', .has_more) => .ok (out', .has_more)                        -- 138
      | .ok (out', _) => travLoop rec t cnt (idx + 1) out'

/-- `do_traversal_query`, `btree_query_impl.ipp` 84-147.  `out` is `out_values`, with what was in it before
the call. -/
def travQuery (r : KeyRange K) (batch : Nat) (filter : Option (K → V → Bool)) :
    (n : Nat) → Tree K V n → List (K × V) → Except Fault (List (K × V) × Status)
  | 0, t, out =>
    match multiGet (V := V) t r (u32 ((batch : Int) - out.length)) filter with
    | .error e => .error e
    | .ok (o, _) => .ok (out ++ o, if batch ≤ (out ++ o).length then .has_more else .success)
  | n + 1, t, out =>
    match bsearch t.es r.startKey, bsearch t.es r.endKey with
    | some (_, s), some (_, e) =>
      if s = t.es.length ∧ t.edge.isNone then .ok (out, .success)             -- 113
      else
        let e' := if e = t.es.length ∧ t.edge.isNone then e - 1 else e        -- 115
        if e' < s then .error .assert                                         -- 118
        else travLoop (A := Tree K V n) (travQuery r batch filter n) t (e' + 1 - s) s out
    | _, _ => .error .ub

/-- `BtreeQueryType`, `btree_req.hpp`: the two that are implemented. -/
inductive QueryType where
  | sweep | traversal
  deriving DecidableEq, Repr

/-- `BtreeQueryRequest` with its working range, `btree_req.hpp` and `btree_kv.hpp` 176-239.  Only the start
of the working range ever changes. -/
structure QReq (K V : Type) where
  range : KeyRange K
  type : QueryType
  batch : Nat
  filter : Option (K → V → Bool) := none

/-- `do_sweep_query` from the root. -/
def sweepQuery (c : Cfg K V) (b : BT K V) (q : QReq K V) (fuel : Nat) :
    Except Fault (List (K × V) × Status) :=
  match sweepDown q.range.startKey b.lvl b.root with
  | .error e => .error e
  | .ok leaf => sweepLoop c.dfltKey b.readLeaf q.range q.batch q.filter fuel leaf []

/-- What `Btree::query` does after the search, `btree.ipp` 262-271: the status, and the request with its
working range shifted. -/
def queryEnd (q : QReq K V) (out : List (K × V)) (st : Status) : Status × QReq K V :=
  match out.getLast? with
  | none => (st, q)
  | some x => (if q.range.endKey ≤ x.1 then .success else st,
      { q with range := { q.range with startKey := x.1, startIncl := false } })

/-- The search of `Btree::query`, `btree.ipp` 248-260. -/
def search (c : Cfg K V) (b : BT K V) (q : QReq K V) (out0 : List (K × V)) (fuel : Nat) :
    Except Fault (List (K × V) × Status) :=
  match q.type with
  | .sweep =>
    match sweepQuery c b q fuel with
    | .error e => .error e
    | .ok (o, st) => .ok (out0 ++ o, st)
  | .traversal => travQuery q.range q.batch q.filter b.lvl b.root out0

/-- `Btree::query`, `btree.ipp` 237-283.  `out0` is what `out_values` holds before the call. -/
def query (c : Cfg K V) (b : BT K V) (q : QReq K V) (out0 : List (K × V)) (fuel : Nat) :
    Except Fault (List (K × V) × Status × QReq K V) :=
  if q.batch = 0 then .ok (out0, .success, q)
  else
    match search c b q out0 fuel with
    | .error e => .error e
    | .ok (out, st) => .ok (out, queryEnd q out st)

/-- A caller that reads page after page, as `tests/btree_helpers/btree_test_helper.hpp` 338-380 does: query
with an empty vector while the status is `has_more`.  Fuel: one unit per page. -/
def pages (c : Cfg K V) (b : BT K V) (fuel : Nat) : Nat → QReq K V → Except Fault (List (List (K × V)))
  | 0, _ => .error .fuel
  | f + 1, q =>
    match query c b q [] fuel with
    | .error e => .error e
    | .ok (out, .has_more, q') =>
      (match pages c b fuel f q' with
        | .error e => .error e
        | .ok rest => .ok (out :: rest))
    | .ok (out, _, _) => .ok [out]

end

/-! ## Proofs -/

section
variable {K V A : Type} [LinearOrder K]

theorem treeLeaves_eq (n : Nat) : ∀ t : Tree K V n, treeLeaves n t = (levels K V n).lv t := by
  induction n with
  | zero => intro t; rfl
  | succ n ih =>
    intro t
    show (t.es.flatMap fun x => treeLeaves n x.2) ++ (t.edge.map (treeLeaves n)).getD [] =
      kidLeaves (levels K V n) t.es ++ edgeLeaves (levels K V n) t.edge
    have hf : treeLeaves (K := K) (V := V) n = (levels K V n).lv := funext ih
    rw [hf]
    unfold kidLeaves edgeLeaves
    cases t.edge <;> rfl

theorem readLeaf_eq {b : BT K V} {l1 l2 : List (Node K V)} {nd : Node K V} (h : b.Inv)
    (hl : b.leaves = l1 ++ nd :: l2) : b.readLeaf nd.id = some nd := by
  unfold BT.readLeaf
  rw [treeLeaves_eq]
  have hn := h.nodup
  change (ids b.leaves).Nodup at hn
  change b.leaves.find? _ = _
  rw [hl] at hn ⊢
  rw [List.find?_append]
  have : l1.find? (fun x => x.id == nd.id) = none := by
    rw [List.find?_eq_none]
    intro x hx hc
    simp only [beq_iff_eq] at hc
    unfold ids at hn
    rw [List.map_append, List.map_cons, List.nodup_append] at hn
    exact hn.2.2 x.id (List.mem_map_of_mem hx) nd.id (by simp) hc
  rw [this]
  simp

theorem hits_append (r : KeyRange K) (a b : List (K × A)) : hits r (a ++ b) = hits r a ++ hits r b := by
  simp [hits]

/-- One leaf's share of a page: when the page is not cut inside the leaf or nothing is filtered. -/
theorem page_step {h1 h2 : List (K × V)} {f : Option (K → V → Bool)} {n : Nat}
    (hcut : f = none ∨ (h1 ++ h2).length ≤ n) :
    ∃ o, o = (h1.take n).filter (fun x => selects f x.1 x.2) ∧
      (o.length < n → (f = none ∨ h2.length ≤ n - o.length) ∧
        ((h1 ++ h2).take n).filter (fun x => selects f x.1 x.2) =
          o ++ (h2.take (n - o.length)).filter (fun x => selects f x.1 x.2)) ∧
      (n ≤ o.length → o.length = n ∧ ((h1 ++ h2).take n).filter (fun x => selects f x.1 x.2) = o) := by
  refine ⟨_, rfl, ?_, ?_⟩
  · intro hlt
    rcases hcut with rfl | hcut
    · refine ⟨Or.inl rfl, ?_⟩
      simp only [selects, List.filter_true] at hlt ⊢
      rw [List.length_take] at hlt ⊢
      rw [List.take_append]
      congr 1
      congr 1
      omega
    · rw [List.length_append] at hcut
      have h3 : h1.take n = h1 := List.take_of_length_le (by omega)
      have h4 := List.length_filter_le (fun x => selects f x.1 x.2) h1
      rw [h3]
      refine ⟨Or.inr (by omega), ?_⟩
      rw [List.take_of_length_le (by rw [List.length_append]; omega), List.filter_append,
        List.take_of_length_le (i := n - _) (by omega)]
  · intro hge
    have h4 := List.length_filter_le (fun x => selects f x.1 x.2) (h1.take n)
    rw [List.length_take] at h4
    refine ⟨by omega, ?_⟩
    have h5 : (h1 ++ h2).take n = h1.take n := List.take_append_of_le_length (by omega)
    rw [h5]

/-- The sweep from a leaf on collects the hits of that leaf and of the leaves after it. -/
theorem sweepLoop_ok {dflt : K} {read : Nat → Option (Node K V)} {r : KeyRange K} {batch : Nat}
    {f : Option (K → V → Bool)} (post : List (Node K V)) :
    ∀ {nd : Node K V} {out : List (K × V)} {fuel : Nat}, post.length < fuel → out.length < batch →
      Chain none (nd :: post) → (∀ x ∈ post, read x.id = some x) → Asc (cont (nd :: post)) →
      ((∀ k, dflt ≤ k) ∧ (∀ x ∈ cont post, r.startKey < x.1) ∨ dflt < r.endKey) →
      (f = none ∨ (hits r (cont (nd :: post))).length ≤ batch - out.length) →
      ∃ o, o = ((hits r (cont (nd :: post))).take (batch - out.length)).filter (fun x => selects f x.1 x.2) ∧
        sweepLoop dflt read r batch f fuel nd out =
          .ok (out ++ o, if batch ≤ (out ++ o).length then .has_more else .success) := by
  induction post with
  | nil =>
    intro nd out fuel hf ho hch hr hasc hd hcut
    obtain ⟨g, rfl⟩ : ∃ g, fuel = g + 1 := ⟨fuel - 1, by omega⟩
    have hc : cont [nd] = nd.es := by simp
    rw [hc] at hasc hcut ⊢
    obtain ⟨o, h1, h2⟩ := multiGet_spec hasc r (batch - out.length) f
    refine ⟨o, h2, ?_⟩
    unfold sweepLoop
    rw [h1]
    simp only
    have hn : nd.next = none := hch.1
    rw [hn]
    by_cases hlt : (out ++ o).length < batch
    · rw [if_pos hlt, if_neg (by omega : ¬ batch ≤ _)]
      simp
    · rw [if_neg hlt, if_pos (by omega)]
  | cons x post ih =>
    intro nd out fuel hf ho hch hr hasc hd hcut
    simp only [List.length_cons] at hf
    obtain ⟨g, rfl⟩ : ∃ g, fuel = g + 1 := ⟨fuel - 1, by omega⟩
    rw [cont_cons] at hasc hcut ⊢
    obtain ⟨ha1, ha2, ha3⟩ := Asc_append.mp hasc
    rw [hits_append] at hcut ⊢
    obtain ⟨o, h1, h2⟩ := multiGet_spec ha1 r (batch - out.length) f
    obtain ⟨o', h3, h4, h5⟩ := page_step (h1 := hits r nd.es) (h2 := hits r (cont (x :: post))) hcut
    rw [← h2] at h3
    subst h3
    unfold sweepLoop
    rw [h1]
    simp only
    by_cases hlt : (out ++ o').length < batch
    · rw [if_pos hlt]
      rw [List.length_append] at hlt
      obtain ⟨h6, h7⟩ := h4 (by omega)
      have hn : nd.next = some x.id := hch.1
      by_cases hlast : r.endKey ≤ lastKey dflt nd
      · rw [if_pos hlast]
        have hnil : hits r (cont (x :: post)) = [] := by
          apply hits_nil
          intro y hy
          rw [Bool.eq_false_iff]
          intro hin
          have hle : y.1 ≤ r.endKey := by
            have := ((inRange_iff r y.1).mp hin).2
            unfold Above at this
            split at this
            · exact not_lt.mp this
            · exact (not_le.mp this).le
          unfold lastKey at hlast
          cases hl : nd.es.getLast? with
          | none =>
            rw [hl] at hlast
            simp only [Option.map_none, Option.getD_none] at hlast
            rcases hd with ⟨hd1, hd2⟩ | hd
            · have g1 := hd2 y hy
              have g2 : r.startKey < dflt := lt_of_lt_of_le g1 (hle.trans hlast)
              exact absurd (hd1 r.startKey) (not_le.mpr g2)
            · exact absurd hlast (not_le.mpr hd)
          | some z =>
            rw [hl] at hlast
            simp only [Option.map_some, Option.getD_some] at hlast
            have g1 := ha3 z (List.mem_of_getLast? hl) y hy
            exact absurd (lt_of_le_of_lt hlast g1) (not_lt.mpr hle)
        refine ⟨o', ?_, ?_⟩
        · rw [h7, hnil]; simp
        · rw [List.length_append, if_neg (by omega)]
      · rw [if_neg hlast, hn]
        simp only
        rw [hr x (by simp)]
        simp only
        obtain ⟨o2, h8, h9⟩ := ih (nd := x) (out := out ++ o') (fuel := g) (by omega)
          (by rw [List.length_append]; omega) hch.2 (fun y hy => hr y (by simp [hy])) ha2
          (by
            rcases hd with ⟨hd1, hd2⟩ | hd
            · exact Or.inl ⟨hd1, fun y hy => hd2 y (by rw [cont_cons]; simp [hy])⟩
            · exact Or.inr hd)
          (by
            rcases h6 with h6 | h6
            · exact Or.inl h6
            · right; rw [List.length_append]; omega)
        refine ⟨o' ++ o2, ?_, ?_⟩
        · rw [h7, h8, List.length_append, Nat.sub_sub]
        · rw [h9]; simp [List.append_assoc]
    · rw [if_neg hlt]
      rw [List.length_append] at hlt
      obtain ⟨h6, h7⟩ := h5 (by omega)
      refine ⟨o', h7.symm, ?_⟩
      rw [List.length_append, if_pos (by omega)]

/-- The descent ends in the leaf of the key: the leaves before it have smaller keys only, the leaves after
it larger keys only. -/
theorem sweepDown_ok (n : Nat) :
    ∀ {lo hi : Option K} {t : Tree K V n} {k : K}, (levels K V n).P t lo hi → ltLo lo k → leHi k hi →
      ∃ l1 nd l2, sweepDown k n t = .ok nd ∧ (levels K V n).lv t = l1 ++ nd :: l2 ∧
        (∀ x ∈ cont l1, x.1 < k) ∧ ∀ x ∈ cont l2, k < x.1 := by
  induction n with
  | zero =>
    intro lo hi t k _ _ _
    exact ⟨[], t, [], rfl, rfl, by simp, by simp⟩
  | succ n ih =>
    intro lo hi t k hQ hlo hhi
    obtain ⟨b, i, ch, a, q, z, m, hb, hv, hk, ha, h1, h2, h3, h4, h5⟩ :=
      find_kid (L := levels K V n) hQ hlo hhi
    replace hb : bsearch t.es k = some (b, i) := hb
    replace hv : t.valAt i = some ch := hv
    obtain ⟨l1, nd, l2, g1, g2, g3, g4⟩ := ih h3.head h4 h5
    obtain ⟨hA, hB⟩ := around h1 h3 h4 h5 h2
    refine ⟨lvs (levels K V n) a ++ l1, nd, l2 ++ lvs (levels K V n) z, ?_, ?_, ?_, ?_⟩
    · unfold sweepDown
      rw [hb]
      simp only [hv]
      exact g1
    · have hl : (levels K V (n + 1)).lv t =
        lvs (levels K V n) a ++ ((levels K V n).lv ch ++ lvs (levels K V n) z) := lv_split hk
      rw [hl, g2]
      simp
    · intro x hx
      rw [cont_append] at hx
      rcases List.mem_append.mp hx with hx | hx
      · exact hA x hx
      · exact g3 x hx
    · intro x hx
      rw [cont_append] at hx
      rcases List.mem_append.mp hx with hx | hx
      · exact g4 x hx
      · exact hB x hx

/-- All entries of a tree, in the order of the leaves. -/
def BT.entries (b : BT K V) : List (K × V) := cont b.leaves

theorem BT.Inv.asc {b : BT K V} (h : b.Inv) : Asc b.entries := (levels K V b.lvl).cont_asc h.cover

/-- A page of the entries. -/
def page (q : QReq K V) (l : List (K × V)) : List (K × V) :=
  ((hits q.range l).take q.batch).filter (fun x => selects q.filter x.1 x.2)

theorem Below_of_lt {r : KeyRange K} {k : K} (h : k < r.startKey) : Below r k := by
  unfold Below; split
  · exact h
  · exact h.le

theorem Above_of_lt {r : KeyRange K} {k : K} (h : r.endKey < k) : Above r k := by
  unfold Above; split
  · exact h
  · exact h.le

theorem sweepQuery_ok {c : Cfg K V} {b : BT K V} {q : QReq K V} {fuel : Nat} (hb : b.Inv)
    (hq : 0 < q.batch) (hfu : b.leaves.length ≤ fuel)
    (hd : (∀ k, c.dfltKey ≤ k) ∨ c.dfltKey < q.range.endKey)
    (hcut : q.filter = none ∨ (hits q.range b.entries).length ≤ q.batch) :
    sweepQuery c b q fuel = .ok (page q b.entries,
      if q.batch ≤ (page q b.entries).length then .has_more else .success) := by
  obtain ⟨l1, nd, l2, h1, h2, h3, h4⟩ :=
    sweepDown_ok b.lvl (k := q.range.startKey) hb.cover (by simp) (by simp)
  replace h2 : b.leaves = l1 ++ nd :: l2 := h2
  have hnil : hits q.range (cont l1) = [] :=
    hits_nil (fun x hx => not_inRange_of_below (Below_of_lt (h3 x hx)))
  have he : hits q.range b.entries = hits q.range (cont (nd :: l2)) := by
    unfold BT.entries
    rw [h2, cont_append, hits_append, hnil, List.nil_append]
  have hasc := hb.asc
  unfold BT.entries at hasc
  rw [h2, cont_append] at hasc
  have hch : Chain none b.leaves := hb.chain
  rw [h2, Chain_append] at hch
  obtain ⟨o, g1, g2⟩ := sweepLoop_ok (dflt := c.dfltKey) (read := b.readLeaf) (r := q.range) (batch := q.batch)
    (f := q.filter) l2 (nd := nd) (out := []) (fuel := fuel) (by rw [h2] at hfu; simp at hfu; omega) hq
    hch.2
    (fun x hx => by
      obtain ⟨u, v, rfl⟩ := List.append_of_mem hx
      exact readLeaf_eq hb (l1 := l1 ++ nd :: u) (l2 := v) (by rw [h2]; simp))
    (Asc_append.mp hasc).2.1
    (by
      rcases hd with hd | hd
      · exact Or.inl ⟨hd, h4⟩
      · exact Or.inr hd)
    (by rw [← he]; simpa using hcut)
  unfold sweepQuery
  rw [h1]
  simp only
  rw [g2]
  unfold page
  rw [he]
  simp only [List.length_nil, Nat.sub_zero, List.nil_append] at g1 ⊢
  rw [← g1]

/-- What a search below a node adds to `out`, and its status. -/
def Found (r : KeyRange K) (batch : Nat) (f : Option (K → V → Bool)) (l out : List (K × V))
    (res : Except Fault (List (K × V) × Status)) : Prop :=
  ∃ o, o = ((hits r l).take (batch - out.length)).filter (fun x => selects f x.1 x.2) ∧
    res = .ok (out ++ o, if batch ≤ (out ++ o).length then .has_more else .success)

theorem travLoop_ok {L : Lvl K V A} {rec : Node K A → List (K × V) → Except Fault (List (K × V) × Status)}
    {r : KeyRange K} {batch : Nat} {f : Option (K → V → Bool)} {t : Node K (Node K A)}
    (mid : List (Option K × Node K A)) :
    ∀ {a z : List (Option K × Node K A)} {out : List (K × V)}, t.kids = a ++ mid ++ z →
      (∀ y ∈ mid, ∀ out : List (K × V), out.length < batch →
        (f = none ∨ (hits r (cont (L.lv y.2))).length ≤ batch - out.length) →
        Found r batch f (cont (L.lv y.2)) out (rec y.2 out)) →
      out.length < batch → (f = none ∨ (hits r (cont (lvs L mid))).length ≤ batch - out.length) →
      Found r batch f (cont (lvs L mid)) out (travLoop rec t mid.length a.length out) := by
  induction mid with
  | nil =>
    intro a z out _ _ ho _
    refine ⟨[], by simp [hits], ?_⟩
    simp only [List.length_nil, travLoop, List.append_nil]
    rw [if_neg (by omega)]
  | cons y mid ih =>
    intro a z out hk hrec ho hcut
    rw [lvs_cons, cont_append, hits_append] at hcut
    unfold Found
    rw [lvs_cons, cont_append, hits_append]
    obtain ⟨o', h3, h4, h5⟩ :=
      page_step (h1 := hits r (cont (L.lv y.2))) (h2 := hits r (cont (lvs L mid))) hcut
    obtain ⟨o, h1, h2⟩ := hrec y (by simp) out ho (by
      rcases hcut with h | h
      · exact Or.inl h
      · right; rw [List.length_append] at h; omega)
    rw [← h1] at h3
    subst h3
    have hv : t.valAt a.length = some y.2 := by
      rw [valAt_kids, hk]
      simp
    unfold travLoop
    simp only [List.length_cons]
    rw [hv]
    simp only
    rw [h2]
    by_cases hlt : batch ≤ (out ++ o').length
    · rw [if_pos hlt]
      have hlt' := hlt
      rw [List.length_append] at hlt
      obtain ⟨h6, h7⟩ := h5 (by omega)
      exact ⟨o', h7.symm, by rw [if_pos hlt']⟩
    · rw [if_neg hlt]
      simp only
      have hlt' := hlt
      rw [List.length_append] at hlt
      obtain ⟨h6, h7⟩ := h4 (by omega)
      obtain ⟨o2, g1, g2⟩ := ih (a := a ++ [y]) (z := z) (out := out ++ o') (by rw [hk]; simp)
        (fun y' hy' => hrec y' (by simp [hy'])) (by omega)
        (by
          rcases h6 with h6 | h6
          · exact Or.inl h6
          · right; rw [List.length_append]; omega)
      refine ⟨o' ++ o2, ?_, ?_⟩
      · rw [h7, g1, List.length_append, Nat.sub_sub]
      · rw [List.length_append, List.length_singleton] at g2
        rw [g2]; simp [List.append_assoc]

theorem USeg.kid {P : A → Option K → Option K → Prop} {ks : List (Option K × A)} :
    ∀ {lo hi : Option K}, USeg P lo ks hi → ∀ {y}, y ∈ ks → ∃ m, P y.2 m y.1 := by
  induction ks with
  | nil => intro lo hi _ y hy; simp at hy
  | cons x r ih =>
    intro lo hi h y hy
    rcases List.mem_cons.mp hy with rfl | hy'
    · exact ⟨_, h.head⟩
    · obtain ⟨k, c⟩ := x
      cases k with
      | none => rw [h.1] at hy'; simp at hy'
      | some k => exact ih h.2.2 hy'

theorem lb_mono (es : List (K × A)) {k k' : K} (h : k ≤ k') : lb es k ≤ lb es k' := by
  unfold lb
  induction es with
  | nil => simp
  | cons x r ih =>
    rw [List.takeWhile_cons, List.takeWhile_cons]
    by_cases h1 : x.1 < k
    · have h2 : x.1 < k' := lt_of_lt_of_le h1 h
      simp only [h1, h2, decide_true, if_true, List.length_cons]
      omega
    · simp [h1]

/-- The children that a traversal skips have no hits. -/
theorem trav_window {L : Lvl K V A} {t : Node K (Node K A)} {lo hi : Option K} {r : KeyRange K}
    (h : (intLvl L).P t lo hi) (hse : r.startKey ≤ r.endKey) :
    ∃ s e, (∃ b, bsearch t.es r.startKey = some (b, s)) ∧ (∃ b, bsearch t.es r.endKey = some (b, e)) ∧
      ((s = t.es.length ∧ t.edge.isNone = true ∧ hits r (cont ((intLvl L).lv t)) = []) ∨
       ((s = t.es.length ∧ t.edge.isNone = true) → False) ∧
        ∃ e', e' = (if e = t.es.length ∧ t.edge.isNone = true then e - 1 else e) ∧ s ≤ e' ∧
        ∃ a mid z, t.kids = a ++ mid ++ z ∧ a.length = s ∧ mid.length = e' + 1 - s ∧
          hits r (cont ((intLvl L).lv t)) = hits r (cont (lvs L mid)) ∧
          ∀ y ∈ mid, ∃ m, L.P y.2 m y.1) := by
  have hasc : Asc t.es := (intLvl L).asc h
  obtain ⟨bs, hbs, -⟩ := bsearch_spec hasc r.startKey
  obtain ⟨be, hbe, -⟩ := bsearch_spec hasc r.endKey
  refine ⟨_, _, ⟨bs, hbs⟩, ⟨be, hbe⟩, ?_⟩
  have hmono := lb_mono t.es hse
  have hsl := lb_le t.es r.startKey
  have hel := lb_le t.es r.endKey
  obtain ⟨hne, hu⟩ := Kids_iff.mp (show Kids L.P lo t.es t.edge hi from h)
  have hlen := kids_length t
  have hpre : ∀ a', a' = t.kids.take (lb t.es r.startKey) → hits r (cont (lvs L a')) = [] := by
    rintro _ rfl
    apply hits_nil
    intro x hx
    apply not_inRange_of_below
    apply Below_of_lt
    unfold lvs cont at hx
    rw [List.mem_flatMap] at hx
    obtain ⟨nd, hnd, hx⟩ := hx
    rw [List.mem_flatMap] at hnd
    obtain ⟨y, hy, hnd⟩ := hnd
    obtain ⟨i, hi, hyi⟩ := List.mem_iff_getElem.mp hy
    rw [List.length_take] at hi
    have hyi' : t.kids[i]? = some y := by
      rw [List.getElem_take] at hyi
      rw [← hyi]
      exact List.getElem?_eq_getElem _
    have hilt : i < t.es.length := by omega
    rw [kids_lt t hilt] at hyi'
    cases hyi'
    obtain ⟨m, hm⟩ := hu.kid (List.mem_of_mem_take hy)
    have hb := (L.cont_bnd (nd := t.es[i].2) hm (by unfold cont; rw [List.mem_flatMap]; exact ⟨nd, hnd, hx⟩)).2
    simp only [leHi_some] at hb
    exact lt_of_le_of_lt hb (lb_lt t.es r.startKey (List.getElem?_eq_getElem hilt) (by omega))
  rw [lv_kids]
  by_cases hdone : lb t.es r.startKey = t.es.length ∧ t.edge.isNone = true
  · refine Or.inl ⟨hdone.1, hdone.2, ?_⟩
    have hen : t.edge = none := by simpa using hdone.2
    have : t.kids = t.kids.take (lb t.es r.startKey) := by
      rw [List.take_of_length_le]
      rw [hlen, hen]; simp [hdone.1]
    exact hpre _ this
  · refine Or.inr ⟨hdone, _, rfl, ?_, ?_⟩
    · split
      · rename_i hc
        by_contra hlt
        exact hdone ⟨by omega, hc.2⟩
      · exact hmono
    · generalize he' : (if lb t.es r.endKey = t.es.length ∧ t.edge.isNone = true then lb t.es r.endKey - 1
        else lb t.es r.endKey) = e'
      have hse' : lb t.es r.startKey ≤ e' := by
        rw [← he']
        split
        · rename_i hc
          by_contra hlt
          exact hdone ⟨by omega, hc.2⟩
        · exact hmono
      have hle' : e' < t.kids.length := by
        rw [hlen, ← he']
        cases hed : t.edge with
        | none =>
          simp only [Option.isNone_none, and_true, Option.isSome_none, Bool.false_eq_true, if_false, Nat.add_zero]
          have : t.es ≠ [] := by
            intro hnil
            apply hne
            simp [Node.kids, hnil, hed]
          have := List.length_pos_iff.mpr this
          split <;> omega
        | some c => simp; omega
      refine ⟨t.kids.take (lb t.es r.startKey), (t.kids.drop (lb t.es r.startKey)).take (e' + 1 - lb t.es r.startKey),
        t.kids.drop (e' + 1), ?_, ?_, ?_, ?_, ?_⟩
      · rw [List.append_assoc]
        have h1 : t.kids.drop (e' + 1) =
            (t.kids.drop (lb t.es r.startKey)).drop (e' + 1 - lb t.es r.startKey) := by
          rw [List.drop_drop]; congr 1; omega
        rw [h1, List.take_append_drop, List.take_append_drop]
      · rw [List.length_take]; omega
      · rw [List.length_take, List.length_drop]; omega
      · have h1 : t.kids = t.kids.take (lb t.es r.startKey) ++
            ((t.kids.drop (lb t.es r.startKey)).take (e' + 1 - lb t.es r.startKey) ++ t.kids.drop (e' + 1)) := by
          have h1 : t.kids.drop (e' + 1) =
              (t.kids.drop (lb t.es r.startKey)).drop (e' + 1 - lb t.es r.startKey) := by
            rw [List.drop_drop]; congr 1; omega
          rw [h1, List.take_append_drop, List.take_append_drop]
        have hpost : hits r (cont (lvs L (t.kids.drop (e' + 1)))) = [] := by
          by_cases hlt : lb t.es r.endKey < t.es.length
          · have hee : e' = lb t.es r.endKey := by rw [← he', if_neg (by omega)]
            have hkd : t.kids = t.kids.take e' ++ (some (t.es[lb t.es r.endKey]).1, (t.es[lb t.es r.endKey]).2) ::
                t.kids.drop (e' + 1) := by
              have h2 : t.kids[e']? = some (some (t.es[lb t.es r.endKey]).1, (t.es[lb t.es r.endKey]).2) := by
                rw [hee]; exact kids_lt t hlt
              obtain ⟨h3, h4⟩ := List.getElem?_eq_some_iff.mp h2
              rw [← h4, List.getElem_cons_drop, List.take_append_drop]
            rw [hkd] at hu
            obtain ⟨m, -, hu2, -⟩ := hu.split (by simp)
            apply hits_nil
            intro x hx
            apply not_inRange_of_above
            apply Above_of_lt
            have := (hu2.2.2.cont x hx).1
            simp only [ltLo_some] at this
            exact lt_of_le_of_lt (lb_ge hasc r.endKey (List.getElem?_eq_getElem hlt) le_rfl) this
          · have : t.kids.drop (e' + 1) = [] := by
              apply List.drop_of_length_le
              rw [hlen]
              rw [← he']
              cases hed : t.edge with
              | none => simp; split <;> omega
              | some c => simp; omega
            rw [this]
            rfl
        conv_lhs => rw [h1]
        rw [lvs_append, lvs_append, cont_append, cont_append, hits_append, hits_append, hpre _ rfl, hpost]
        simp
      · intro y hy
        exact hu.kid (List.mem_of_mem_drop (List.mem_of_mem_take hy))

theorem u32_small {a b : Nat} (h : b ≤ a) (ha : a < 4294967296) : u32 ((a : Int) - b) = a - b := by
  unfold u32
  omega

/-- The traversal below a node collects the hits below it. -/
theorem travQuery_ok {r : KeyRange K} {batch : Nat} {f : Option (K → V → Bool)} (hse : r.startKey ≤ r.endKey)
    (hb32 : batch < 4294967296) (n : Nat) :
    ∀ {lo hi : Option K} {t : Tree K V n} {out : List (K × V)}, (levels K V n).P t lo hi →
      out.length < batch →
      (f = none ∨ (hits r (cont ((levels K V n).lv t))).length ≤ batch - out.length) →
      Found r batch f (cont ((levels K V n).lv t)) out (travQuery r batch f n t out) := by
  induction n with
  | zero =>
    intro lo hi t out hP ho _
    have hasc : Asc t.es := hP.2.1
    obtain ⟨o, h1, h2⟩ := multiGet_spec (V := V) hasc r (batch - out.length) f
    have hc : cont ((levels K V 0).lv t) = t.es := by
      show cont [t] = _
      simp
    refine ⟨o, by rw [hc]; exact h2, ?_⟩
    unfold travQuery
    rw [u32_small ho.le hb32, h1]
  | succ n ih =>
    intro lo hi t out hP ho hcut
    obtain ⟨s, e, ⟨bs, hbs⟩, ⟨be, hbe⟩, h⟩ := trav_window (L := levels K V n) hP hse
    replace hbs : bsearch t.es r.startKey = some (bs, s) := hbs
    replace hbe : bsearch t.es r.endKey = some (be, e) := hbe
    unfold travQuery
    rw [hbs, hbe]
    simp only
    rcases h with ⟨h1, h2, h3⟩ | ⟨h1, e', rfl, hle, a, mid, z, h2, h3, h4, h5, h6⟩
    · replace h1 : s = t.es.length := h1
      replace h2 : t.edge.isNone = true := h2
      rw [if_pos ⟨h1, h2⟩]
      replace h3 : hits r (cont ((levels K V (n + 1)).lv t)) = [] := h3
      refine ⟨[], by rw [h3]; simp, ?_⟩
      rw [List.append_nil, if_neg (by omega)]
    · replace h1 : ¬ (s = t.es.length ∧ t.edge.isNone = true) := h1
      rw [if_neg h1]
      rw [if_neg (by exact not_lt.mpr hle)]
      replace h5 : hits r (cont ((levels K V (n + 1)).lv t)) = hits r (cont (lvs (levels K V n) mid)) := h5
      rw [h5] at hcut
      have := travLoop_ok (L := levels K V n) (rec := travQuery r batch f n) (r := r) (batch := batch) (f := f)
        (t := t) mid (a := a) (z := z) (out := out) h2
        (fun y hy out ho hc => by
          obtain ⟨m, hm⟩ := h6 y hy
          exact ih hm ho hc)
        ho hcut
      unfold Found at this ⊢
      rw [h5]
      obtain ⟨o, g1, g2⟩ := this
      refine ⟨o, g1, ?_⟩
      rw [h4, h3] at g2
      exact g2

theorem search_ok {c : Cfg K V} {b : BT K V} {q : QReq K V} {fuel : Nat} (hb : b.Inv)
    (hq : 0 < q.batch) (hb32 : q.batch < 4294967296) (hse : q.range.startKey ≤ q.range.endKey)
    (hfu : b.leaves.length ≤ fuel) (hd : (∀ k, c.dfltKey ≤ k) ∨ c.dfltKey < q.range.endKey)
    (hcut : q.filter = none ∨ (hits q.range b.entries).length ≤ q.batch) :
    search c b q [] fuel = .ok (page q b.entries,
      if q.batch ≤ (page q b.entries).length then .has_more else .success) := by
  unfold search
  cases q.type with
  | sweep =>
    simp only
    rw [sweepQuery_ok hb hq hfu hd hcut]
    rfl
  | traversal =>
    simp only
    obtain ⟨o, h1, h2⟩ := travQuery_ok (r := q.range) (batch := q.batch) (f := q.filter) hse hb32 b.lvl
      (t := b.root) (out := []) hb.cover hq hcut
    rw [h2]
    simp only [List.length_nil, Nat.sub_zero, List.nil_append] at h1 ⊢
    have : o = page q b.entries := h1
    rw [this]

/-- One page: the first `batch` entries of the interval, and `has_more` exactly if there may be more. -/
theorem query_ok {c : Cfg K V} {b : BT K V} {q : QReq K V} {fuel : Nat} (hb : b.Inv)
    (hq : 0 < q.batch) (hb32 : q.batch < 4294967296) (hse : q.range.startKey ≤ q.range.endKey)
    (hfu : b.leaves.length ≤ fuel) (hd : (∀ k, c.dfltKey ≤ k) ∨ c.dfltKey < q.range.endKey)
    (hcut : q.filter = none ∨ (hits q.range b.entries).length ≤ q.batch) :
    query c b q [] fuel = .ok (page q b.entries, queryEnd q (page q b.entries)
      (if q.batch ≤ (page q b.entries).length then .has_more else .success)) := by
  unfold query
  rw [if_neg (by omega), search_ok hb hq hb32 hse hfu hd hcut]

/-- After the last key of a page, the rest of the interval is left. -/
theorem hits_shift {l : List (K × V)} (hs : Asc l) {r : KeyRange K} {n : Nat} {x : K × V}
    (hx : ((hits r l).take n).getLast? = some x) :
    hits { r with startKey := x.1, startIncl := false } l = (hits r l).drop n := by
  have hs' : Asc (hits r l) := List.Pairwise.filter _ hs
  have hsplit := List.take_append_drop n (hits r l)
  have hmem : x ∈ hits r l := List.mem_of_mem_take (List.mem_of_getLast? hx)
  have hxr : Spec.inRange r x.1 = true := by
    unfold hits at hmem
    exact (List.mem_filter.mp hmem).2
  have h1 : hits { r with startKey := x.1, startIncl := false } l =
      (hits r l).filter (fun y => decide (x.1 < y.1)) := by
    unfold hits
    rw [List.filter_filter]
    apply List.filter_congr
    intro y _
    rw [Bool.eq_iff_iff]
    simp only [Bool.and_eq_true, decide_eq_true_eq]
    unfold Spec.inRange at hxr ⊢
    simp only [Bool.and_eq_true, Bool.false_eq_true, if_false, decide_eq_true_eq] at hxr ⊢
    constructor
    · rintro ⟨h2, h3⟩
      refine ⟨h2, ?_, h3⟩
      cases hi : r.startIncl with
      | true =>
        rw [hi] at hxr
        simp only [if_true, decide_eq_true_eq] at hxr ⊢
        exact hxr.1.trans h2.le
      | false =>
        rw [hi] at hxr
        simp only [Bool.false_eq_true, if_false, decide_eq_true_eq] at hxr ⊢
        exact hxr.1.trans h2
    · rintro ⟨h2, -, h3⟩
      exact ⟨h2, h3⟩
  rw [h1]
  conv_lhs => rw [← hsplit]
  rw [List.filter_append, List.filter_eq_nil_iff.mpr, List.nil_append, List.filter_eq_self]
  · intro y hy
    rw [← hsplit] at hs'
    simpa using (Asc_append.mp hs').2.2 x (List.mem_of_getLast? hx) y hy
  · intro y hy
    have ht : Asc ((hits r l).take n) := by
      rw [← hsplit] at hs'
      exact (Asc_append.mp hs').1
    simpa using le_last ht hx hy

/-- Reading page after page gives all entries of the interval, in order, each once; every page but the last
is full. -/
theorem pages_ok {c : Cfg K V} {b : BT K V} {fuel : Nat} (hb : b.Inv) (hfu : b.leaves.length ≤ fuel) (f : Nat) :
    ∀ {q : QReq K V}, 0 < q.batch → q.batch < 4294967296 → q.range.startKey ≤ q.range.endKey →
      ((∀ k, c.dfltKey ≤ k) ∨ c.dfltKey < q.range.endKey) → q.filter = none →
      (hits q.range b.entries).length / q.batch < f →
      ∃ ps, pages c b fuel f q = .ok ps ∧ ps.flatten = hits q.range b.entries ∧
        (∀ p ∈ ps.dropLast, p.length = q.batch) ∧ ∀ p ∈ ps, p.length ≤ q.batch := by
  induction f with
  | zero => intro q _ _ _ _ _ h; exact absurd h (Nat.not_lt_zero _)
  | succ f ih =>
    intro q hq hb32 hse hd hf hlen
    have hpg : page q b.entries = (hits q.range b.entries).take q.batch := by
      unfold page
      rw [hf]
      simp [selects]
    unfold pages
    rw [query_ok hb hq hb32 hse hfu hd (Or.inl hf), hpg]
    unfold queryEnd
    cases hlast : ((hits q.range b.entries).take q.batch).getLast? with
    | none =>
      have hnil := List.getLast?_eq_none_iff.mp hlast
      have hh : hits q.range b.entries = [] := by
        rcases List.take_eq_nil_iff.mp hnil with h | h
        · omega
        · exact h
      rw [hnil]
      simp only [List.length_nil]
      rw [if_neg (by omega : ¬ q.batch ≤ 0)]
      exact ⟨[[]], rfl, by simp [hh], by simp, by simp⟩
    | some x =>
      simp only
      have hall : ∀ y ∈ hits q.range b.entries, y.1 ≤ q.range.endKey := by
        intro y hy
        unfold hits at hy
        have := ((inRange_iff _ _).mp (List.mem_filter.mp hy).2).2
        unfold Above at this
        split at this
        · exact not_lt.mp this
        · exact (not_le.mp this).le
      have hs' : Asc (hits q.range b.entries) := List.Pairwise.filter _ hb.asc
      by_cases hend : q.range.endKey ≤ x.1
      · rw [if_pos hend]
        have hdrop : (hits q.range b.entries).drop q.batch = [] := by
          rw [List.eq_nil_iff_forall_not_mem]
          intro y hy
          have h1 : x.1 < y.1 := by
            rw [← List.take_append_drop q.batch (hits q.range b.entries)] at hs'
            exact (Asc_append.mp hs').2.2 x (List.mem_of_getLast? hlast) y hy
          exact absurd (lt_of_le_of_lt hend h1) (not_lt.mpr (hall y (List.mem_of_mem_drop hy)))
        refine ⟨[(hits q.range b.entries).take q.batch], rfl, ?_, by simp, by simp⟩
        have := List.take_append_drop q.batch (hits q.range b.entries)
        rw [hdrop, List.append_nil] at this
        simpa using this
      · rw [if_neg hend]
        by_cases hfull : q.batch ≤ ((hits q.range b.entries).take q.batch).length
        · rw [if_pos hfull]
          simp only
          have hsh := hits_shift hb.asc hlast
          rw [List.length_take] at hfull
          obtain ⟨ps, h1, h2, h3, h4⟩ := ih
            (q := { q with range := { q.range with startKey := x.1, startIncl := false } })
            hq hb32 (not_le.mp hend).le hd hf (by
              show (hits { q.range with startKey := x.1, startIncl := false } b.entries).length / q.batch < f
              rw [hsh, List.length_drop]
              have h5 : q.batch ≤ (hits q.range b.entries).length := by omega
              have h6 := Nat.div_eq_sub_div hq h5
              omega)
          refine ⟨(hits q.range b.entries).take q.batch :: ps, by rw [h1], ?_, ?_, ?_⟩
          · rw [List.flatten_cons, h2]
            show _ ++ hits { q.range with startKey := x.1, startIncl := false } b.entries = _
            rw [hsh, List.take_append_drop]
          · intro p hp
            cases ps with
            | nil => simp at hp
            | cons p0 ps0 =>
              rw [List.dropLast_cons_cons] at hp
              rcases List.mem_cons.mp hp with rfl | hp
              · rw [List.length_take]; omega
              · exact h3 p hp
          · intro p hp
            rcases List.mem_cons.mp hp with rfl | hp
            · rw [List.length_take]; omega
            · exact h4 p hp
        · rw [if_neg hfull]
          rw [List.length_take] at hfull
          refine ⟨[(hits q.range b.entries).take q.batch], rfl, ?_, by simp, by simp⟩
          rw [List.take_of_length_le (by omega)]
          simp

end
end HS.Btree
