import Verif.Btree.Remove

/-!
# Operations with entries of fixed size do not fail

With the FIXED format and room for two entries per node, put and get always complete, and so does remove
when merging is turned off.
-/

namespace HS.Btree

section
variable {K A : Type}

/-- A FIXED format with room for two entries. -/
structure Cap (p : NK K A) : Prop where
  fixed : p.fixed = true
  hdr : p.hdr = 0
  obj : 0 < p.obj
  two : 2 * p.obj ≤ p.data

/-- The entries fit into the node. -/
def fit (p : NK K A) (n : Nat) : Prop := n * p.obj ≤ p.data

theorem fit_mono {p : NK K A} {m n : Nat} (h : m ≤ n) (hf : fit p n) : fit p m :=
  (Nat.mul_le_mul_right _ h).trans hf

theorem Cap.avail {p : NK K A} (hc : Cap p) (es : List (K × A)) : p.avail es = p.data - es.length * p.obj := by
  unfold NK.avail
  rw [used_fixed p hc.fixed, hc.hdr]
  omega

theorem Cap.room {p : NK K A} (hc : Cap p) {es : List (K × A)} {t : PutType} {k v : Nat}
    (ht : t ≠ .update) : p.hasRoom t es k v = true ↔ fit p (es.length + 1) := by
  unfold NK.hasRoom fit
  rw [if_pos hc.fixed, hc.avail]
  have h1 : decide (0 < (p.data - es.length * p.obj) / p.obj) = true ↔ (es.length + 1) * p.obj ≤ p.data := by
    rw [decide_eq_true_eq, Nat.div_pos_iff, Nat.add_mul, Nat.one_mul]
    have := hc.obj
    omega
  cases t with
  | update => exact absurd rfl ht
  | insert => exact h1
  | upsert => exact h1

theorem Cap.update {p : NK K A} (hc : Cap p) (es : List (K × A)) (k v : Nat) :
    p.hasRoom .update es k v = true := by
  unfold NK.hasRoom
  rw [if_pos hc.fixed]

theorem Cap.insertAt {p : NK K A} (hc : Cap p) {es : List (K × A)} {i : Nat} {k : K} {a : A}
    (hi : i ≤ es.length) (hf : fit p (es.length + 1)) :
    p.insertAt es i k a = .ok (es.take i ++ (k, a) :: es.drop i) := by
  unfold NK.insertAt fit at *
  rw [if_neg (by omega), if_pos hc.fixed, if_neg (by omega)]

theorem Cap.insertNode {p : NK K A} (hc : Cap p) {nd : Node K A} {i : Nat} {k : K} {a : A}
    (hi : i ≤ nd.es.length) (hf : fit p (nd.es.length + 1)) :
    p.insertNode nd i k a = .ok { nd with es := nd.es.take i ++ (k, a) :: nd.es.drop i } := by
  unfold NK.insertNode
  rw [hc.insertAt hi hf]
  rfl

theorem Cap.replaceAt {p : NK K A} (hc : Cap p) {es : List (K × A)} {i : Nat} {k : K} {a : A}
    (hi : i < es.length) : p.replaceAt es i k a = .ok (es.set i (k, a)) := by
  unfold NK.replaceAt
  rw [List.getElem?_eq_getElem hi]
  simp [hc.fixed]

theorem Cap.updateVal {p : NK K A} (hc : Cap p) {nd : Node K A} {i : Nat} {a : A} (hi : i ≤ nd.es.length) :
    ∃ nd', p.updateVal nd i a = .ok nd' ∧ nd'.es.length = nd.es.length ∧ nd'.edge.isSome = (nd.edge.isSome || decide (i = nd.es.length)) := by
  unfold NK.updateVal
  by_cases h : i = nd.es.length
  · rw [if_pos h]; exact ⟨_, rfl, rfl, by simp [h]⟩
  · rw [if_neg h]
    have hi' : i < nd.es.length := by omega
    rw [List.getElem?_eq_getElem hi']
    simp only
    rw [hc.replaceAt hi']
    exact ⟨_, rfl, by simp, by simp [h]⟩

/-- A full node has two entries and splits into two nodes that are not full. -/
theorem Cap.split {p : NK K A} (hc : Cap p) {nd : Node K A} {nid : Nat} (hf : fit p nd.es.length)
    (hfull : ¬ fit p (nd.es.length + 1)) :
    ∃ c1 c2 k, splitNode p 50 nd nid = .ok (c1, c2, k) ∧ fit p (c1.es.length + 1) ∧ fit p (c2.es.length + 1) ∧
      c1.es ≠ [] ∧ c2.es ≠ [] := by
  have h2 : 2 ≤ nd.es.length := by
    by_contra h
    apply hfull
    exact fit_mono (show nd.es.length + 1 ≤ 2 by omega) hc.two
  have hm : p.numToMove nd.es ((p.data - p.avail nd.es) * 50 / 100) = nd.es.length / 2 := by
    unfold NK.numToMove
    rw [if_pos hc.fixed, hc.avail]
    unfold fit at hf
    have e1 : p.data - (p.data - nd.es.length * p.obj) = nd.es.length * p.obj := by omega
    rw [e1]
    have e2 : nd.es.length * p.obj * 50 / 100 / p.obj = nd.es.length / 2 := by
      have : nd.es.length * p.obj * 50 / 100 = nd.es.length * p.obj / 2 := by omega
      rw [this, Nat.div_right_comm, Nat.mul_div_cancel _ hc.obj]
    rw [e2]
    have e3 : nd.es.length ≤ p.data / p.obj := by
      rw [Nat.le_div_iff_mul_le hc.obj]; exact hf
    omega
  unfold splitNode
  simp only
  rw [hm, if_neg (by omega)]
  have hne : nd.es.take (nd.es.length - nd.es.length / 2) ≠ [] := by
    intro h0
    have := congrArg List.length h0
    simp at this
    omega
  rw [List.getLast?_eq_some_getLast hne]
  refine ⟨_, _, _, rfl, ?_, ?_, hne, ?_⟩
  · exact fit_mono (by simp; omega) hf
  · exact fit_mono (by simp; omega) hf
  · intro h0
    have := congrArg List.length h0
    simp at this
    omega

end

section
variable {K V A : Type} [LinearOrder K]

theorem USeg.unique_aux {P : A → Option K → Option K → Prop} {lo m' q q' : Option K} {c c' : A} {key : K}
    {a z a' z' : List (Option K × A)} (he : a ++ (q, c) :: z = a' ++ (q', c') :: z')
    (h1' : USeg P lo a' m') (h2' : ∀ y ∈ a', y.1 ≠ none) (h3' : ltLo m' key) (h4 : leHi key q) :
    ¬ a.length < a'.length := by
  intro hlt
  have hg : a'[a.length]? = some (q, c) := by
    have : (a ++ (q, c) :: z)[a.length]? = some (q, c) := by simp
    rw [he, List.getElem?_append_left hlt] at this
    exact this
  obtain ⟨b, w, hb, -⟩ := split_at hg
  have hq := h2' (q, c) (List.mem_of_getElem? hg)
  obtain ⟨k, rfl⟩ := Option.ne_none_iff_exists'.mp hq
  rw [hb] at h1'
  obtain ⟨mm, -, g, -⟩ := h1'.split (by simp)
  have hle := g.2.2.le_hi
  have hsome : ∃ x, m' = some x := by
    rcases List.eq_nil_or_concat w with rfl | ⟨w', y, rfl⟩
    · exact ⟨k, g.2.2.symm⟩
    · have hy := h2' y (by rw [hb]; simp)
      obtain ⟨x, hx⟩ := Option.ne_none_iff_exists'.mp hy
      have g' := g.2.2
      rw [List.concat_eq_append] at g'
      exact ⟨x, by rw [g'.last, hx]⟩
  obtain ⟨x, rfl⟩ := hsome
  simp at hle h3' h4
  exact absurd (lt_of_lt_of_le h3' h4) (not_lt.mpr hle)

/-- Only one child covers a key. -/
theorem USeg.unique {P : A → Option K → Option K → Prop} {lo m m' q q' : Option K} {c c' : A} {key : K}
    {a z a' z' : List (Option K × A)} (he : a ++ (q, c) :: z = a' ++ (q', c') :: z')
    (h1 : USeg P lo a m) (h2 : ∀ y ∈ a, y.1 ≠ none) (h3 : ltLo m key) (h4 : leHi key q)
    (h1' : USeg P lo a' m') (h2' : ∀ y ∈ a', y.1 ≠ none) (h3' : ltLo m' key) (h4' : leHi key q') :
    c = c' := by
  have g1 := USeg.unique_aux he h1' h2' h3' h4
  have g2 := USeg.unique_aux he.symm h1 h2 h3 h4'
  have : a.length = a'.length := by omega
  have := List.append_inj he this
  simp at this
  exact this.2.1.2

/-- Entries of fixed size, two to a node at least, and the default split. -/
structure Cfg.Fixed (c : Cfg K V) : Prop where
  leaf : c.leafFixed = true
  int : c.intFixed = true
  leafObj : 0 < c.leafObj
  intObj : 0 < c.intObj
  leafTwo : 2 * c.leafObj ≤ c.nodeData
  intTwo : 2 * c.intObj ≤ c.nodeData
  split : c.splitPct = 50

omit [LinearOrder K] in
theorem Cfg.Fixed.cap {c : Cfg K V} (h : c.Fixed) (n : Nat) : Cap (c.nk n) := by
  cases n with
  | zero => exact ⟨h.leaf, by simp [Cfg.nk, h.leaf], h.leafObj, h.leafTwo⟩
  | succ n => exact ⟨h.int, by simp [Cfg.nk, h.int], h.intObj, h.intTwo⟩

/-- All children of a node have a property. -/
def AllKids {A : Type} (F : A → Prop) (t : Node K A) : Prop := ∀ y ∈ t.kids, F y.2

omit [LinearOrder K] in
theorem AllKids.mem {F : A → Prop} {t : Node K A} {a z : List (Option K × A)} {q : Option K} {ch : A}
    (h : AllKids F t) (hk : t.kids = a ++ (q, ch) :: z) : F ch := h (q, ch) (by rw [hk]; simp)

omit [LinearOrder K] in
theorem AllKids.set {F : A → Prop} {t : Node K A} {a z : List (Option K × A)} {q : Option K} {ch ch' : A} {i : Nat}
    (h : AllKids F t) (hk : t.kids = a ++ (q, ch) :: z) (ha : a.length = i) (hc : F ch') :
    AllKids F (t.setVal i ch') := by
  have hk' : (t.setVal i ch').kids = a ++ (q, ch') :: z := by
    rw [kids_setVal t (by rw [hk]; simp; omega), hk, ← ha, modify_at]
  intro y hy
  rw [hk'] at hy
  unfold AllKids at h
  rw [hk] at h
  simp only [List.mem_append, List.mem_cons] at hy
  rcases hy with hy | rfl | hy
  · exact h y (by simp [hy])
  · exact hc
  · exact h y (by simp [hy])

omit [LinearOrder K] in
theorem AllKids.halves {F : A → Prop} {nd : Node K A} {a b : List (K × A)} {s : Nat} (h : AllKids F nd)
    (he : nd.es = a ++ b) :
    AllKids F { nd with next := some s, es := a, edge := none } ∧
      AllKids F { id := s, next := nd.next, es := b, edge := nd.edge } := by
  unfold AllKids Node.kids at *
  rw [he] at h
  simp only [List.map_append, List.mem_append] at h
  constructor
  · intro y hy
    simp only [Option.map_none, Option.toList_none, List.append_nil] at hy
    exact h y (Or.inl (Or.inl hy))
  · intro y hy
    simp only [List.mem_append] at hy
    rcases hy with hy | hy
    · exact h y (Or.inl (Or.inr hy))
    · exact h y (Or.inr hy)

omit [LinearOrder K] in
theorem AllKids.pair {F : A → Prop} {i : Nat} {nx : Option Nat} {k : K} {c1 c2 : A} (f1 : F c1) (f2 : F c2) :
    AllKids F ({ id := i, next := nx, es := [(k, c1)], edge := some c2 } : Node K A) := by
  intro y hy
  simp [Node.kids] at hy
  rcases hy with rfl | rfl
  · exact f1
  · exact f2

omit [LinearOrder K] in
theorem AllKids.two {F : A → Prop} {t t' : Node K A} {a z : List (Option K × A)} {q q1 : Option K} {ch c1 c2 : A}
    (h : AllKids F t) (hk : t.kids = a ++ (q, ch) :: z) (hk' : t'.kids = a ++ (q1, c1) :: (q, c2) :: z)
    (f1 : F c1) (f2 : F c2) : AllKids F t' := by
  intro y hy
  rw [hk'] at hy
  unfold AllKids at h
  rw [hk] at h
  simp only [List.mem_append, List.mem_cons] at hy
  rcases hy with hy | rfl | rfl | hy
  · exact h y (by simp [hy])
  · exact f1
  · exact f2
  · exact h y (by simp [hy])

omit [LinearOrder K] in
theorem setVal_length (t : Node K A) (i : Nat) (c : A) : (t.setVal i c).es.length = t.es.length := by
  unfold Node.setVal
  split <;> simp

/-- Every node's entries fit into it, and without merging no interior node is left with its edge alone. -/
def Fits (c : Cfg K V) : (n : Nat) → Tree K V n → Prop
  | 0, t => fit (c.nk 0) t.es.length
  | n + 1, t => fit (c.nk (n + 1)) t.es.length ∧ (c.mergeOn = false → t.es ≠ []) ∧
      AllKids (A := Tree K V n) (Fits c n) t

omit [LinearOrder K] in
theorem Fits.fits {c : Cfg K V} {n : Nat} {t : Tree K V n} (h : Fits c n t) : fit (c.nk n) t.es.length := by
  cases n with
  | zero => exact h
  | succ n => exact h.1

theorem splitNeeded_iff {c : Cfg K V} (hc : c.Fixed) {r : PutReq K V} {n : Nat} {t : Tree K V n}
    (h : splitNeeded c r n t = true) : ¬ fit (c.nk n) (t.es.length + 1) := by
  intro hf
  cases n with
  | zero =>
    simp only [splitNeeded, Bool.not_eq_true'] at h
    by_cases ht : r.type = .update
    · rw [ht, (hc.cap 0).update] at h; cases h
    · rw [((hc.cap 0).room ht).mpr hf] at h; cases h
  | succ n =>
    simp only [splitNeeded, Bool.not_eq_true'] at h
    rw [((hc.cap (n + 1)).room (by simp)).mpr hf] at h; cases h

theorem not_splitNeeded {c : Cfg K V} (hc : c.Fixed) {r : PutReq K V} {n : Nat} {t : Tree K V n}
    (h : fit (c.nk n) (t.es.length + 1)) : splitNeeded c r n t = false := by
  by_contra hh
  exact splitNeeded_iff hc (by simpa using hh) h

/-- Room for what a put may do in this subtree: a leaf needs room unless the put only updates, an interior
node needs room for one more child. -/
def Room (c : Cfg K V) (r : PutReq K V) (n : Nat) (t : Tree K V n) : Prop := splitNeeded c r n t = false

theorem Room.int {c : Cfg K V} (hc : c.Fixed) {r : PutReq K V} {n : Nat} {t : Tree K V (n + 1)}
    (h : Room c r (n + 1) t) : fit (c.nk (n + 1)) (t.es.length + 1) := by
  simp only [Room, splitNeeded, Bool.not_eq_false'] at h
  exact ((hc.cap (n + 1)).room (by simp)).mp h

theorem leafPut_total {p : NK K V} (hp : Cap p) {es : List (K × V)} (hs : Asc es) {k : K} {v : V} {t : PutType}
    {flt : Option (K → V → V → Decision)} {ks vs : Nat} (hf : fit p es.length)
    (hr : p.hasRoom t es ks vs = true) :
    ∃ es' st ex, leafPut p es k v t flt = .ok (es', st, ex) ∧ fit p es'.length := by
  unfold leafPut
  rcases bsearch_split hs k with ⟨a, w, b, he, hb, ha, hbb⟩ | ⟨a, b, he, hb, ha, hbb⟩
  · rw [hb]
    have hget : es[a.length]? = some (k, w) := by rw [he]; simp
    have hlt : a.length < es.length := by rw [he]; simp
    simp only [if_true, hget]
    split
    · exact ⟨_, _, _, rfl, hf⟩
    · cases t with
      | insert => exact ⟨_, _, _, rfl, hf⟩
      | update => simp only; rw [hp.replaceAt hlt]; exact ⟨_, _, _, rfl, by simpa using hf⟩
      | upsert => simp only; rw [hp.replaceAt hlt]; exact ⟨_, _, _, rfl, by simpa using hf⟩
  · rw [hb]
    simp only [Bool.false_eq_true, if_false]
    have hle : a.length ≤ es.length := by rw [he]; simp
    cases t with
    | update => exact ⟨_, _, _, rfl, hf⟩
    | insert =>
      simp only
      have := (hp.room (by simp)).mp hr
      rw [hp.insertAt hle this]
      exact ⟨_, _, _, rfl, fit_mono (by simp; omega) this⟩
    | upsert =>
      simp only
      have := (hp.room (by simp)).mp hr
      rw [hp.insertAt hle this]
      exact ⟨_, _, _, rfl, fit_mono (by simp; omega) this⟩

omit [LinearOrder K] in
theorem splitIn_total {p : NK K (Node K A)} {pc : NK K A} (hp : Cap p) (hpc : Cap pc) {t : Node K (Node K A)}
    {i nid : Nat} {ch : Node K A} {a z : List (Option K × Node K A)} {q : Option K}
    (hk : t.kids = a ++ (q, ch) :: z) (ha : a.length = i) (hr : fit p (t.es.length + 1))
    (hf : fit pc ch.es.length) (hfull : ¬ fit pc (ch.es.length + 1)) :
    ∃ t' c1 c2 k, splitIn p pc 50 t i ch nid = .ok t' ∧ t'.kids = a ++ (some k, c1) :: (q, c2) :: z ∧
      fit p t'.es.length ∧ t'.es ≠ [] ∧ splitNode pc 50 ch nid = .ok (c1, c2, k) ∧
      fit pc (c1.es.length + 1) ∧ fit pc (c2.es.length + 1) ∧ c1.es ≠ [] ∧ c2.es ≠ [] := by
  obtain ⟨c1, c2, k, h1, h2, h3, h4, h5⟩ := hpc.split (nid := nid) hf hfull
  have hi : i ≤ t.es.length := by
    have := congrArg List.length hk
    rw [kids_length] at this
    simp at this
    split at this <;> omega
  obtain ⟨t1, g1, g2, -⟩ := hp.updateVal (nd := t) (a := c2) hi
  have g3 : p.insertNode t1 i k c1 =
      .ok { t1 with es := t1.es.take i ++ (k, c1) :: t1.es.drop i } := by
    unfold NK.insertNode
    rw [hp.insertAt (by omega) (by rw [g2]; exact hr)]
    rfl
  have hs : splitIn p pc 50 t i ch nid = .ok { t1 with es := t1.es.take i ++ (k, c1) :: t1.es.drop i } := by
    unfold splitIn
    rw [h1]
    show (do let t1 ← p.updateVal t i c2; p.insertNode t1 i k c1) = _
    rw [g1]
    exact g3
  obtain ⟨c1', c2', k', e1, e2⟩ := kids_splitIn hk ha hs
  rw [h1] at e1
  cases e1
  refine ⟨_, c1, c2, k, hs, e2, ?_, by simp, h1, h2, h3, h4, h5⟩
  exact fit_mono (by simp; omega) hr

omit [LinearOrder K] in
/-- The halves of a node fit when the node does. -/
theorem Fits.split {c : Cfg K V} {n nid : Nat} {ch c1 c2 : Tree K V n} {k : K} {pct : Nat}
    (hf : Fits c n ch) (h : splitNode (c.nk n) pct ch nid = .ok (c1, c2, k)) :
    Fits c n c1 ∧ Fits c n c2 := by
  obtain ⟨a, b, x, h1, h2, -, h4, rfl, rfl⟩ := splitNode_ok h
  have hane : a ≠ [] := by rintro rfl; cases h2
  have hfit := hf.fits
  rw [h1] at hfit
  have hfa : fit (c.nk n) a.length := fit_mono (by simp) hfit
  have hfb : fit (c.nk n) b.length := fit_mono (by simp) hfit
  cases n with
  | zero => exact ⟨hfa, hfb⟩
  | succ n =>
    obtain ⟨-, -, h5⟩ := hf
    obtain ⟨k1, k2⟩ := h5.halves (s := nid) h1
    exact ⟨⟨hfa, fun _ => hane, k1⟩, ⟨hfb, fun _ => h4, k2⟩⟩

omit [LinearOrder K] in
theorem Fits.set {c : Cfg K V} {n i : Nat} {t : Tree K V (n + 1)} {ch ch' : Tree K V n}
    {a z : List (Option K × Node K (Val K V n))} {q : Option K} (hk : t.kids = a ++ (q, ch) :: z) (ha : a.length = i)
    (hf : Fits c (n + 1) t) (hc : Fits c n ch') : Fits c (n + 1) (t.setVal i ch') := by
  obtain ⟨h1, h2, h3⟩ := hf
  refine ⟨fit_mono (le_of_eq (setVal_length t i ch')) h1, fun hm => ?_, h3.set hk ha hc⟩
  have := h2 hm
  intro h0
  have h4 := setVal_length t i ch'
  have h5 := congrArg List.length h0
  exact this (List.eq_nil_of_length_eq_zero (h4.symm.trans h5))

theorem find_kid' {n : Nat} {t : Tree K V (n + 1)} {lo hi : Option K} {key : K}
    (h : (levels K V (n + 1)).P t lo hi) (hlo : ltLo lo key) (hhi : leHi key hi) :
    ∃ b i, ∃ c : Tree K V n, ∃ a : List (Option K × Node K (Val K V n)), ∃ q z m,
      bsearch t.es key = some (b, i) ∧ t.valAt i = some c ∧
      t.kids = a ++ (q, c) :: z ∧ a.length = i ∧
      USeg (levels K V n).P lo a m ∧ (∀ y ∈ a, y.1 ≠ none) ∧
      USeg (levels K V n).P m ((q, c) :: z) hi ∧ ltLo m key ∧ leHi key q :=
  find_kid (L := levels K V n) h hlo hhi

theorem doPut_total {c : Cfg K V} (hc : c.Fixed) {r : PutReq K V} {f : Nat} (hf : 2 ≤ f) (n : Nat) :
    ∀ {lo hi : Option K} {t : Tree K V n} {nid : Nat}, (levels K V n).P t lo hi → ltLo lo r.key → leHi r.key hi →
      Fits c n t → Room c r n t →
      ∃ t' nid' st ex, doPut c r f n t nid = .ok (t', nid', st, ex) ∧ Fits c n t' := by
  induction n with
  | zero =>
    intro lo hi t nid hQ hlo hhi hF hR
    obtain ⟨q1, q2, q3⟩ : t.edge = none ∧ Asc t.es ∧ ∀ x ∈ t.es, ltLo lo x.1 ∧ leHi x.1 hi := hQ
    simp only [Room, splitNeeded, Bool.not_eq_false'] at hR
    obtain ⟨es', st, ex, h1, h2⟩ := leafPut_total (hc.cap 0) (k := r.key) (v := r.val) (flt := r.filter) q2 hF hR
    refine ⟨{ t with es := es' }, nid, st, ex, ?_, h2⟩
    unfold doPut
    rw [h1]
    rfl
  | succ n ih =>
    -- the step down, when the child has room
    have down : ∀ {lo hi : Option K} {t : Tree K V (n + 1)} {nid g : Nat} {ch : Tree K V n} {b : Bool} {i : Nat}
        {a : List (Option K × Node K (Val K V n))} {q : Option K} {z m},
        bsearch t.es r.key = some (b, i) → t.valAt i = some ch → t.kids = a ++ (q, ch) :: z → a.length = i →
        USeg (levels K V n).P m ((q, ch) :: z) hi → ltLo m r.key → leHi r.key q →
        Fits c (n + 1) t → splitNeeded c r n ch = false →
        ∃ t' nid' st ex, putLoop c r n (doPut c r f n) (g + 1) t nid = .ok (t', nid', st, ex) ∧
          Fits c (n + 1) t' := by
      intro lo hi t nid g ch b i a q z m hb hv hk ha h3 h4 h5 hF hs
      have hFc : Fits c n ch := hF.2.2.mem hk
      obtain ⟨ch', nid', st, ex, g1, g2⟩ := ih (nid := nid) h3.head h4 h5 hFc hs
      refine ⟨t.setVal i ch', nid', st, ex, ?_, hF.set hk ha g2⟩
      unfold putLoop
      rw [hb]
      simp only [hv]
      rw [hs]
      simp only [Bool.false_eq_true, if_false]
      rw [g1]
      rfl
    intro lo hi t nid hQ hlo hhi hF hR
    obtain ⟨b, i, ch, a, q, z, m, hb, hv, hk, ha, h1, h2, h3, h4, h5⟩ := find_kid' hQ hlo hhi
    have hFc : Fits c n ch := hF.2.2.mem hk
    obtain ⟨g, rfl⟩ : ∃ g, f = g + 1 + 1 := ⟨f - 2, by omega⟩
    unfold doPut
    cases hs : splitNeeded c r n ch with
    | false => exact down (lo := lo) hb hv hk ha h3 h4 h5 hF hs
    | true =>
      have hfull := splitNeeded_iff hc hs
      obtain ⟨t', c1, c2, k, e1, e2, e3, e4, e5, e6, e7, e8, e9⟩ :=
        splitIn_total (hc.cap (n + 1)) (hc.cap n) (nid := nid) hk ha (Room.int hc hR) hFc.fits hfull
      obtain ⟨f1, f2⟩ := Fits.split hFc e5
      have hF' : Fits c (n + 1) t' := by
        exact ⟨e3, fun _ => e4, hF.2.2.two hk e2 f1 f2⟩
      obtain ⟨g1, -, -⟩ := splitIn_inv (L := levels K V n) hv (by rw [← hc.split] at e1; exact e1) hQ
      have g1' : (levels K V (n + 1)).P t' lo hi := g1
      obtain ⟨b', i', ch', a', q', z', m', hb', hv', hk', ha', h1', h2', h3', h4', h5'⟩ := find_kid' g1' hlo hhi
      have hchild : splitNeeded c r n ch' = false := by
        apply not_splitNeeded hc
        obtain ⟨w1, w2, w3, w4, -, -⟩ := splitNode_inv (L := levels K V n) e5 h3.head
        by_cases hkk : r.key ≤ k
        · have : ch' = c1 := by
            refine USeg.unique (P := (levels K V n).P) (hk'.symm.trans e2) h1' h2' h4' h5' h1 h2 h4 ?_
            simpa using hkk
          rw [this]; exact e6
        · have : ch' = c2 := by
            have he0 : a ++ (some k, c1) :: (q, c2) :: z = (a ++ [(some k, c1)]) ++ (q, c2) :: z := by simp
            have he := (hk'.symm.trans e2).trans he0
            refine USeg.unique (P := (levels K V n).P) he h1' h2' h4' h5'
              (h1.join h2 (b := [(some k, c1)]) (hi := some k) ⟨w1, w2, rfl⟩) ?_ ?_ h5
            · intro y hy
              simp only [List.mem_append, List.mem_singleton] at hy
              rcases hy with hy | rfl
              · exact h2 y hy
              · simp
            · simpa using hkk
          rw [this]; exact e7
      obtain ⟨t'', nid', st, ex, d1, d2⟩ :=
        down (lo := lo) (nid := nid + 1) (g := g) hb' hv' hk' ha' h3' h4' h5' hF' hchild
      refine ⟨t'', nid', st, ex, ?_, d2⟩
      unfold putLoop
      rw [hb]
      simp only [hv]
      rw [hs]
      simp only [if_true]
      rw [hc.split]
      show (do let t' ← splitIn (c.nk (n + 1)) (c.nk n) 50 t i ch nid; _) = _
      rw [e1]
      exact d1

/-- Put always completes: no assertion of the code fails, no access is out of bounds, no loop is endless. -/
theorem put_total {c : Cfg K V} (hc : c.Fixed) {r : PutReq K V} {f : Nat} (hf : 4 ≤ f) {b : BT K V}
    (hb : b.Inv) (hF : Fits c b.lvl b.root) :
    ∃ b' st ex, put c r f b = .ok (b', st, ex) ∧ Fits c b'.lvl b'.root := by
  have down : ∀ {b : BT K V} {g : Nat}, 2 ≤ g → b.Inv → Fits c b.lvl b.root → splitNeeded c r b.lvl b.root = false →
      ∃ b' st ex, put c r (g + 1) b = .ok (b', st, ex) ∧ Fits c b'.lvl b'.root := by
    intro b g hg hb hF hs
    obtain ⟨t', nid', st, ex, h1, h2⟩ :=
      doPut_total hc hg b.lvl (r := r) (nid := b.nid) hb.cover (by simp) (by simp) hF hs
    refine ⟨⟨b.lvl, t', nid'⟩, st, ex, ?_, h2⟩
    unfold put
    rw [hs]
    simp only [Bool.false_eq_true, if_false]
    rw [h1]
    rfl
  obtain ⟨g, rfl⟩ : ∃ g, f = g + 2 + 1 + 1 := ⟨f - 4, by omega⟩
  cases hs : splitNeeded c r b.lvl b.root with
  | false => exact down (by omega) hb hF hs
  | true =>
    obtain ⟨c1, c2, k, e1, e2, e3, e4, e5⟩ :=
      (hc.cap b.lvl).split (nid := b.nid + 1) hF.fits (splitNeeded_iff hc hs)
    obtain ⟨f1, f2⟩ := hF.split e1
    have hins : (c.nk (b.lvl + 1)).insertNode
        ({ id := b.nid, next := none, es := [], edge := some c2 } : Tree K V (b.lvl + 1)) 0 k c1 =
        .ok { id := b.nid, next := none, es := [(k, c1)], edge := some c2 } := by
      exact (hc.cap (b.lvl + 1)).insertNode (by simp) (fit_mono (by simp) (hc.cap (b.lvl + 1)).two)
    have hroot : splitRoot c b =
        .ok ⟨b.lvl + 1, { id := b.nid, next := none, es := [(k, c1)], edge := some c2 }, b.nid + 2⟩ := by
      unfold splitRoot
      rw [hc.split, e1]
      simp only [bind, Except.bind, NK.updateVal, List.length_nil, if_true]
      have := hins
      rw [this]
      rfl
    have hI := (splitRoot_ok hroot hb).1
    have h2 := (hc.cap (b.lvl + 1)).two
    have hF' : Fits c (b.lvl + 1)
        { id := b.nid, next := none, es := [(k, c1)], edge := some c2 } := by
      exact ⟨fit_mono (by simp) h2, by simp, AllKids.pair f1 f2⟩
    obtain ⟨b', st, ex, d1, d2⟩ := down (g := g + 2) (by omega) hI hF' (not_splitNeeded hc h2)
    refine ⟨b', st, ex, ?_, d2⟩
    unfold put
    rw [hs]
    simp only [if_true]
    rw [hroot]
    exact d1

/-! ## Remove without merging -/

theorem doRemove_total {c : Cfg K V} (hm : c.mergeOn = false) {key : K} {f : Nat} (hf : 1 ≤ f) (n : Nat) :
    ∀ {lo hi : Option K} {t : Tree K V n} {nid : Nat}, (levels K V n).P t lo hi → ltLo lo key → leHi key hi →
      Fits c n t → ∃ t' nid' ex, doRemove c key f n t nid = .ok (t', nid', ex) ∧ Fits c n t' := by
  induction n with
  | zero =>
    intro lo hi t nid hQ hlo hhi hF
    obtain ⟨q1, q2, q3⟩ : t.edge = none ∧ Asc t.es ∧ ∀ x ∈ t.es, ltLo lo x.1 ∧ leHi x.1 hi := hQ
    unfold doRemove leafRemoveOne
    rcases bsearch_split q2 key with ⟨a, w, b, he, hb, ha, hbb⟩ | ⟨a, b, he, hb, ha, hbb⟩
    · have hget : t.es[a.length]? = some (key, w) := by rw [he]; simp
      rw [hb]
      simp only [if_true, hget]
      refine ⟨_, _, _, rfl, ?_⟩
      exact fit_mono (List.length_eraseIdx_le _ _) hF
    · rw [hb]
      exact ⟨_, _, _, rfl, hF⟩
  | succ n ih =>
    intro lo hi t nid hQ hlo hhi hF
    obtain ⟨b, i, ch, a, q, z, m, hb, hv, hk, ha, h1, h2, h3, h4, h5⟩ := find_kid' hQ hlo hhi
    have hFc : Fits c n ch := hF.2.2.mem hk
    obtain ⟨ch', nid', ex, g1, g2⟩ := ih (nid := nid) h3.head h4 h5 hFc
    obtain ⟨g, rfl⟩ : ∃ g, f = g + 1 := ⟨f - 1, by omega⟩
    refine ⟨t.setVal i ch', nid', ex, ?_, hF.set hk ha g2⟩
    have hd : removeDown n (doRemove c key (g + 1) n) t i ch nid = .ok (t.setVal i ch', nid', ex) := by
      unfold removeDown
      rw [g1]
      rfl
    unfold doRemove removeLoop
    rw [hb]
    simp only [hv]
    split
    · have : mergeNodes c (c.nk (n + 1)) (c.nk n) g t i (nodeEnd c.maxMergeNodes t i) nid = .ok (none, nid) := by
        unfold mergeNodes
        rw [hm]
        rfl
      rw [this]
      exact hd
    · exact hd

theorem remove_total {c : Cfg K V} (hm : c.mergeOn = false) {key : K} {f : Nat} (hf : 2 ≤ f) {b : BT K V}
    (hb : b.Inv) (hF : Fits c b.lvl b.root) :
    ∃ b' ex, remove c key f b = .ok (b', ex) ∧ Fits c b'.lvl b'.root := by
  obtain ⟨g, rfl⟩ : ∃ g, f = g + 1 := ⟨f - 1, by omega⟩
  have hgo : ∃ b' ex, (do
      let (t, nid, ex) ← doRemove c key g b.lvl b.root b.nid
      pure (({ lvl := b.lvl, root := t, nid := nid } : BT K V), ex)) = .ok (b', ex) ∧ Fits c b'.lvl b'.root := by
    obtain ⟨t', nid', ex, h1, h2⟩ :=
      doRemove_total hm (key := key) (f := g) (by omega) b.lvl (nid := b.nid) hb.cover (by simp) (by simp) hF
    refine ⟨⟨b.lvl, t', nid'⟩, ex, ?_, h2⟩
    rw [h1]
    rfl
  unfold remove
  obtain ⟨n, root, nid⟩ := b
  cases n with
  | zero =>
    simp only [collapse]
    split
    · exact ⟨_, _, rfl, hF⟩
    · exact hgo
  | succ n =>
    simp only [collapse]
    have hne : root.es ≠ [] := hF.2.1 hm
    rw [if_neg (by simpa using hne)]
    exact hgo

end
end HS.Btree
