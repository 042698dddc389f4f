import Verif.Btree.Split
import Verif.Btree.Spec

/-!
# Put and get refine the map
-/

namespace HS.Btree

variable {K V A : Type} [LinearOrder K]

/-- The value of a key in a list of entries. -/
def look (l : List (K × V)) (k : K) : Option V := (l.find? (fun x => x.1 = k)).map (·.2)

@[simp] theorem look_nil (k : K) : look ([] : List (K × V)) k = none := rfl

theorem look_append (a b : List (K × V)) (k : K) : look (a ++ b) k = (look a k).or (look b k) := by
  unfold look
  rw [List.find?_append]
  cases List.find? (fun x => decide (x.1 = k)) a <;> simp

theorem look_cons (x : K × V) (b : List (K × V)) (k : K) :
    look (x :: b) k = if x.1 = k then some x.2 else look b k := by
  unfold look
  rw [List.find?_cons]
  by_cases h : x.1 = k <;> simp [h]

theorem look_none {l : List (K × V)} {k : K} (h : ∀ x ∈ l, x.1 ≠ k) : look l k = none := by
  unfold look
  rw [List.find?_eq_none.mpr (fun x hx => by simpa using h x hx)]
  rfl

theorem look_eq_none {l : List (K × V)} {k : K} : look l k = none ↔ ∀ x ∈ l, x.1 ≠ k := by
  refine ⟨fun h x hx hk => ?_, look_none⟩
  unfold look at h
  rw [Option.map_eq_none_iff, List.find?_eq_none] at h
  simpa [hk] using h x hx

theorem look_mem {l : List (K × V)} (hs : Asc l) {k : K} {v : V} : look l k = some v ↔ (k, v) ∈ l := by
  induction l with
  | nil => simp
  | cons x r ih =>
    obtain ⟨h1, h2⟩ := Asc_cons.mp hs
    rw [look_cons, List.mem_cons]
    by_cases hk : x.1 = k
    · rw [if_pos hk]
      subst hk
      constructor
      · intro h; cases h; exact Or.inl rfl
      · rintro (h | h)
        · rw [← h]
        · exact absurd (h1 _ h) (lt_irrefl _)
    · rw [if_neg hk, ih h2]
      constructor
      · exact Or.inr
      · rintro (h | h)
        · exact absurd (by rw [← h]) hk
        · exact h

/-! ## A leaf -/

/-- What the search finds in a list: the list split around the key. -/
theorem bsearch_split {es : List (K × V)} (hs : Asc es) (key : K) :
    (∃ a v b, es = a ++ (key, v) :: b ∧ bsearch es key = some (true, a.length) ∧
      (∀ x ∈ a, x.1 < key) ∧ (∀ x ∈ b, key < x.1)) ∨
    (∃ a b, es = a ++ b ∧ bsearch es key = some (false, a.length) ∧
      (∀ x ∈ a, x.1 < key) ∧ (∀ x ∈ b, key < x.1)) := by
  obtain ⟨f, hb, hf⟩ := bsearch_spec hs key
  have hl := lb_le es key
  have hsplit := List.take_append_drop (lb es key) es
  have hA : ∀ x ∈ es.take (lb es key), x.1 < key := by
    intro x hx
    obtain ⟨i, hi⟩ := List.mem_iff_getElem?.mp hx
    rw [List.getElem?_take] at hi
    split at hi
    · rename_i h; exact lb_lt es key hi h
    · cases hi
  have hlen : (es.take (lb es key)).length = lb es key := by simp; omega
  cases f with
  | true =>
    left
    obtain ⟨e, he, hk⟩ := hf.mp rfl
    obtain ⟨a, z, h1, h2⟩ := split_at he
    obtain ⟨k, v⟩ := e
    simp at hk
    subst hk
    refine ⟨a, v, z, h1, by rw [hb, h2], ?_, ?_⟩
    · intro x hx
      have : es.take (lb es k) = a := by rw [← h2, h1]; simp
      exact hA x (by rw [this]; exact hx)
    · intro x hx
      rw [h1] at hs
      exact (Asc_cons.mp (Asc_append.mp hs).2.1).1 x hx
  | false =>
    right
    refine ⟨_, _, hsplit.symm, by rw [hb, hlen], hA, ?_⟩
    intro x hx
    obtain ⟨i, hi⟩ := List.mem_iff_getElem?.mp hx
    rw [List.getElem?_drop] at hi
    have hge := lb_ge hs key hi (by omega)
    refine lt_of_le_of_ne hge ?_
    rintro rfl
    have h0 : ¬ ∃ e, es[lb es x.1]? = some e ∧ e.1 = x.1 := fun h => by simpa using hf.mpr h
    apply h0
    cases i with
    | zero => exact ⟨x, by simpa using hi, rfl⟩
    | succ i =>
      exfalso
      have hlt : lb es x.1 + (i + 1) < es.length := (List.getElem?_eq_some_iff.mp hi).1
      have h1 := lb_ge hs x.1 (List.getElem?_eq_getElem (show lb es x.1 < es.length by omega)) le_rfl
      have h2 : es[lb es x.1].1 < es[lb es x.1 + (i + 1)].1 :=
        List.pairwise_iff_getElem.mp hs _ _ _ hlt (by omega)
      have h3 : es[lb es x.1 + (i + 1)] = x := (List.getElem?_eq_some_iff.mp hi).2
      rw [h3] at h2
      exact absurd h2 (not_lt.mpr h1)

theorem look_mid {a b : List (K × V)} {key : K} (ha : ∀ x ∈ a, x.1 < key) (v : V) (k : K) :
    look (a ++ (key, v) :: b) k = if k = key then some v else look (a ++ b) k := by
  rw [look_append, look_append, look_cons]
  by_cases h : k = key
  · subst h
    rw [if_pos rfl, look_none (fun x hx => (ha x hx).ne)]
    simp
  · rw [if_neg h, if_neg (fun h' => h h'.symm)]

theorem look_gap {a b : List (K × V)} {key : K} (ha : ∀ x ∈ a, x.1 < key) (hb : ∀ x ∈ b, key < x.1) :
    look (a ++ b) key = none := by
  rw [look_append, look_none (fun x hx => (ha x hx).ne), look_none (fun x hx => (hb x hx).ne')]
  rfl

theorem set_look {a b : List (K × V)} {key : K} (ha : ∀ x ∈ a, x.1 < key) (v : V) :
    look (a ++ (key, v) :: b) = Spec.set (look (a ++ b)) key v := by
  funext k
  rw [look_mid ha]
  rfl

theorem set_set (M : K → Option V) (k : K) (v w : V) :
    Spec.set (Spec.set M k v) k w = Spec.set M k w := by
  funext x
  simp only [Spec.set]
  split <;> rfl

theorem rejects_iff (f : Option (K → V → V → Decision)) (k : K) (o v : V) :
    rejects f k o v = true ↔ f.elim Decision.replace (fun g => g k o v) ≠ .replace := by
  cases f with
  | none => simp [rejects]
  | some g => simp [rejects]

/-- Put on a leaf is put on the map of its entries; the keys stay ascending, and the only new key is the
one that is put. -/
theorem leafPut_spec {p : NK K V} {es es' : List (K × V)} {k : K} {v : V} {t : PutType}
    {f : Option (K → V → V → Decision)} {st : Status} {ex : Option V} (hs : Asc es)
    (h : leafPut p es k v t f = .ok (es', st, ex)) :
    Asc es' ∧ (∀ x ∈ es', x.1 = k ∨ x ∈ es) ∧
      (look es', st, ex) = Spec.put (look es) k v t f := by
  unfold leafPut at h
  rcases bsearch_split hs k with ⟨a, w, b, rfl, hb, ha, hbb⟩ | ⟨a, b, rfl, hb, ha, hbb⟩
  · rw [hb] at h
    have hget : (a ++ (k, w) :: b)[a.length]? = some (k, w) := by simp
    simp only [if_true, hget] at h
    have hl : look (a ++ (k, w) :: b) k = some w := by rw [look_mid ha]; simp
    unfold Spec.put
    rw [hl]
    simp only
    by_cases hr : rejects f k w v = true
    · rw [if_pos hr] at h
      cases h
      rw [if_pos ((rejects_iff f k w v).mp hr)]
      exact ⟨hs, fun x hx => Or.inr hx, rfl⟩
    · rw [if_neg hr] at h
      rw [if_neg (fun hc => hr ((rejects_iff f k w v).mpr hc))]
      have hrep : ∀ es'', p.replaceAt (a ++ (k, w) :: b) a.length k v = .ok es'' →
          es'' = a ++ (k, v) :: b := by
        intro es'' he
        rw [(replaceAt_ok he).2, modify_at]
      have hfin : Asc (a ++ (k, v) :: b) ∧ (∀ x ∈ a ++ (k, v) :: b, x.1 = k ∨ x ∈ a ++ (k, w) :: b) ∧
          look (a ++ (k, v) :: b) = Spec.set (look (a ++ (k, w) :: b)) k v := by
        refine ⟨?_, ?_, ?_⟩
        · obtain ⟨h1, h2, h3⟩ := Asc_append.mp hs
          obtain ⟨h4, h5⟩ := Asc_cons.mp h2
          refine Asc_append.mpr ⟨h1, Asc_cons.mpr ⟨h4, h5⟩, fun x hx y hy => ?_⟩
          rcases List.mem_cons.mp hy with rfl | hy
          · exact ha x hx
          · exact h3 x hx y (List.mem_cons_of_mem _ hy)
        · intro x hx
          simp only [List.mem_append, List.mem_cons] at hx ⊢
          rcases hx with hx | rfl | hx
          · exact Or.inr (Or.inl hx)
          · exact Or.inl rfl
          · exact Or.inr (Or.inr (Or.inr hx))
        · rw [set_look ha, set_look ha, set_set]
      cases t with
      | insert => cases h; exact ⟨hs, fun x hx => Or.inr hx, by simp⟩
      | update =>
        obtain ⟨es'', h1, h2⟩ := bind_ok h
        cases h2
        rw [hrep _ h1]
        exact ⟨hfin.1, hfin.2.1, by simp [hfin.2.2]⟩
      | upsert =>
        obtain ⟨es'', h1, h2⟩ := bind_ok h
        cases h2
        rw [hrep _ h1]
        exact ⟨hfin.1, hfin.2.1, by simp [hfin.2.2]⟩
  · rw [hb] at h
    simp only [Bool.false_eq_true, if_false] at h
    have hl : look (a ++ b) k = none := look_gap ha hbb
    unfold Spec.put
    rw [hl]
    simp only
    have hins : ∀ es'', p.insertAt (a ++ b) a.length k v = .ok es'' → es'' = a ++ (k, v) :: b := by
      intro es'' he
      rw [(insertAt_ok he).2]; simp
    have hfin : Asc (a ++ (k, v) :: b) ∧ (∀ x ∈ a ++ (k, v) :: b, x.1 = k ∨ x ∈ a ++ b) ∧
        look (a ++ (k, v) :: b) = Spec.set (look (a ++ b)) k v := by
      refine ⟨?_, ?_, set_look ha v⟩
      · obtain ⟨h1, h2, h3⟩ := Asc_append.mp hs
        refine Asc_append.mpr ⟨h1, Asc_cons.mpr ⟨fun y hy => hbb y hy, h2⟩, fun x hx y hy => ?_⟩
        rcases List.mem_cons.mp hy with rfl | hy
        · exact ha x hx
        · exact h3 x hx y hy
      · intro x hx
        simp only [List.mem_append, List.mem_cons] at hx ⊢
        rcases hx with hx | rfl | hx
        · exact Or.inr (Or.inl hx)
        · exact Or.inl rfl
        · exact Or.inr (Or.inr hx)
    cases t with
    | update => cases h; exact ⟨hs, fun x hx => Or.inr hx, by simp⟩
    | insert =>
      obtain ⟨es'', h1, h2⟩ := bind_ok h
      cases h2
      rw [hins _ h1]
      exact ⟨hfin.1, hfin.2.1, by simp [hfin.2.2]⟩
    | upsert =>
      obtain ⟨es'', h1, h2⟩ := bind_ok h
      cases h2
      rw [hins _ h1]
      exact ⟨hfin.1, hfin.2.1, by simp [hfin.2.2]⟩

/-! ## Locality -/

theorem put_local {X X' B C : List (K × V)} {key : K} {v : V} {t : PutType}
    {f : Option (K → V → V → Decision)} {st : Status} {ex : Option V}
    (hB : ∀ x ∈ B, x.1 ≠ key) (hC : ∀ x ∈ C, x.1 ≠ key)
    (h : (look X', st, ex) = Spec.put (look X) key v t f) :
    (look (B ++ (X' ++ C)), st, ex) = Spec.put (look (B ++ (X ++ C))) key v t f := by
  have h0 : look (B ++ (X ++ C)) key = look X key := by
    rw [look_append, look_append, look_none hB, look_none hC]
    simp
  have hset : look X' = Spec.set (look X) key v →
      look (B ++ (X' ++ C)) = Spec.set (look (B ++ (X ++ C))) key v := by
    intro h
    funext k
    rw [look_append, look_append, h]
    simp only [Spec.set]
    by_cases hk : k = key
    · subst hk; simp [look_none hB]
    · simp only [if_neg hk]; rw [look_append, look_append]
  have hsame : look X' = look X → look (B ++ (X' ++ C)) = look (B ++ (X ++ C)) := by
    intro h
    funext k
    rw [look_append, look_append, h, look_append, look_append]
  unfold Spec.put at h ⊢
  rw [h0]
  cases hk : look X key with
  | some old =>
    rw [hk] at h
    simp only at h ⊢
    split at h
    · rename_i h1; rw [if_pos h1]; simp only [Prod.mk.injEq] at h ⊢; exact ⟨hsame h.1, h.2⟩
    · rename_i h1; rw [if_neg h1]
      split at h
      · rename_i h2; rw [if_pos h2]; simp only [Prod.mk.injEq] at h ⊢; exact ⟨hsame h.1, h.2⟩
      · rename_i h2; rw [if_neg h2]; simp only [Prod.mk.injEq] at h ⊢; exact ⟨hset h.1, h.2⟩
  | none =>
    rw [hk] at h
    simp only at h ⊢
    split at h
    · rename_i h1; rw [if_pos h1]; simp only [Prod.mk.injEq] at h ⊢; exact ⟨hsame h.1, h.2⟩
    · rename_i h1; rw [if_neg h1]; simp only [Prod.mk.injEq] at h ⊢; exact ⟨hset h.1, h.2⟩

theorem USeg.cont {L : Lvl K V A} {lo hi : Option K} {ks : List (Option K × Node K A)}
    (h : USeg L.P lo ks hi) : ∀ x ∈ cont (lvs L ks), ltLo lo x.1 ∧ leHi x.1 hi := by
  induction ks generalizing lo with
  | nil => simp
  | cons y r ih =>
    obtain ⟨k, c⟩ := y
    intro x hx
    rw [lvs_cons, cont_append, List.mem_append] at hx
    cases k with
    | none =>
      obtain ⟨rfl, rfl, h3⟩ := h
      simp at hx
      exact L.cont_bnd h3 hx
    | some k =>
      obtain ⟨h1, h2, h3⟩ := h
      have hkh : leHi k hi := by
        cases r with
        | nil => cases h3; simp
        | cons z r' =>
          obtain ⟨q, d⟩ := z
          cases q with
          | none => rw [h3.2.1]; simp
          | some q =>
            have : Seg L.P (some k) ((q, d) :: []) (some q) := ⟨h3.1, h3.2.1, rfl⟩
            clear ih hx
            -- bounds only grow
            have hg : ∀ (l : List (Option K × Node K A)) (a : K), USeg L.P (some a) l hi → leHi a hi := by
              intro l
              induction l with
              | nil => intro a h; cases h; simp
              | cons w l ihl =>
                intro a h
                obtain ⟨p, e⟩ := w
                cases p with
                | none => rw [h.2.1]; simp
                | some p =>
                  have h4 := h.1
                  simp at h4
                  exact (ihl p h.2.2).trans h4.le
            exact hg _ _ h3
      rcases hx with hx | hx
      · have := L.cont_bnd h2 hx
        exact ⟨this.1, hkh.trans (by simpa using this.2)⟩
      · have h4 := ih h3 x hx
        have h5 := h4.1
        simp at h5
        exact ⟨h1.trans h5.le, h4.2⟩

/-- Contents of the children before and after the one that covers the key. -/
theorem around {L : Lvl K V A} {lo m hi q : Option K} {key : K} {c : Node K A}
    {a z : List (Option K × Node K A)} (h1 : USeg L.P lo a m) (h2 : USeg L.P m ((q, c) :: z) hi)
    (h3 : ltLo m key) (h4 : leHi key q) (h5 : ∀ y ∈ a, y.1 ≠ none) :
    (∀ x ∈ cont (lvs L a), x.1 < key) ∧ (∀ x ∈ cont (lvs L z), key < x.1) := by
  constructor
  · intro x hx
    rcases List.eq_nil_or_concat a with rfl | ⟨a', w, rfl⟩
    · simp at hx
    · have h6 := (h1.cont x hx).2
      rw [List.concat_eq_append] at h1
      have h7 := h1.last
      have h8 := h5 w (by simp)
      obtain ⟨k, hk⟩ := Option.ne_none_iff_exists'.mp h8
      rw [h7, hk] at h6 h3
      simp at h6 h3
      exact lt_of_le_of_lt h6 h3
  · intro x hx
    cases q with
    | none => rw [h2.1] at hx; simp at hx
    | some q =>
      have h6 := (h2.2.2.cont x hx).1
      simp at h6 h4
      exact lt_of_le_of_lt h4 h6

theorem lv_split {L : Lvl K V A} {t : Node K (Node K A)} {c : Node K A}
    {a z : List (Option K × Node K A)} {q : Option K} (hk : t.kids = a ++ (q, c) :: z) :
    (intLvl L).lv t = lvs L a ++ (L.lv c ++ lvs L z) := by
  rw [lv_kids, hk]; simp

/-- Putting a changed child back. -/
theorem set_kid {L : Lvl K V A} {t : Node K (Node K A)} {i : Nat} {c c' : Node K A}
    {a z : List (Option K × Node K A)} {q lo m hi : Option K} (hk : t.kids = a ++ (q, c) :: z)
    (ha : a.length = i) (h1 : USeg L.P lo a m) (h2 : ∀ y ∈ a, y.1 ≠ none)
    (h3 : USeg L.P m ((q, c) :: z) hi) (hc : L.P c' m q) :
    (intLvl L).P (t.setVal i c') lo hi ∧
      (intLvl L).lv (t.setVal i c') = lvs L a ++ (L.lv c' ++ lvs L z) := by
  have hk' : (t.setVal i c').kids = a ++ (q, c') :: z := by
    rw [kids_setVal t (by rw [hk]; simp; omega), hk, ← ha, modify_at]
  refine ⟨?_, lv_split hk'⟩
  show Kids L.P lo (t.setVal i c').es (t.setVal i c').edge hi
  rw [Kids_iff, hk']
  exact ⟨by simp, h1.join h2 (h3.replace hc)⟩

/-! ## Put -/

/-- What a put must do to a subtree that covers `(lo, hi]`. -/
def PutOk (L : Lvl K V A) (r : PutReq K V) (lo hi : Option K) (t : Node K A) (nid : Nat)
    (res : Node K A × Nat × Status × Option V) : Prop :=
  L.P res.1 lo hi ∧ Step (L.lv t) (L.lv res.1) nid res.2.1 ∧
    (look (cont (L.lv res.1)), res.2.2.1, res.2.2.2) = Spec.put (look (cont (L.lv t))) r.key r.val r.type r.filter

theorem putLoop_ok {c : Cfg K V} {r : PutReq K V} {n : Nat}
    {rec : Tree K V n → Nat → Except Fault (Tree K V n × Nat × Status × Option V)}
    (hrec : ∀ {lo hi t nid res}, (levels K V n).P t lo hi → ltLo lo r.key → leHi r.key hi →
      rec t nid = .ok res → PutOk (levels K V n) r lo hi t nid res) :
    ∀ (f : Nat) {lo hi : Option K} {t : Tree K V (n + 1)} {nid : Nat} {res},
      (levels K V (n + 1)).P t lo hi → ltLo lo r.key → leHi r.key hi →
      putLoop c r n rec f t nid = .ok res → PutOk (levels K V (n + 1)) r lo hi t nid res := by
  intro f
  induction f with
  | zero => intro lo hi t nid res _ _ _ h; cases h
  | succ f ih =>
    intro lo hi t nid res hQ hlo hhi h
    obtain ⟨b, i, ch, a, q, z, m, hb, hv, hk, ha, h1, h2, h3, h4, h5⟩ :=
      find_kid (L := levels K V n) hQ hlo hhi
    replace hb : bsearch t.es r.key = some (b, i) := hb
    replace hv : t.valAt i = some ch := hv
    unfold putLoop at h
    rw [hb] at h
    simp only [hv] at h
    split at h
    · obtain ⟨t', ht', h6⟩ := bind_ok h
      obtain ⟨h7, h8, h9⟩ := splitIn_inv (L := levels K V n) hv ht' hQ
      obtain ⟨h10, h11, h12⟩ := ih h7 hlo hhi h6
      refine ⟨h10, h8.trans h11, ?_⟩
      rw [h12]
      show Spec.put (look (cont ((intLvl (levels K V n)).lv t'))) _ _ _ _ = _
      rw [h9]
      rfl
    · obtain ⟨⟨ch', nid', st, ex⟩, hr, h6⟩ := bind_ok h
      cases h6
      obtain ⟨h7, h8, h9⟩ := hrec h3.head h4 h5 hr
      have hl : (levels K V (n + 1)).lv t =
          lvs (levels K V n) a ++ ((levels K V n).lv ch ++ lvs (levels K V n) z) := lv_split hk
      obtain ⟨hP, hl'⟩ := set_kid (L := levels K V n) hk ha h1 h2 h3 h7
      replace hl' : (levels K V (n + 1)).lv (t.setVal i ch') =
          lvs (levels K V n) a ++ ((levels K V n).lv ch' ++ lvs (levels K V n) z) := hl'
      refine ⟨hP, ?_, ?_⟩
      · simp only
        rw [hl, hl']
        have := h8.ctx (lvs (levels K V n) a) (lvs (levels K V n) z)
        simpa [List.append_assoc] using this
      · simp only
        rw [hl, hl']
        simp only [cont_append]
        obtain ⟨hA, hB⟩ := around h1 h3 h4 h5 h2
        exact put_local (fun x hx => (hA x hx).ne) (fun x hx => (hB x hx).ne') h9

theorem doPut_ok {c : Cfg K V} {r : PutReq K V} {f : Nat} (n : Nat) :
    ∀ {lo hi : Option K} {t : Tree K V n} {nid : Nat} {res},
      (levels K V n).P t lo hi → ltLo lo r.key → leHi r.key hi →
      doPut c r f n t nid = .ok res → PutOk (levels K V n) r lo hi t nid res := by
  induction n with
  | zero =>
    intro lo hi t nid res hQ hlo hhi h
    unfold doPut at h
    obtain ⟨⟨es, st, ex⟩, h1, h2⟩ := bind_ok h
    cases h2
    obtain ⟨q1, q2, q3⟩ : t.edge = none ∧ Asc t.es ∧ ∀ x ∈ t.es, ltLo lo x.1 ∧ leHi x.1 hi := hQ
    obtain ⟨h3, h4, h5⟩ := leafPut_spec q2 h1
    refine ⟨⟨q1, h3, fun x hx => ?_⟩, ?_, ?_⟩
    · rcases h4 x hx with h6 | h6
      · rw [h6]; exact ⟨hlo, hhi⟩
      · exact q3 x h6
    · show Step [t] [{ t with es := es }] nid nid
      exact ⟨le_rfl, fun nx => rfl, fun nx h => h, fun i hi => Or.inl hi, fun h _ => h⟩
    · show (look (cont [{ t with es := es }]), st, ex) = Spec.put (look (cont [t])) _ _ _ _
      simpa using h5
  | succ n ih =>
    intro lo hi t nid res hQ hlo hhi h
    unfold doPut at h
    exact putLoop_ok (fun h1 h2 h3 h4 => ih h1 h2 h3 h4) f hQ hlo hhi h

/-- Invariant of a whole tree. -/
structure BT.Inv (b : BT K V) : Prop where
  cover : (levels K V b.lvl).P b.root none none
  chain : Chain none ((levels K V b.lvl).lv b.root)
  nodup : (ids ((levels K V b.lvl).lv b.root)).Nodup
  fresh : ∀ i ∈ ids ((levels K V b.lvl).lv b.root), i < b.nid

/-- The leaves of a tree, left to right. -/
def BT.leaves (b : BT K V) : List (Node K V) := (levels K V b.lvl).lv b.root

/-- The map that a tree represents. -/
def BT.map (b : BT K V) : K → Option V := look (cont b.leaves)

theorem BT.Inv.step {b b' : BT K V} (h : b.Inv) (hc : (levels K V b'.lvl).P b'.root none none)
    (hs : Step b.leaves b'.leaves b.nid b'.nid) : b'.Inv := by
  refine ⟨hc, hs.chain _ h.chain, hs.nodup h.nodup h.fresh, fun i hi => ?_⟩
  have := hs.le
  rcases hs.fresh i hi with h1 | h1
  · have := h.fresh i h1; omega
  · exact h1.2

theorem empty_inv : (BT.empty : BT K V).Inv := by
  refine ⟨⟨rfl, List.Pairwise.nil, by simp [BT.empty]⟩, ?_, ?_, ?_⟩
  · show Chain none [_]
    exact ⟨rfl, trivial⟩
  · show (ids [_]).Nodup
    exact List.nodup_singleton _
  · show ∀ i ∈ ids [_], _
    simp [ids, BT.empty]

theorem two_kids {L : Lvl K V A} {t : Node K (Node K A)} {c1 c2 : Node K A} {k : K} {lo : Option K}
    (hk : t.kids = [(some k, c1), (none, c2)]) (h0 : ltLo lo k) (h1 : L.P c1 lo (some k))
    (h2 : L.P c2 (some k) none) :
    (intLvl L).P t lo none ∧ (intLvl L).lv t = L.lv c1 ++ L.lv c2 := by
  constructor
  · show Kids L.P lo t.es t.edge none
    rw [Kids_iff, hk]
    exact ⟨by simp, h0, h1, rfl, rfl, h2⟩
  · rw [lv_kids, hk]; simp

theorem splitRoot_ok {c : Cfg K V} {b b' : BT K V} (h : splitRoot c b = .ok b') (hb : b.Inv) :
    b'.Inv ∧ b'.map = b.map := by
  unfold splitRoot at h
  obtain ⟨⟨c1, c2, k⟩, h1, h2⟩ := bind_ok h
  obtain ⟨r1, h3, h4⟩ := bind_ok h2
  obtain ⟨r2, h5, h6⟩ := bind_ok h4
  cases h6
  simp only [NK.updateVal, List.length_nil, if_true] at h3
  cases h3
  obtain ⟨-, h7⟩ := kids_insertNode h5
  simp [Node.kids] at h7
  change r2.kids = [(some k, c1), (none, c2)] at h7
  obtain ⟨g1, g2, g3, g4, g5, g6⟩ := splitNode_inv (L := levels K V b.lvl) h1 hb.cover
  obtain ⟨hP, hlv⟩ := two_kids (L := levels K V b.lvl) h7 g1 g2 g3
  replace hlv : (levels K V (b.lvl + 1)).lv r2 = (levels K V b.lvl).lv c1 ++ (levels K V b.lvl).lv c2 := hlv
  constructor
  · apply hb.step
    · exact hP
    · show Step _ ((levels K V (b.lvl + 1)).lv r2) b.nid (b.nid + 2)
      rw [hlv]
      refine ⟨by omega, g5.head, g5.chain, fun i hi => ?_, fun hn hl => g5.nodup hn (fun i hi => ?_)⟩
      · rcases g5.fresh i hi with h | h
        · exact Or.inl h
        · right; omega
      · have := hl i hi; omega
  · show look (cont ((levels K V (b.lvl + 1)).lv r2)) = _
    rw [hlv, g6]
    rfl

theorem put_ok {c : Cfg K V} {r : PutReq K V} (f : Nat) :
    ∀ {b : BT K V} {b' : BT K V} {st : Status} {ex : Option V}, b.Inv → put c r f b = .ok (b', st, ex) →
      b'.Inv ∧ (b'.map, st, ex) = Spec.put b.map r.key r.val r.type r.filter := by
  induction f with
  | zero => intro b b' st ex _ h; cases h
  | succ f ih =>
    intro b b' st ex hb h
    unfold put at h
    split at h
    · obtain ⟨b1, h1, h2⟩ := bind_ok h
      obtain ⟨h3, h4⟩ := splitRoot_ok h1 hb
      rw [← h4]
      exact ih h3 h2
    · obtain ⟨⟨t, nid, st', ex'⟩, h1, h2⟩ := bind_ok h
      cases h2
      obtain ⟨h3, h4, h5⟩ := doPut_ok (n := b.lvl) hb.cover (by simp) (by simp) h1
      exact ⟨hb.step h3 h4, h5⟩

/-! ## Get -/

theorem doGet_ok (n : Nat) :
    ∀ {lo hi : Option K} {t : Tree K V n} {k : K}, (levels K V n).P t lo hi → ltLo lo k → leHi k hi →
      doGet n t k = .ok (look (cont ((levels K V n).lv t)) k) := by
  induction n with
  | zero =>
    intro lo hi t k hQ _ _
    obtain ⟨q1, q2, q3⟩ : t.edge = none ∧ Asc t.es ∧ ∀ x ∈ t.es, ltLo lo x.1 ∧ leHi x.1 hi := hQ
    unfold doGet
    show _ = Except.ok (look (cont [t]) k)
    rw [cont_cons, cont_nil, List.append_nil]
    rcases bsearch_split q2 k with ⟨a, w, b, he, hb, ha, hbb⟩ | ⟨a, b, he, hb, ha, hbb⟩
    · rw [hb]
      have hget : t.es[a.length]? = some (k, w) := by rw [he]; simp
      simp only [if_true, hget]
      rw [he, look_mid ha, if_pos rfl]
      rfl
    · rw [hb]
      simp only [Bool.false_eq_true, if_false]
      rw [he, look_gap ha hbb]
      rfl
  | succ n ih =>
    intro lo hi t k hQ hlo hhi
    obtain ⟨b, i, ch, a, q, z, m, hb, hv, hk, ha, h1, h2, h3, h4, h5⟩ :=
      find_kid (L := levels K V n) hQ hlo hhi
    replace hb : bsearch t.es k = some (b, i) := hb
    replace hv : t.valAt i = some ch := hv
    unfold doGet
    rw [hb]
    simp only [hv]
    rw [ih h3.head h4 h5]
    have hl : (levels K V (n + 1)).lv t =
        lvs (levels K V n) a ++ ((levels K V n).lv ch ++ lvs (levels K V n) z) := lv_split hk
    obtain ⟨hA, hB⟩ := around h1 h3 h4 h5 h2
    rw [hl]
    simp only [cont_append]
    rw [look_append, look_append, look_none (fun x hx => (hA x hx).ne), look_none (fun x hx => (hB x hx).ne')]
    simp

theorem get_ok {b : BT K V} (h : b.Inv) (k : K) : get b k = .ok (b.map k) :=
  doGet_ok b.lvl h.cover (by simp) (by simp)

end HS.Btree
