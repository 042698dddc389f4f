import Verif.Btree.Tree
import Mathlib.Data.List.Pairwise
import Mathlib.Data.List.TakeWhile

/-!
# The binary search of a node
-/

namespace HS.Btree

variable {K A : Type} [LinearOrder K]

/-- The keys of the entries are strictly ascending. -/
def Asc (es : List (K × A)) : Prop := es.Pairwise (fun a b => a.1 < b.1)

/-- Number of entries with a smaller key. -/
def lb (es : List (K × A)) (key : K) : Nat := (es.takeWhile (fun e => e.1 < key)).length

theorem lb_le (es : List (K × A)) (key : K) : lb es key ≤ es.length :=
  (List.takeWhile_sublist _).length_le

theorem lb_lt (es : List (K × A)) (key : K) {i : Nat} {e : K × A} (h : es[i]? = some e)
    (hi : i < lb es key) : e.1 < key := by
  have hp := List.takeWhile_prefix (l := es) (fun e : K × A => decide (e.1 < key))
  obtain ⟨t, ht⟩ := hp
  have : (es.takeWhile (fun e => decide (e.1 < key)))[i]? = some e := by
    rw [← ht] at h
    rw [List.getElem?_append_left hi] at h
    exact h
  have := List.mem_of_getElem? this
  simpa using List.mem_takeWhile_imp this

theorem lb_ge {es : List (K × A)} (hs : Asc es) (key : K) {i : Nat} {e : K × A} (h : es[i]? = some e)
    (hi : lb es key ≤ i) : key ≤ e.1 := by
  induction es generalizing i with
  | nil => simp at h
  | cons a r ih =>
    by_cases ha : a.1 < key
    · cases i with
      | zero => simp [lb, List.takeWhile_cons, ha] at hi
      | succ i =>
        apply ih (List.pairwise_cons.mp hs).2 (i := i) (by simpa using h)
        simp [lb, List.takeWhile_cons, ha] at hi ⊢
        omega
    · have hk : key ≤ a.1 := not_lt.mp ha
      cases i with
      | zero => simp at h; exact h ▸ hk
      | succ i =>
        have := List.mem_of_getElem? (show r[i]? = some e by simpa using h)
        exact le_of_lt (lt_of_le_of_lt hk ((List.pairwise_cons.mp hs).1 _ this))

theorem bsearchLoop_spec {es : List (K × A)} (hs : Asc es) (key : K) (n : Nat) :
    ∀ (start fin : Int), (fin - start).toNat ≤ n → -1 ≤ start → start < fin → fin ≤ es.length →
      start < lb es key → (lb es key : Int) ≤ fin →
      (fin = es.length ∨ ∃ e, es[fin.toNat]? = some e ∧ key < e.1) →
      ∃ b, bsearchLoop es key start fin = some (b, lb es key) ∧
        (b = true ↔ ∃ e, es[lb es key]? = some e ∧ e.1 = key) := by
  induction n with
  | zero => intro start fin h _ h2; omega
  | succ n ih =>
    intro start fin hn h1 h2 h3 h4 h5 h6
    rw [bsearchLoop.eq_def]
    by_cases hg : fin - start > 1
    · rw [dif_pos hg]
      simp only
      have hm0 : 0 ≤ start + (fin - start) / 2 := by omega
      have hm1 : start + (fin - start) / 2 < fin := by omega
      have hm2 : start < start + (fin - start) / 2 := by omega
      generalize start + (fin - start) / 2 = mid at hm0 hm1 hm2
      have hlt : mid.toNat < es.length := by omega
      rw [List.getElem?_eq_getElem hlt]
      simp only
      have hgm : es[mid.toNat]? = some es[mid.toNat] := List.getElem?_eq_getElem hlt
      by_cases he : es[mid.toNat].1 = key
      · rw [if_pos he]
        have : lb es key = mid.toNat := by
          rcases lt_trichotomy (lb es key) mid.toNat with h | h | h
          · exfalso
            have hl : lb es key < es.length := by omega
            have := lb_ge hs key (List.getElem?_eq_getElem hl) le_rfl
            have h' : es[lb es key].1 < es[mid.toNat].1 :=
              List.pairwise_iff_getElem.mp hs _ _ hl hlt h
            rw [he] at h'
            exact absurd h' (not_lt.mpr this)
          · exact h
          · exact absurd (lb_lt es key hgm h) (by rw [he]; exact lt_irrefl _)
        refine ⟨true, by rw [this], ?_⟩
        rw [this]
        exact ⟨fun _ => ⟨_, hgm, he⟩, fun _ => rfl⟩
      · rw [if_neg he]
        by_cases hk : key < es[mid.toNat].1
        · rw [if_pos hk]
          apply ih start mid (by omega) h1 hm2 (by omega) h4
          · by_contra hc
            have : mid.toNat < lb es key := by omega
            exact absurd (lb_lt es key hgm this) (not_lt.mpr hk.le)
          · exact Or.inr ⟨_, hgm, hk⟩
        · rw [if_neg hk]
          apply ih mid fin (by omega) (by omega) hm1 h3 _ h5 h6
          by_contra hc
          have : lb es key ≤ mid.toNat := by omega
          have := lb_ge hs key hgm this
          exact hk (lt_of_le_of_ne this (fun h => he h.symm))
    · rw [dif_neg hg]
      have hf : fin.toNat = lb es key := by omega
      refine ⟨false, by rw [hf], ?_⟩
      constructor
      · intro h; cases h
      · rintro ⟨e, he, hk⟩
        exfalso
        rcases h6 with h6 | ⟨e', he', hk'⟩
        · have : es[lb es key]? = none := List.getElem?_eq_none (by omega)
          rw [this] at he; cases he
        · rw [hf, he] at he'
          cases he'
          exact absurd hk' (by rw [hk]; exact lt_irrefl _)

/-- On a node with ascending keys the search returns the number of smaller keys, and whether the key is
there. -/
theorem bsearch_spec {es : List (K × A)} (hs : Asc es) (key : K) :
    ∃ b, bsearch es key = some (b, lb es key) ∧
      (b = true ↔ ∃ e, es[lb es key]? = some e ∧ e.1 = key) := by
  have := lb_le es key
  exact bsearchLoop_spec hs key (es.length + 1) (-1) es.length (by omega) (by omega) (by omega)
    (by omega) (by omega) (by omega) (Or.inl rfl)

end HS.Btree
