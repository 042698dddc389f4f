import Verif.Prefix.Lemmas
import Verif.Prefix.Spec

/-! What the operations of a prefix node do to its entries. -/

namespace HS.Prefix

/-! ## Sorted lists -/

theorem insertIdx_mid {α : Type} (A B : List α) (x : α) : (A ++ B).insertIdx A.length x = A ++ x :: B := by
  induction A with
  | nil => simp
  | cons a A ih => simp [ih]

theorem set_mid {α : Type} (A B : List α) (x y : α) : (A ++ x :: B).set A.length y = A ++ y :: B := by
  induction A with
  | nil => simp
  | cons a A ih => simp [ih]

theorem eraseIdx_mid {α : Type} (A B : List α) (x : α) : (A ++ x :: B).eraseIdx A.length = A ++ B := by
  induction A with
  | nil => simp
  | cons a A ih => simp [ih]

theorem get_mid {α : Type} (A B : List α) (x : α) : (A ++ x :: B)[A.length]? = some x := by
  induction A with
  | nil => simp
  | cons a A ih => simp [ih]

theorem get_end {α : Type} (A : List α) : (A ++ [])[A.length]? = none := by simp

theorem filter_lt_mid {A B : KV} {k : Nat} (hA : ∀ e ∈ A, e.1 < k) (hB : ∀ e ∈ B, k ≤ e.1) :
    (A ++ B).filter (fun e => e.1 < k) = A := by
  rw [List.filter_append, List.filter_eq_self.mpr (by simpa using hA), List.filter_eq_nil_iff.mpr, List.append_nil]
  intro e he
  have := hB e he
  simp; omega

theorem setL_new {A B : KV} {k v : Nat} (hA : ∀ e ∈ A, e.1 < k) (hB : ∀ e ∈ B, k < e.1) :
    setL (A ++ B) k v = A ++ (k, v) :: B := by
  simp only [setL]
  rw [filter_lt_mid hA (fun e he => Nat.le_of_lt (hB e he))]
  rw [List.filter_append, List.filter_eq_nil_iff.mpr, List.filter_eq_self.mpr, List.nil_append]
  · simpa using hB
  · intro e he
    have := hA e he
    simp; omega

theorem setL_over {A B : KV} {k v w : Nat} (hA : ∀ e ∈ A, e.1 < k) (hB : ∀ e ∈ B, k < e.1) :
    setL (A ++ (k, w) :: B) k v = A ++ (k, v) :: B := by
  simp only [setL]
  rw [filter_lt_mid hA]
  · rw [List.filter_append, List.filter_cons]
    simp only [Nat.lt_irrefl, decide_false]
    rw [List.filter_eq_nil_iff.mpr, List.filter_eq_self.mpr]
    · simp
    · simpa using hB
    · intro e he
      have := hA e he
      simp; omega
  · intro e he
    rcases List.mem_cons.mp he with rfl | he
    · exact Nat.le_refl _
    · exact Nat.le_of_lt (hB e he)

theorem delL_mid {A B : KV} {k w : Nat} (hA : ∀ e ∈ A, e.1 < k) (hB : ∀ e ∈ B, k < e.1) :
    delL (A ++ (k, w) :: B) k = A ++ B := by
  simp only [delL]
  rw [List.filter_append, List.filter_cons]
  rw [List.filter_eq_self.mpr, List.filter_eq_self.mpr]
  · simp
  · intro e he
    have := hB e he
    simp; omega
  · intro e he
    have := hA e he
    simp; omega

theorem look_mid {A B : KV} {k w : Nat} (hA : ∀ e ∈ A, e.1 < k) : look (A ++ (k, w) :: B) k = some w := by
  simp only [look]
  rw [List.find?_append, List.find?_eq_none.mpr]
  · simp
  · intro e he
    have := hA e he
    simp; omega

theorem look_none {l : KV} {k : Nat} (h : ∀ e ∈ l, e.1 ≠ k) : look l k = none := by
  simp only [look]
  rw [List.find?_eq_none.mpr]
  · rfl
  · intro e he
    simpa using h e he

theorem Sorted.append {A B : KV} (hA : Sorted A) (hB : Sorted B) (h : ∀ a ∈ A, ∀ b ∈ B, a.1 < b.1) : Sorted (A ++ B) :=
  List.pairwise_append.mpr ⟨hA, hB, h⟩

theorem Sorted.left {A B : KV} (h : Sorted (A ++ B)) : Sorted A := (List.pairwise_append.mp h).1
theorem Sorted.right {A B : KV} (h : Sorted (A ++ B)) : Sorted B := (List.pairwise_append.mp h).2.1
theorem Sorted.cross {A B : KV} (h : Sorted (A ++ B)) : ∀ a ∈ A, ∀ b ∈ B, a.1 < b.1 := (List.pairwise_append.mp h).2.2

theorem sorted_setL {l : KV} (h : Sorted l) (k v : Nat) : Sorted (setL l k v) := by
  refine Sorted.append (List.Pairwise.filter _ h) ?_ ?_
  · refine List.pairwise_cons.mpr ⟨?_, List.Pairwise.filter _ h⟩
    intro e he
    simpa using (List.mem_filter.mp he).2
  · intro a ha b hb
    have h1 : a.1 < k := by simpa using (List.mem_filter.mp ha).2
    rcases List.mem_cons.mp hb with rfl | hb
    · exact h1
    · have h2 : k < b.1 := by simpa using (List.mem_filter.mp hb).2
      omega

theorem sorted_delL {l : KV} (h : Sorted l) (k : Nat) : Sorted (delL l k) := List.Pairwise.filter _ h

theorem sorted_putOne {l : KV} (h : Sorted l) (ty : PutType) (f : Option (Nat → Nat → Nat → Dec)) (v nv k : Nat) :
    Sorted (putOne ty f v nv l k) := by
  simp only [putOne]
  split
  · split
    · exact h
    · exact sorted_setL h k nv
  · split
    · exact h
    · split
      · exact sorted_setL h k nv
      · split
        · exact h
        · exact sorted_setL h k nv
        · exact sorted_delL h k

theorem dropWhile_ge : ∀ {l : KV} {k : Nat}, Sorted l → ∀ e ∈ l.dropWhile (fun e => decide (e.1 < k)), k ≤ e.1
  | [], _, _, e, he => by simp at he
  | a :: l, k, h, e, he => by
    have h' : Sorted l := (List.pairwise_cons.mp h).2
    by_cases hak : a.1 < k
    · rw [List.dropWhile_cons_of_pos (by simpa using hak)] at he
      exact dropWhile_ge h' e he
    · rw [List.dropWhile_cons_of_neg (by simpa using hak)] at he
      rcases List.mem_cons.mp he with rfl | he
      · omega
      · have := (List.pairwise_cons.mp h).1 e he
        omega

theorem takeWhile_lt {l : KV} {k : Nat} : ∀ e ∈ l.takeWhile (fun e => decide (e.1 < k)), e.1 < k := by
  intro e he
  have := List.all_takeWhile (p := fun e : Nat × Nat => decide (e.1 < k)) (l := l)
  rw [List.all_eq_true] at this
  simpa using this e he

/-! ## Nodes -/

/-- Parameters as they have to be: keys and values are what is made of their prefixes and suffixes,
and the bitset has a bit for every prefix slot that can be needed. -/
structure Params.Ok (P : Params) : Prop where
  kinv : ∀ k, P.kmk (P.kp k) (P.ks k) = k
  vinv : ∀ v, P.vmk (P.vp v) (P.vs v) = v
  room : P.data < (P.bits + 1) * P.ps + (P.base + P.ss)

/-- A node whose bookkeeping is right and whose areas do not overlap. -/
structure Good (P : Params) (s : PN) : Prop where
  inv : Inv P s s.suf
  fits : P.fits s.tail s.suf.length = true

/-- The entry a reader sees. -/
def PN.ent (P : Params) (s : PN) (e : SE) : Nat × Nat := (s.key P e, s.val P e)

theorem ents_eq (P : Params) (s : PN) : s.ents P = s.suf.map (s.ent P) := rfl

theorem ents_length (P : Params) (s : PN) : (s.ents P).length = s.suf.length := by simp [PN.ents]

theorem Same.map_ent {P : Params} {s t : PN} {L : List SE} (h : Same s t L) : L.map (t.ent P) = L.map (s.ent P) := h.map

theorem fits_mono {P : Params} {t t' n n' : Nat} (h : P.fits t n = true) (ht : t' ≤ t) (hn : n' ≤ n) :
    P.fits t' n' = true := by
  simp only [Params.fits, decide_eq_true_eq] at h ⊢
  have h1 : t' * P.ps ≤ t * P.ps := Nat.mul_le_mul_right _ ht
  have h2 : n' * P.ss ≤ n * P.ss := Nat.mul_le_mul_right _ hn
  omega

theorem hasRoom_iff {P : Params} {s : PN} {n : Nat} : s.hasRoom P n = true ↔ P.ps + n * P.ss ≤ s.avail P := by
  simp [PN.hasRoom]

theorem hasRoomC_iff {P : Params} {s : PN} {n : Nat} : s.hasRoomC P n = true ↔ P.ps + n * P.ss ≤ s.availC P := by
  simp [PN.hasRoomC]

theorem room_fits {P : Params} {s : PN} (h : s.hasRoom P 1 = true) (hps : 0 < P.ps) : P.fits (s.tail + 1) (s.suf.length + 1) = true := by
  rw [hasRoom_iff] at h
  simp only [PN.avail] at h
  simp only [Params.fits, decide_eq_true_eq, Nat.add_mul]
  omega

theorem room_tail {P : Params} {s : PN} (hP : P.Ok) (h : s.hasRoom P 1 = true) (hps : 0 < P.ps) : s.tail < P.bits := by
  rw [hasRoom_iff] at h
  simp only [PN.avail] at h
  have hr := hP.room
  by_cases hc : s.tail < P.bits
  · exact hc
  · exfalso
    have h1 : (P.bits + 1) * P.ps ≤ (s.tail + 1) * P.ps := Nat.mul_le_mul_right _ (by omega)
    rw [Nat.add_mul s.tail] at h1
    omega

theorem Inv.tail_of_cons {P : Params} {s : PN} {e : SE} {L : List SE} (h : Inv P s (e :: L)) : Inv P s L :=
  ⟨h.lt, h.tailb, h.used, fun x hx => h.slots x (List.mem_cons_of_mem _ hx), fun i => by
    have := h.refs i
    rw [cnt_cons] at this
    omega⟩

theorem Inv.mid {P : Params} {s : PN} {e : SE} {A B : List SE} (h : Inv P s (A ++ e :: B)) : Inv P s (e :: (A ++ B)) :=
  h.perm List.perm_middle

theorem Inv.unmid {P : Params} {s : PN} {e : SE} {A B : List SE} (h : Inv P s (e :: (A ++ B))) : Inv P s (A ++ e :: B) :=
  h.perm List.perm_middle.symm

theorem Inv.suf {P : Params} {s : PN} {L l : List SE} (h : Inv P s L) : Inv P { s with suf := l } L :=
  ⟨h.lt, h.tailb, h.used, h.slots, h.refs⟩

/-- A new entry written between `A` and `B`. -/
theorem writeNew_spec {P : Params} (hP : P.Ok) {t : PN} {A B : List SE} {i k v : Nat} (hs : t.suf = A ++ B)
    (h : Inv P t (A ++ B)) (hb : t.bit i = true) (hk : (t.pre i).kp = P.kp k) (hv : (t.pre i).vp = P.vp v) :
    (t.writeNew P A.length i k v).suf = A ++ ⟨i, P.ks k, P.vs v⟩ :: B ∧
    Inv P (t.writeNew P A.length i k v) (t.writeNew P A.length i k v).suf ∧
    (t.writeNew P A.length i k v).ents P = A.map (t.ent P) ++ (k, v) :: B.map (t.ent P) ∧
    (t.writeNew P A.length i k v).tail = t.tail ∧ (t.writeNew P A.length i k v).bit = t.bit ∧
    (t.writeNew P A.length i k v).used = t.used ∧
    (t.writeNew P A.length i k v).pre = (t.ref i).pre := by
  have hsuf : (t.writeNew P A.length i k v).suf = A ++ ⟨i, P.ks k, P.vs v⟩ :: B := by
    show t.suf.insertIdx A.length _ = _
    rw [hs, insertIdx_mid]
  obtain ⟨h1, h2⟩ := ref_inv (⟨i, P.ks k, P.vs v⟩ : SE) (s := { t with suf := t.suf.insertIdx A.length ⟨i, P.ks k, P.vs v⟩ }) h.suf hb
  refine ⟨hsuf, ?_, ?_, rfl, rfl, rfl, rfl⟩
  · rw [hsuf]
    exact h1.unmid
  · rw [ents_eq, hsuf, List.map_append, List.map_cons]
    have hA := (h2 A).map_ent (P := P)
    have hB := (h2 B).map_ent (P := P)
    have hA' : A.map ((t.writeNew P A.length i k v).ent P) = A.map (t.ent P) := hA
    have hB' : B.map ((t.writeNew P A.length i k v).ent P) = B.map (t.ent P) := hB
    rw [hA', hB']
    congr 2
    show (P.kmk (setPre t.pre i { t.pre i with ref := (t.pre i).ref + 1 } i).kp (P.ks k),
      P.vmk (setPre t.pre i { t.pre i with ref := (t.pre i).ref + 1 } i).vp (P.vs v)) = (k, v)
    simp only [setPre, if_true, hk, hv, hP.kinv, hP.vinv]

/-- A new entry written over one between `A` and `B`. -/
theorem writeOver_spec {P : Params} (hP : P.Ok) {t : PN} {A B : List SE} {e : SE} {i k v : Nat} (hs : t.suf = A ++ e :: B)
    (h : Inv P t (A ++ B)) (hb : t.bit i = true) (hk : (t.pre i).kp = P.kp k) (hv : (t.pre i).vp = P.vp v) :
    (t.writeOver P A.length i k v).suf = A ++ ⟨i, P.ks k, P.vs v⟩ :: B ∧
    Inv P (t.writeOver P A.length i k v) (t.writeOver P A.length i k v).suf ∧
    (t.writeOver P A.length i k v).ents P = A.map (t.ent P) ++ (k, v) :: B.map (t.ent P) ∧
    (t.writeOver P A.length i k v).tail = t.tail ∧ (t.writeOver P A.length i k v).bit = t.bit ∧
    (t.writeOver P A.length i k v).used = t.used ∧
    (t.writeOver P A.length i k v).pre = (t.ref i).pre := by
  have hsuf : (t.writeOver P A.length i k v).suf = A ++ ⟨i, P.ks k, P.vs v⟩ :: B := by
    show t.suf.set A.length _ = _
    rw [hs, set_mid]
  obtain ⟨h1, h2⟩ := ref_inv (⟨i, P.ks k, P.vs v⟩ : SE) (s := { t with suf := t.suf.set A.length ⟨i, P.ks k, P.vs v⟩ }) h.suf hb
  refine ⟨hsuf, ?_, ?_, rfl, rfl, rfl, rfl⟩
  · rw [hsuf]
    exact h1.unmid
  · rw [ents_eq, hsuf, List.map_append, List.map_cons]
    have hA := (h2 A).map_ent (P := P)
    have hB := (h2 B).map_ent (P := P)
    have hA' : A.map ((t.writeOver P A.length i k v).ent P) = A.map (t.ent P) := hA
    have hB' : B.map ((t.writeOver P A.length i k v).ent P) = B.map (t.ent P) := hB
    rw [hA', hB']
    congr 2
    show (P.kmk (setPre t.pre i { t.pre i with ref := (t.pre i).ref + 1 } i).kp (P.ks k),
      P.vmk (setPre t.pre i { t.pre i with ref := (t.pre i).ref + 1 } i).vp (P.vs v)) = (k, v)
    simp only [setPre, if_true, hk, hv, hP.kinv, hP.vinv]

/-- `insert`. -/
theorem insert_spec {P : Params} (hP : P.Ok) (hps : 0 < P.ps) {s : PN} {A B : List SE} (h : Good P s) (hs : s.suf = A ++ B)
    (hr : s.hasRoom P 1 = true) (k v : Nat) :
    ∃ t, s.insert P A.length k v = some (true, t) ∧ Good P t ∧
      t.ents P = A.map (s.ent P) ++ (k, v) :: B.map (s.ent P) := by
  obtain ⟨i, t, ha⟩ := addPrefix_isSome (k := k) (v := v) h.inv (room_tail hP hr hps) (room_fits hr hps)
  obtain ⟨h1, h2, h3, h4, _, h6, _, h8, _⟩ := addPrefix_spec h.inv ha
  have h1' := h1
  rw [hs] at h1'
  obtain ⟨w1, w2, w3, w4, _⟩ := writeNew_spec hP (h3.trans hs) h1' h4 (by rw [h6]) (by rw [h6])
  refine ⟨t.writeNew P A.length i k v, ?_, ⟨w2, ?_⟩, ?_⟩
  · simp only [PN.insert, hr, if_true, ha]
    rw [if_neg (by rw [hs]; simp)]
  · rw [w4, w1]
    have : (A ++ (⟨i, P.ks k, P.vs v⟩ : SE) :: B).length = s.suf.length + 1 := by rw [hs]; simp; omega
    rw [this]
    exact h8
  · rw [w3]
    rw [(h2.sub (L' := A) (fun e he => by rw [hs]; simp [he])).map_ent, (h2.sub (L' := B) (fun e he => by rw [hs]; simp [he])).map_ent]

theorem insert_noroom {P : Params} {s : PN} (hr : s.hasRoom P 1 = false) (idx k v : Nat) :
    s.insert P idx k v = some (false, s) := by
  simp [PN.insert, hr]

theorem compact_good {P : Params} {s : PN} (h : Good P s) : ∃ t, s.compact P = some t ∧ Good P t ∧ t.ents P = s.ents P ∧
    t.suf.length = s.suf.length ∧ t.used = s.used ∧ t.tail = s.used ∧ t.avail P = s.availC P := by
  obtain ⟨t, h1, h2, h3, h4, h5, h6⟩ := compact_spec h.inv
  refine ⟨t, h1, ⟨h2, ?_⟩, h3, h6, h4, h5, ?_⟩
  · rw [h5, h6]
    exact fits_mono h.fits h.inv.used_le (Nat.le_refl _)
  · simp only [PN.avail, PN.availC, PN.holes, h5, h6]
    have hf := h.fits
    simp only [Params.fits, decide_eq_true_eq] at hf
    have hu := h.inv.used_le
    have hm : (s.tail - s.used) * P.ps + s.used * P.ps = s.tail * P.ps := by
      rw [← Nat.add_mul]; congr 1; omega
    omega

/-- `update(idx, key, val)`. -/
theorem update_spec {P : Params} (hP : P.Ok) (hps : 0 < P.ps) {s : PN} {a b : KV} {k v : Nat} {x : Nat × Nat} (h : Good P s)
    (hs : s.ents P = a ++ x :: b) (hr : s.hasRoom P 1 = true ∨ s.hasRoomC P 1 = true) :
    ∃ t, s.update P a.length k v = some t ∧ Good P t ∧ t.ents P = a ++ (k, v) :: b := by
  -- the node after the compaction, if there is one
  have hpre : ∃ u, (if s.hasRoom P 1 then some s else if s.hasRoomC P 1 then s.compact P else none) = some u ∧ Good P u ∧
      u.ents P = s.ents P ∧ u.hasRoom P 1 = true := by
    by_cases h1 : s.hasRoom P 1 = true
    · exact ⟨s, by rw [if_pos h1], h, rfl, h1⟩
    · rw [if_neg h1]
      have h2 : s.hasRoomC P 1 = true := hr.resolve_left h1
      rw [if_pos h2]
      obtain ⟨u, c1, c2, c3, c4, _, _, c7⟩ := compact_good h
      refine ⟨u, c1, c2, c3, ?_⟩
      simp only [PN.hasRoom, c7]
      exact h2
  obtain ⟨u, hu1, hu2, hu3, hu4⟩ := hpre
  -- its entries
  have hus : u.suf.map (u.ent P) = a ++ x :: b := by rw [← ents_eq, hu3, hs]
  obtain ⟨A, B', hAB, hA, hB'⟩ := List.map_eq_append_iff.mp hus
  obtain ⟨e, B, hB1, he, hB⟩ := List.map_eq_cons_iff.mp hB'
  subst hB1
  have hlen : A.length = a.length := by rw [← hA]; simp
  obtain ⟨i, t, ha⟩ := addPrefix_isSome (k := k) (v := v) hu2.inv (room_tail hP hu4 hps)
    (fits_mono (room_fits hu4 hps) (Nat.le_refl _) (Nat.le_succ _))
  obtain ⟨h1, h2, h3, h4, _, h6, _, h8, _⟩ := addPrefix_spec hu2.inv ha
  have h1' := h1
  rw [hAB] at h1'
  obtain ⟨w1, w2, w3, w4, _⟩ := writeOver_spec hP (h3.trans hAB) h1'.mid.tail_of_cons h4 (by rw [h6]) (by rw [h6])
  refine ⟨t.writeOver P A.length i k v, ?_, ⟨w2, ?_⟩, ?_⟩
  · simp only [PN.update]
    rw [if_neg (by
      have : s.suf.length = u.suf.length := by rw [← ents_length P s, ← ents_length P u, hu3]
      rw [this, hAB]; simp; omega), hu1]
    simp only [ha, hlen]
  · rw [w4, w1]
    have : (A ++ (⟨i, P.ks k, P.vs v⟩ : SE) :: B).length = u.suf.length := by rw [hAB]; simp
    rw [this]
    exact h8
  · rw [w3]
    rw [(h2.sub (L' := A) (fun e he => by rw [hAB]; simp [he])).map_ent, (h2.sub (L' := B) (fun e he => by rw [hAB]; simp [he])).map_ent, hA, hB]

/-- `remove(idx)`. -/
theorem remove_spec {P : Params} {s : PN} {A B : List SE} {e : SE} (h : Good P s) (hs : s.suf = A ++ e :: B) :
    ∃ t, s.remove A.length = some t ∧ Good P t ∧ t.suf = A ++ B ∧ t.ents P = A.map (s.ent P) ++ B.map (s.ent P) ∧
      t.tail ≤ s.tail ∧ (∀ j, j ≠ e.slot → t.bit j = s.bit j ∧ t.pre j = s.pre j) := by
  have h1 := h.inv
  rw [hs] at h1
  obtain ⟨t, d1, d2, d3, d4, d5, d6, _⟩ := deref_spec e h1.mid
  have hsuf : ({ t with suf := t.suf.eraseIdx A.length } : PN).suf = A ++ B := by
    show t.suf.eraseIdx A.length = _
    rw [d4, hs, eraseIdx_mid]
  refine ⟨{ t with suf := t.suf.eraseIdx A.length }, ?_, ⟨?_, ?_⟩, hsuf, ?_, d5, d6⟩
  · simp only [PN.remove]
    rw [hs, get_mid]
    simp only [d1]
  · rw [hsuf]; exact d2.suf
  · rw [hsuf]
    exact fits_mono h.fits d5 (by rw [hs]; simp)
  · rw [ents_eq, hsuf, List.map_append]
    have hA : A.map (({ t with suf := t.suf.eraseIdx A.length } : PN).ent P) = A.map (s.ent P) := (d3 A).map_ent (P := P)
    have hB : B.map (({ t with suf := t.suf.eraseIdx A.length } : PN).ent P) = B.map (s.ent P) := (d3 B).map_ent (P := P)
    rw [hA, hB]

theorem removeAll_spec {P : Params} {s : PN} (h : Good P s) : Good P s.removeAll ∧ s.removeAll.ents P = [] := by
  refine ⟨⟨⟨?_, Nat.zero_le _, rfl, ?_, ?_⟩, ?_⟩, rfl⟩
  · intro i hi; exact absurd hi (by simp [PN.removeAll])
  · intro e he; exact absurd he (by simp [PN.removeAll])
  · intro i; simp [PN.removeAll, cnt]
  · exact fits_mono h.fits (Nat.zero_le _) (Nat.zero_le _)

/-! ## Finding a key -/

/-- The entries cut at the key `k`. -/
structure Cut (P : Params) (s : PN) (idx k : Nat) (A B : List SE) : Prop where
  suf : s.suf = A ++ B
  len : A.length = idx
  low : ∀ e ∈ A.map (s.ent P), e.1 < k
  high : ∀ e ∈ B.map (s.ent P), k ≤ e.1

theorem find_cut {P : Params} {s : PN} (h : Sorted (s.ents P)) (k : Nat) : ∃ A B, Cut P s (s.find P k) k A B := by
  have hsplit : s.suf.map (s.ent P) = (s.ents P).takeWhile (fun e => decide (e.1 < k)) ++ (s.ents P).dropWhile (fun e => decide (e.1 < k)) := by
    rw [List.takeWhile_append_dropWhile, ents_eq]
  obtain ⟨A, B, hAB, hA, hB⟩ := List.map_eq_append_iff.mp hsplit
  refine ⟨A, B, hAB, ?_, ?_, ?_⟩
  · simp only [PN.find]
    rw [← hA]; simp
  · rw [hA]; exact takeWhile_lt
  · rw [hB]; exact dropWhile_ge h

/-- The key is there: it is the first entry from the cut on. -/
theorem Cut.found {P : Params} {s : PN} {idx k : Nat} {A B : List SE} (hc : Cut P s idx k A B) (h : Sorted (s.ents P))
    (hf : s.foundAt P idx k = true) : ∃ e B', B = e :: B' ∧ s.key P e = k ∧ s.suf[idx]? = some e ∧
      (∀ x ∈ B'.map (s.ent P), k < x.1) ∧ s.ents P = A.map (s.ent P) ++ (k, s.val P e) :: B'.map (s.ent P) := by
  cases B with
  | nil =>
    simp only [PN.foundAt] at hf
    rw [hc.suf, ← hc.len, get_end] at hf
    exact absurd hf (by simp)
  | cons e B' =>
    have hg : s.suf[idx]? = some e := by rw [hc.suf, ← hc.len, get_mid]
    have hk : s.key P e = k := by
      simp only [PN.foundAt, hg, decide_eq_true_eq] at hf
      exact hf
    have he : s.ents P = A.map (s.ent P) ++ (k, s.val P e) :: B'.map (s.ent P) := by
      rw [ents_eq, hc.suf, List.map_append, List.map_cons]
      congr 2
      simp only [PN.ent, hk]
    refine ⟨e, B', rfl, hk, hg, ?_, he⟩
    rw [he] at h
    intro x hx
    exact (List.pairwise_cons.mp h.right).1 x hx

/-- The key is not there. -/
theorem Cut.notFound {P : Params} {s : PN} {idx k : Nat} {A B : List SE} (hc : Cut P s idx k A B) (h : Sorted (s.ents P))
    (hf : s.foundAt P idx k = false) : (∀ x ∈ B.map (s.ent P), k < x.1) ∧ s.ents P = A.map (s.ent P) ++ B.map (s.ent P) ∧
      look (s.ents P) k = none := by
  have he : s.ents P = A.map (s.ent P) ++ B.map (s.ent P) := by
    rw [ents_eq, hc.suf, List.map_append]
  have hgt : ∀ x ∈ B.map (s.ent P), k < x.1 := by
    cases B with
    | nil => simp
    | cons e B' =>
      have hg : s.suf[idx]? = some e := by rw [hc.suf, ← hc.len, get_mid]
      have hk : s.key P e ≠ k := by
        simp only [PN.foundAt, hg, decide_eq_false_iff_not] at hf
        exact hf
      have hge := hc.high (s.ent P e) (by simp)
      have hlt : k < (s.ent P e).1 := by
        have h0 : (s.ent P e).1 = s.key P e := rfl
        omega
      rw [he, List.map_cons] at h
      intro x hx
      rw [List.map_cons] at hx
      rcases List.mem_cons.mp hx with rfl | hx
      · exact hlt
      · have := (List.pairwise_cons.mp h.right).1 x hx
        omega
  refine ⟨hgt, he, ?_⟩
  rw [he]
  apply look_none
  intro e hm
  rcases List.mem_append.mp hm with hm | hm
  · have := hc.low e hm; omega
  · have := hgt e hm; omega

end HS.Prefix
