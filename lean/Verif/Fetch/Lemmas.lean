import Verif.Fetch.Spec
/-!
# Lemmas: reads and writes of ids, asking, answering, taking in
-/
namespace HS.Fetch
open HS.DataSvc

/-! ## Sizes -/

theorem bytesOf_sum (bs : Nat) (ps : List Piece) : bytesOf bs ps = (ps.map (·.n)).sum * bs := by
  induction ps with
  | nil => simp [bytesOf]
  | cons p ps ih =>
    simp only [bytesOf, List.map_cons, List.sum_cons] at ih ⊢
    rw [ih, Nat.add_mul]

theorem dataSize_eq {bs : Nat} {ps : List Piece} (h1 : (ps.map (·.n)).sum < 65536)
    (h2 : bytesOf bs ps < 4294967296) : dataSize bs ps = bytesOf bs ps := by
  rw [bytesOf_sum] at h2 ⊢
  unfold dataSize blkCount
  rw [Nat.mod_eq_of_lt h1, Nat.mod_eq_of_lt h2]

theorem readBytes_length (d : Dev) (pd off n : Nat) : (readBytes d pd off n).length = n := by
  simp [readBytes]

/-! ## Reads that a write leaves as they are -/

theorem readPiece_congr {bs : Nat} {tbl : Table} {d d' : Dev} {p : Piece} {a : Area}
    (ha : tbl p.chunk = some a) (hb : 0 < bs)
    (h : ∀ b i, p.blk ≤ b → b < p.blk + p.n → i < bs →
      content bs tbl d' p.chunk b i = content bs tbl d p.chunk b i) :
    readPiece bs tbl d' p (p.n * bs) = readPiece bs tbl d p (p.n * bs) := by
  simp only [readPiece, devOffset, ha, Option.map_some, Option.some.injEq, readBytes]
  apply List.map_congr_left
  intro j hj
  rw [List.mem_range] at hj
  have h1 : j / bs < p.n := by
    rw [Nat.div_lt_iff_lt_mul hb]; exact hj
  have h2 := h (p.blk + j / bs) (j % bs) (Nat.le_add_right _ _) (Nat.add_lt_add_left h1 _) (Nat.mod_lt _ hb)
  simp only [content, ha, Option.map_some, Option.some.injEq] at h2
  have h3 : a.start + (p.blk + j / bs) * bs + j % bs = p.blk * bs + a.start + j := by
    have := Nat.div_add_mod j bs
    rw [Nat.mul_comm] at this
    rw [Nat.add_mul]; omega
  rw [h3] at h2
  exact h2

theorem readLoop_congr {bs : Nat} {tbl : Table} {d d' : Dev} {ps : List Piece} (hb : 0 < bs)
    (hin : ∀ p ∈ ps, ∃ a, tbl p.chunk = some a ∧ (p.blk + p.n) * bs ≤ a.size)
    (h : ∀ p ∈ ps, ∀ b i, p.blk ≤ b → b < p.blk + p.n → i < bs →
      content bs tbl d' p.chunk b i = content bs tbl d p.chunk b i) :
    readLoop bs tbl d' ps = readLoop bs tbl d ps := by
  induction ps with
  | nil => rfl
  | cons p ps ih =>
    obtain ⟨a, ha, -⟩ := hin p (by simp)
    simp only [readLoop]
    rw [readPiece_congr ha hb (h p (by simp)),
      ih (fun q hq => hin q (List.mem_cons_of_mem _ hq)) (fun q hq => h q (List.mem_cons_of_mem _ hq))]

theorem asyncRead_frame {bs n : Nat} {tbl : Table} {ps qs : List Piece} {buf : Bytes} {d d' : Dev}
    {res : Bool} (hl : Layout tbl) (hb : 0 < bs) (hp : IdOk bs tbl ps) (hq : IdOk bs tbl qs)
    (hs : buf.length = bytesOf bs ps) (hn : n = bytesOf bs qs)
    (hap : ∀ p ∈ ps, ∀ q ∈ qs, Apart p q)
    (hc : Completes (asyncWrite bs tbl ps buf) d d' res) :
    asyncRead bs tbl d' qs n = asyncRead bs tbl d qs n := by
  rw [asyncRead_eq bs tbl d' qs n hn, asyncRead_eq bs tbl d qs n hn]
  apply readLoop_congr hb hq.inside
  intro q hqm b i h1 h2 h3
  obtain ⟨a, ha, hsz⟩ := hq.inside q hqm
  refine C47_write_frame hl hp hs hc ha ?_ h3 ?_
  · exact Nat.le_trans (Nat.mul_le_mul_right bs (by omega)) hsz
  · intro p hpm hh
    exact hap p hpm q hqm _ _ ⟨hh, rfl, h1, h2⟩

/-- A write of an id inside its chunks can complete. -/
theorem completes_exists {bs : Nat} {tbl : Table} {ps : List Piece} {buf : Bytes} (d : Dev)
    (hp : IdOk bs tbl ps) (hs : buf.length = bytesOf bs ps) :
    ∃ d', Completes (asyncWrite bs tbl ps buf) d d' true := by
  have hall : ∀ w ∈ asyncWrite bs tbl ps buf, w.isSome = true := by
    rw [asyncWrite_eq bs tbl ps buf hs]
    intro w hw
    rw [List.mem_map] at hw
    obtain ⟨x, hx, rfl⟩ := hw
    have ax := slices_len bs ps buf hs x hx
    obtain ⟨a, ha, -⟩ := hp.inside _ ax.1
    simp [writePiece, devOffset, ha]
  generalize asyncWrite bs tbl ps buf = ws at hall
  refine ⟨_, ws.map (fun _ => true), _, by simp, List.Perm.refl _, rfl, ?_⟩
  unfold collect
  symm
  rw [List.all_eq_true]
  intro b hb
  rw [List.mem_map] at hb
  obtain ⟨⟨w, t⟩, hx, rfl⟩ := hb
  have h1 := List.of_mem_zip hx
  have h2 : t = true := by
    have := h1.2; rw [List.mem_map] at this; obtain ⟨_, _, rfl⟩ := this; rfl
  simp [h2, hall w h1.1]

/-! ## Asking -/

/-- The requests that are asked for. -/
def wanted (reqs : Nat → Req) (r : Nat) : Bool :=
  (reqs r).st ≠ { err := true } && (reqs r).st ≠ { recv := true }

/-- What a batch weighs. -/
def weight (bs : Nat) (reqs : Nat → Req) (b : List Nat) : Nat :=
  (b.map fun r => dataSize bs (reqs r).rem).sum

theorem send_flatten {α : Type} (cur : List α) (out : List (List α)) :
    (send cur out).flatten = out.flatten ++ cur := by
  unfold send; split
  · simp_all
  · simp

/-- A batch as it should be. -/
def Fits (maxB bs : Nat) (reqs : Nat → Req) (b : List Nat) : Prop :=
  b ≠ [] ∧ (weight bs reqs b < maxB ∨ b.length = 1)

theorem send_fits {maxB bs : Nat} {reqs : Nat → Req} {cur : List Nat} {out : List (List Nat)}
    (h : ∀ b ∈ out, Fits maxB bs reqs b) (hc : weight bs reqs cur < maxB ∨ cur.length ≤ 1) :
    ∀ b ∈ send cur out, Fits maxB bs reqs b := by
  unfold send; split
  · exact h
  · rename_i hne
    intro b hb
    rcases List.mem_append.mp hb with hb | hb
    · exact h b hb
    · rw [List.mem_singleton] at hb; subst hb
      refine ⟨hne, hc.imp_right fun hl => ?_⟩
      have := List.length_pos_iff.mpr hne
      omega

theorem fetchLoop_spec {maxB bs : Nat} {reqs : Nat → Req} {orig : Nat} :
    ∀ (ids : List Nat) (tot : Nat) (cur : List Nat) (out : List (List Nat)),
    tot = weight bs reqs cur → (tot < maxB ∨ cur.length ≤ 1) → (∀ b ∈ out, Fits maxB bs reqs b) →
    (∀ r ∈ ids, wanted reqs r = true → (reqs r).server = orig) →
    ∃ res, fetchLoop maxB bs reqs orig ids tot cur out = some res ∧
      res.flatten = out.flatten ++ cur ++ ids.filter (wanted reqs) ∧ ∀ b ∈ res, Fits maxB bs reqs b := by
  intro ids
  induction ids with
  | nil =>
    intro tot cur out ht hc ho _
    refine ⟨_, rfl, by simp [send_flatten], send_fits ho (ht ▸ hc)⟩
  | cons r rs ih =>
    intro tot cur out ht hc ho hs
    have hs' : ∀ x ∈ rs, wanted reqs x = true → (reqs x).server = orig :=
      fun x hx => hs x (List.mem_cons_of_mem _ hx)
    unfold fetchLoop
    split
    · rename_i h1
      have hw : wanted reqs r = false := by simp [wanted, h1]
      rw [List.filter_cons_of_neg (by simp [hw])]
      exact ih tot cur out ht hc ho hs'
    · split
      · rename_i h1 h2
        have hw : wanted reqs r = false := by simp [wanted, h2]
        rw [List.filter_cons_of_neg (by simp [hw])]
        exact ih tot cur out ht hc ho hs'
      · rename_i h1 h2
        have hw : wanted reqs r = true := by simp [wanted, h1, h2]
        rw [if_neg (by simpa using hs r (by simp) hw), List.filter_cons_of_pos hw]
        split
        · obtain ⟨res, e, f, g⟩ := ih (dataSize bs (reqs r).rem) [r] (send cur out)
            (by simp [weight]) (Or.inr (by simp)) (send_fits ho (ht ▸ hc)) hs'
          exact ⟨res, e, by rw [f, send_flatten]; simp, g⟩
        · rename_i h3
          obtain ⟨res, e, f, g⟩ := ih (tot + dataSize bs (reqs r).rem) (cur ++ [r]) out
            (by simp [weight, ht]) (Or.inl (by omega)) ho hs'
          exact ⟨res, e, by rw [f]; simp, g⟩

theorem fetchLoop_none {maxB bs : Nat} {reqs : Nat → Req} {orig : Nat} :
    ∀ (ids : List Nat) (tot : Nat) (cur : List Nat) (out : List (List Nat)) (r : Nat),
    r ∈ ids → wanted reqs r = true → (reqs r).server ≠ orig →
    fetchLoop maxB bs reqs orig ids tot cur out = none := by
  intro ids
  induction ids with
  | nil => intro _ _ _ r hr; simp at hr
  | cons x xs ih =>
    intro tot cur out r hr hw hne
    rcases List.mem_cons.mp hr with rfl | hr
    · unfold fetchLoop
      simp only [wanted, ne_eq, decide_not, Bool.and_eq_true, Bool.not_eq_true',
        decide_eq_false_iff_not] at hw
      rw [if_neg hw.1, if_neg hw.2, if_pos hne]
    · unfold fetchLoop
      repeat' split
      all_goals first | rfl | exact ih _ _ _ r hr hw hne

/-! ## Answering -/

theorem readEntry_eq {bs : Nat} {tbl : Table} {d : Dev} {rem : List Piece} {v : Bytes}
    (h : dataSize bs rem = v.length) (hr : asyncRead bs tbl d rem v.length = some v) :
    readEntry bs tbl d rem = some v := by
  unfold readEntry
  rw [h, hr]
  simp

theorem serve_eq {bs : Nat} {tbl : Table} {devs : Nat → Dev} {fails : Nat → Bool} {val : Nat → Bytes}
    {rem : Nat → List Piece} : ∀ (ids : List Nat) (k : Nat),
    (∀ i r, ids[i]? = some r → fails (k + i) = false → dataSize bs (rem r) = (val r).length ∧
      asyncRead bs tbl (devs (k + i)) (rem r) (val r).length = some (val r)) →
    serve bs tbl devs fails k (ids.map rem) = none ∨
      serve bs tbl devs fails k (ids.map rem) = some (ids.flatMap val) := by
  intro ids
  induction ids with
  | nil => intro k _; right; rfl
  | cons r rs ih =>
    intro k h
    simp only [List.map_cons, serve]
    by_cases hf : fails k = true
    · left; simp [hf]
    · have hf : fails k = false := by simpa using hf
      have h0 := h 0 r rfl (by simpa using hf)
      rw [readEntry_eq h0.1 (by simpa using h0.2)]
      rcases ih (k + 1) (fun i x hi hx => by
        have := h (i + 1) x (by simpa using hi) (by rw [← hx]; congr 1; omega)
        rwa [show k + (i + 1) = k + 1 + i by omega] at this) with e | e
      · left; simp [hf, e]
      · right; simp [hf, e]

/-- The originator reads everything. -/
theorem serve_all {bs : Nat} {tbl : Table} {devs : Nat → Dev} {val : Nat → Bytes}
    {rem : Nat → List Piece} : ∀ (ids : List Nat) (k : Nat),
    (∀ i r, ids[i]? = some r → dataSize bs (rem r) = (val r).length ∧
      asyncRead bs tbl (devs (k + i)) (rem r) (val r).length = some (val r)) →
    serve bs tbl devs (fun _ => false) k (ids.map rem) = some (ids.flatMap val) := by
  intro ids
  induction ids with
  | nil => intro k _; rfl
  | cons r rs ih =>
    intro k h
    simp only [List.map_cons, serve]
    have h0 := h 0 r rfl
    rw [readEntry_eq h0.1 (by simpa using h0.2), ih (k + 1) (fun i x hi => by
      have := h (i + 1) x (by simpa using hi)
      rwa [show k + (i + 1) = k + 1 + i by omega] at this)]
    simp

/-! ## Messages -/

theorem rd4_le4 {n : Nat} (h : n < 4294967296) (x : Bytes) : rd4 (le4 n ++ x) = some n := by
  simp only [le4, List.cons_append, rd4, UInt8.toNat_ofNat', Option.some.injEq]
  omega

theorem onPush_msg {c : Cfg} {s : St} {r : Nat} {val : Nat → Bytes} {x : Bytes}
    (hd : ∀ h, c.dec (c.enc h) = some h) (he : (c.enc (r, (val r).length)).length < 4294967296) :
    onPush c s (le4 (c.enc (r, (val r).length)).length ++ c.enc (r, (val r).length) ++ x) =
      if x.length = (val r).length then save c.bs s r x else some s := by
  have h4 : ∀ n, (le4 n).length = 4 := fun _ => rfl
  unfold onPush
  generalize he' : c.enc (r, (val r).length) = e
  have hlt : e.length < 4294967296 := he' ▸ he
  rw [List.append_assoc, rd4_le4 hlt]
  simp only [List.length_append, h4]
  rw [if_neg (by omega)]
  have h1 : ((le4 e.length ++ (e ++ x)).drop 4).take e.length = e := by
    rw [List.drop_left' (h4 _), List.take_left]
  rw [h1, ← he', hd]
  simp only
  by_cases hx : x.length = (val r).length
  · rw [if_neg (by omega), if_pos hx]
    congr 1
    have : (le4 (c.enc (r, (val r).length)).length ++ (c.enc (r, (val r).length) ++ x)).drop
        ((c.enc (r, (val r).length)).length + 4) = x := by
      rw [← List.append_assoc]
      apply List.drop_left'
      simp [h4]; omega
    rw [this, ← hx, List.take_length]
  · rw [if_pos (by omega), if_neg hx]

end HS.Fetch
