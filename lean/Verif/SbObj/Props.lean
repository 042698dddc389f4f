import Verif.SbObj.Spec
import Verif.MetaCheck.Lemmas

/-!
# Properties of superblock objects: C121
-/
namespace HS.SbObj
open HS.Meta
open HS.MetaCheck (bids_nodup mem_bid_inj)

theorem OReach.reach {c : Cfg} {p : Par} {ssb : Nat} {strict : Prop} {s : St} {d : Disk} {es : List Entry}
    {o : Nat → Obj} {e : Stored} (h : OReach c p ssb strict s d es o e) : Reach c ssb (.run s d es) := by
  induction h with
  | boot d0 nm t x b sp ws s ho hp ht => exact Reach.boot d0 t x b sp ws s ho hp
  | quiet _ _ _ _ _ ih => exact ih
  | call _ cmd op ws hs ho hp ih => exact Reach.op ih op ws _ ho hp
  | restart h hr nm => exact Reach.restart h hr

theorem reach_nodup {c : Cfg} (hc : c.Ok) {ssb : Nat} {s : St} {d : Disk} {es : List Entry}
    (h : Reach c ssb (.run s d es)) : (es.map Entry.bid).Nodup := by
  obtain ⟨-, L, hi, rfl⟩ := reach_good hc h
  exact bids_nodup (List.nodup_cons.1 hi.nd).2

/-- What holds in every execution: an object has the record that is expected, and no other object has
it. -/
structure OInv (es : List Entry) (o : Nat → Obj) (e : Stored) : Prop where
  own : ∀ i b, (o i).cookie = some b → ∃ r ∈ es, r.bid = b ∧ e i = some (r.typ, r.content)
  none : ∀ i, (o i).cookie = none → e i = none
  inj : ∀ i j b, (o i).cookie = some b → (o j).cookie = some b → i = j

/-- Every record has an object. -/
def Owned (es : List Entry) (o : Nat → Obj) : Prop := ∀ r ∈ es, ∃ i, (o i).cookie = some r.bid

@[simp] theorem fset_eq {β : Type} (f : Nat → β) (k : Nat) (v : β) : fset f k v k = v := by simp [fset]
theorem fset_ne {β : Type} (f : Nat → β) {k x : Nat} (v : β) (h : x ≠ k) : fset f k v x = f x := by simp [fset, h]

/-- Setting the buffer of an object. -/
theorem OInv.setBuf {es : List Entry} {o : Nat → Obj} {e : Stored} (h : OInv es o e) (i : Nat)
    (x : Option (List Byte)) : OInv es (fset o i { o i with buf := x }) e := by
  have hk : ∀ j, (fset o i { o i with buf := x } j).cookie = (o j).cookie := by
    intro j
    by_cases hj : j = i
    · subst hj; simp
    · rw [fset_ne _ _ hj]
  refine ⟨?_, ?_, ?_⟩
  · intro j b; rw [hk]; exact h.own j b
  · intro j; rw [hk]; exact h.none j
  · intro j k b; rw [hk, hk]; exact h.inj j k b

theorem owned_setBuf {es : List Entry} {o : Nat → Obj} (h : Owned es o) (i : Nat) (x : Option (List Byte)) :
    Owned es (fset o i { o i with buf := x }) := by
  intro r hr
  obtain ⟨j, hj⟩ := h r hr
  refine ⟨j, ?_⟩
  by_cases hji : j = i
  · subst hji; simpa using hj
  · rw [fset_ne _ _ hji]; exact hj

theorem mkBuf_some {c : Cfg} {p : Par} {o o' : Nat → Obj} {i n : Nat} {x : List Byte} {q : Option Op}
    (h : mkBuf c p o i n x = some (q, o')) : q = none ∧ o' = fset o i { o i with buf := some x } := by
  unfold mkBuf at h
  split at h
  · cases h
  · simp only [Option.some.injEq, Prod.mk.injEq] at h
    exact ⟨h.1.symm, h.2.symm⟩

/-- A call that makes no operation. -/
theorem quiet_ok {c : Cfg} {p : Par} {es : List Entry} {o o' : Nat → Obj} {e : Stored} (h : OInv es o e)
    {cmd : Cmd} (hs : step c p o cmd = some (none, o')) : OInv es o' (expect e o cmd) ∧
      ((∀ i j, cmd = .move i j → i ≠ j → (o j).cookie = none) → Owned es o → Owned es o') := by
  cases cmd with
  | create i n x =>
    obtain ⟨-, rfl⟩ := mkBuf_some hs
    exact ⟨h.setBuf i _, fun _ hw => owned_setBuf hw i _⟩
  | resize i n x =>
    simp only [step] at hs
    cases hb : (o i).buf with
    | none => rw [hb] at hs; cases hs
    | some y =>
      rw [hb] at hs
      obtain ⟨-, rfl⟩ := mkBuf_some hs
      exact ⟨h.setBuf i _, fun _ hw => owned_setBuf hw i _⟩
  | edit i x =>
    simp only [step] at hs
    cases hb : (o i).buf with
    | none => rw [hb] at hs; cases hs
    | some y =>
      rw [hb] at hs
      simp only [Option.some.injEq, Prod.mk.injEq, true_and] at hs
      subst hs
      exact ⟨h.setBuf i _, fun _ hw => owned_setBuf hw i _⟩
  | write i b sp =>
    exfalso
    simp only [step] at hs
    split at hs
    · cases hs
    · split at hs
      · simp at hs
      · split at hs
        · cases hs
        · split at hs <;> simp at hs
  | destroy i =>
    simp only [step] at hs
    cases hk : (o i).cookie with
    | some k => rw [hk] at hs; simp at hs
    | none =>
      rw [hk] at hs
      simp only [Option.some.injEq, Prod.mk.injEq, true_and] at hs
      subst hs
      refine ⟨?_, fun _ hw => ?_⟩
      · have e1 : fset e i none = e := by
          funext j
          by_cases hj : j = i
          · subst hj; simp [h.none j hk]
          · rw [fset_ne _ _ hj]
        simp only [expect, e1]
        have := h.setBuf i none
        simpa [hk] using this
      · have := owned_setBuf hw i none
        simpa [hk] using this
  | move i j =>
    simp only [step] at hs
    by_cases hij : i = j
    · simp only [hij, if_true, Option.some.injEq, Prod.mk.injEq, true_and] at hs
      subst hs
      simp only [expect, hij, if_true]
      exact ⟨h, fun _ hw => hw⟩
    · simp only [hij, if_false, Option.some.injEq, Prod.mk.injEq, true_and] at hs
      subst hs
      have hji : j ≠ i := fun hx => hij hx.symm
      -- the object at `x` afterwards
      have hi' : fset (fset o j (o i)) i { name := none, cookie := none, buf := none } i
          = { name := none, cookie := none, buf := none } := by simp
      have hj' : fset (fset o j (o i)) i { name := none, cookie := none, buf := none } j = o i := by
        rw [fset_ne _ _ hji]; simp
      have hx' : ∀ x, x ≠ i → x ≠ j → fset (fset o j (o i)) i { name := none, cookie := none, buf := none } x = o x := by
        intro x h1 h2
        rw [fset_ne _ _ h1, fset_ne _ _ h2]
      have ei : fset (fset e j (e i)) i none i = none := by simp
      have ej : fset (fset e j (e i)) i none j = e i := by rw [fset_ne _ _ hji]; simp
      have ex : ∀ x, x ≠ i → x ≠ j → fset (fset e j (e i)) i none x = e x := by
        intro x h1 h2
        rw [fset_ne _ _ h1, fset_ne _ _ h2]
      -- whose cookie it was
      have hsrc : ∀ x b, (fset (fset o j (o i)) i { name := none, cookie := none, buf := none } x).cookie = some b →
          ∃ y, (o y).cookie = some b ∧ fset (fset e j (e i)) i none x = e y ∧
            ((x = j ∧ y = i) ∨ (x ≠ j ∧ x ≠ i ∧ y = x)) := by
        intro x b hxb
        by_cases h1 : x = i
        · subst h1; rw [hi'] at hxb; cases hxb
        · by_cases h2 : x = j
          · subst h2; rw [hj'] at hxb; exact ⟨i, hxb, ej, Or.inl ⟨rfl, rfl⟩⟩
          · rw [hx' x h1 h2] at hxb; exact ⟨x, hxb, ex x h1 h2, Or.inr ⟨h2, h1, rfl⟩⟩
      simp only [expect, hij, if_false]
      refine ⟨⟨?_, ?_, ?_⟩, ?_⟩
      · intro x b hxb
        obtain ⟨y, hy, hey, -⟩ := hsrc x b hxb
        obtain ⟨r, hr, h1, h2⟩ := h.own y b hy
        exact ⟨r, hr, h1, hey.trans h2⟩
      · intro x hxb
        by_cases h1 : x = i
        · subst h1; exact ei
        · by_cases h2 : x = j
          · subst h2; rw [hj'] at hxb; rw [ej]; exact h.none i hxb
          · rw [hx' x h1 h2] at hxb; rw [ex x h1 h2]; exact h.none x hxb
      · intro x y b hxb hyb
        obtain ⟨x', hx1, -, hx2⟩ := hsrc x b hxb
        obtain ⟨y', hy1, -, hy2⟩ := hsrc y b hyb
        have := h.inj x' y' b hx1 hy1
        subst this
        rcases hx2 with ⟨rfl, rfl⟩ | ⟨h1, h2, rfl⟩
        · rcases hy2 with ⟨rfl, -⟩ | ⟨-, h4, h5⟩
          · rfl
          · exact absurd h5.symm h4
        · rcases hy2 with ⟨rfl, h5⟩ | ⟨-, -, h5⟩
          · exact absurd h5 h2
          · exact h5
      · intro hm hw r hr
        obtain ⟨y, hy⟩ := hw r hr
        have hyj : y ≠ j := by
          rintro rfl
          rw [hm i y rfl hij] at hy
          cases hy
        by_cases h1 : y = i
        · subst h1; exact ⟨j, by rw [hj']; exact hy⟩
        · exact ⟨y, by rw [hx' y h1 hyj]; exact hy⟩

/-- A call that makes an operation. -/
theorem call_ok {c : Cfg} {p : Par} {es : List Entry} {o o' : Nat → Obj} {e : Stored} (h : OInv es o e)
    {cmd : Cmd} {op : Op} (hs : step c p o cmd = some (some op, o')) (nd : (es.map Entry.bid).Nodup)
    (nd' : ((specOp op es).map Entry.bid).Nodup) : OInv (specOp op es) o' (expect e o cmd) ∧
      (Owned es o → Owned (specOp op es) o') := by
  cases cmd with
  | create i n x => obtain ⟨h1, -⟩ := mkBuf_some hs; cases h1
  | resize i n x =>
    simp only [step] at hs
    cases hb : (o i).buf with
    | none => rw [hb] at hs; cases hs
    | some y => rw [hb] at hs; obtain ⟨h1, -⟩ := mkBuf_some hs; cases h1
  | edit i x =>
    simp only [step] at hs
    cases hb : (o i).buf with
    | none => rw [hb] at hs; cases hs
    | some y => rw [hb] at hs; simp at hs
  | move i j =>
    simp only [step] at hs
    split at hs <;> simp at hs
  | write i b sp =>
    simp only [step] at hs
    cases hb : (o i).buf with
    | none => rw [hb] at hs; cases hs
    | some x =>
      simp only [hb] at hs
      cases hk : (o i).cookie with
      | some k =>
        simp only [hk, Option.some.injEq, Prod.mk.injEq] at hs
        obtain ⟨rfl, rfl⟩ := hs
        obtain ⟨r, hr, hrk, her⟩ := h.own i k hk
        have e1 : expect e o (.write i b sp) = fset e i (some (r.typ, x)) := by
          simp [expect, her, hb]
        rw [e1]
        have hin : ∀ q ∈ es, (if q.bid = k then { q with content := x } else q) ∈ specOp (.upd k x sp) es :=
          fun q hq => List.mem_map.2 ⟨q, hq, rfl⟩
        refine ⟨⟨?_, ?_, ?_⟩, ?_⟩
        · intro j b' hj
          by_cases hji : j = i
          · subst hji
            have hbk : b' = k := Option.some.inj (hj.symm.trans hk)
            subst hbk
            refine ⟨_, hin r hr, ?_, ?_⟩
            · rw [if_pos hrk]; exact hrk
            · rw [if_pos hrk]; simp
          · obtain ⟨q, hq, hqb, heq⟩ := h.own j b' hj
            have hne : q.bid ≠ k := by
              intro hqk
              exact hji (h.inj j i k (by rw [hj, ← hqb, hqk]) hk)
            refine ⟨q, ?_, hqb, ?_⟩
            · have := hin q hq
              rwa [if_neg hne] at this
            · rw [fset_ne _ _ hji]; exact heq
        · intro j hj
          have hji : j ≠ i := by rintro rfl; rw [hk] at hj; cases hj
          rw [fset_ne _ _ hji]; exact h.none j hj
        · exact h.inj
        · intro hw q hq
          obtain ⟨q', hq', rfl⟩ := List.mem_map.1 hq
          obtain ⟨j, hj⟩ := hw q' hq'
          refine ⟨j, ?_⟩
          rw [hj]
          split <;> rfl
      | none =>
        simp only [hk] at hs
        cases ht : (o i).name with
        | none => simp [ht] at hs
        | some t =>
          simp only [ht] at hs
          by_cases hreg : t ∈ p.regs
          · simp only [hreg, if_true, Option.some.injEq, Prod.mk.injEq] at hs
            obtain ⟨rfl, rfl⟩ := hs
            have e1 : expect e o (.write i b sp) = fset e i (some (t, x)) := by
              simp [expect, h.none i hk, hb, ht]
            rw [e1]
            have hfresh : ∀ q ∈ es, q.bid ≠ b := by
              intro q hq hqb
              simp only [specOp, List.map_append, List.map_cons, List.map_nil] at nd'
              rw [List.nodup_append] at nd'
              exact nd'.2.2 q.bid (List.mem_map.2 ⟨q, hq, rfl⟩) b (by simp) hqb
            have hck : ∀ j, j ≠ i → (fset o i { name := some t, cookie := some b, buf := some x } j).cookie = (o j).cookie := by
              intro j hji; rw [fset_ne _ _ hji]
            have hold : ∀ j, (o j).cookie ≠ some b := by
              intro j hj
              obtain ⟨q, hq, hqb, -⟩ := h.own j b hj
              exact hfresh q hq hqb
            refine ⟨⟨?_, ?_, ?_⟩, ?_⟩
            · intro j b' hj
              by_cases hji : j = i
              · subst hji
                simp only [fset_eq, Option.some.injEq] at hj
                subst hj
                exact ⟨⟨b, t, x⟩, by simp [specOp], rfl, by simp⟩
              · rw [hck j hji] at hj
                obtain ⟨q, hq, hqb, heq⟩ := h.own j b' hj
                exact ⟨q, by simp [specOp, hq], hqb, by rw [fset_ne _ _ hji]; exact heq⟩
            · intro j hj
              by_cases hji : j = i
              · subst hji; simp at hj
              · rw [hck j hji] at hj
                rw [fset_ne _ _ hji]; exact h.none j hj
            · intro j k b' hj hk'
              by_cases hji : j = i
              · by_cases hki : k = i
                · rw [hji, hki]
                · rw [hck k hki] at hk'
                  subst hji
                  simp only [fset_eq, Option.some.injEq] at hj
                  subst hj
                  exact absurd hk' (hold k)
              · rw [hck j hji] at hj
                by_cases hki : k = i
                · subst hki
                  simp only [fset_eq, Option.some.injEq] at hk'
                  subst hk'
                  exact absurd hj (hold j)
                · rw [hck k hki] at hk'
                  exact h.inj j k b' hj hk'
            · intro hw q hq
              simp only [specOp, List.mem_append, List.mem_singleton] at hq
              rcases hq with hq | rfl
              · obtain ⟨j, hj⟩ := hw q hq
                have hji : j ≠ i := by rintro rfl; rw [hk] at hj; cases hj
                exact ⟨j, by rw [hck j hji]; exact hj⟩
              · exact ⟨i, by simp⟩
          · simp [hreg] at hs
  | destroy i =>
    simp only [step] at hs
    cases hk : (o i).cookie with
    | none => rw [hk] at hs; simp at hs
    | some k =>
      simp only [hk, Option.some.injEq, Prod.mk.injEq] at hs
      obtain ⟨rfl, rfl⟩ := hs
      have hck : ∀ j, j ≠ i → (fset o i { o i with cookie := none, buf := none } j).cookie = (o j).cookie := by
        intro j hji; rw [fset_ne _ _ hji]
      have hin : ∀ q ∈ es, q.bid ≠ k → q ∈ specOp (.rem k) es := by
        intro q hq hne
        simp only [specOp, List.mem_filter, decide_eq_true_eq]
        exact ⟨hq, hne⟩
      have hcase : ∀ j b, (fset o i { o i with cookie := none, buf := none } j).cookie = some b →
          j ≠ i ∧ (o j).cookie = some b := by
        intro j b hj
        by_cases hji : j = i
        · subst hji; simp at hj
        · rw [hck j hji] at hj; exact ⟨hji, hj⟩
      simp only [expect]
      refine ⟨⟨?_, ?_, ?_⟩, ?_⟩
      · intro j b hj
        obtain ⟨hji, hj⟩ := hcase j b hj
        obtain ⟨q, hq, hqb, heq⟩ := h.own j b hj
        have hne : q.bid ≠ k := by
          intro hqk
          exact hji (h.inj j i k (by rw [hj, ← hqb, hqk]) hk)
        exact ⟨q, hin q hq hne, hqb, by rw [fset_ne _ _ hji]; exact heq⟩
      · intro j hj
        by_cases hji : j = i
        · subst hji; simp
        · rw [hck j hji] at hj
          rw [fset_ne _ _ hji]; exact h.none j hj
      · intro j l b hj hl
        exact h.inj j l b (hcase j b hj).2 (hcase l b hl).2
      · intro hw q hq
        simp only [specOp, List.mem_filter, decide_eq_true_eq] at hq
        obtain ⟨j, hj⟩ := hw q hq.1
        have hji : j ≠ i := by
          rintro rfl
          rw [hk] at hj
          exact hq.2 (Option.some.inj hj).symm
        exact ⟨j, by rw [hck j hji]; exact hj⟩

theorem loaded_ok (nm : Nat → Nat) {es : List Entry} (nd : (es.map Entry.bid).Nodup) :
    OInv es (loaded nm es) (fun i => es[i]?.map (fun e => (e.typ, e.content))) ∧ Owned es (loaded nm es) := by
  have hc : ∀ i b, (loaded nm es i).cookie = some b → ∃ r, es[i]? = some r ∧ r.bid = b := by
    intro i b h
    unfold loaded at h
    cases he : es[i]? with
    | none => simp [he] at h
    | some r => simp only [he, Option.some.injEq] at h; exact ⟨r, rfl, h⟩
  refine ⟨⟨?_, ?_, ?_⟩, ?_⟩
  · intro i b h
    obtain ⟨r, h1, h2⟩ := hc i b h
    exact ⟨r, List.mem_of_getElem? h1, h2, by simp [h1]⟩
  · intro i h
    unfold loaded at h
    cases he : es[i]? with
    | none => simp
    | some r => simp [he] at h
  · intro i j b hi hj
    obtain ⟨r, h1, h2⟩ := hc i b hi
    obtain ⟨q, h3, h4⟩ := hc j b hj
    have a1 : (es.map Entry.bid)[i]? = some b := by simp [h1, h2]
    have a2 : (es.map Entry.bid)[j]? = some b := by simp [h3, h4]
    have hlt : i < (es.map Entry.bid).length := by
      rcases Nat.lt_or_ge i (es.map Entry.bid).length with h | h
      · exact h
      · rw [List.getElem?_eq_none h] at a1; cases a1
    exact (List.getElem?_inj hlt nd).1 (a1.trans a2.symm)
  · intro r hr
    obtain ⟨i, hi⟩ := List.getElem?_of_mem hr
    exact ⟨i, by simp [loaded, hi]⟩

theorem OReach.inv {c : Cfg} (hc : c.Ok) {p : Par} {ssb : Nat} {strict : Prop} {s : St} {d : Disk}
    {es : List Entry} {o : Nat → Obj} {e : Stored} (h : OReach c p ssb strict s d es o e) :
    OInv es o e ∧ (strict → Owned es o) := by
  induction h with
  | boot d0 nm t x b sp ws s ho hp ht =>
    have := loaded_ok nm (es := [⟨b, t, x⟩]) (by simp)
    have e1 : (fun i => ([⟨b, t, x⟩] : List Entry)[i]?.map (fun e => (e.typ, e.content)))
        = fset (fun _ => none) 0 (some (t, x)) := by
      funext i
      cases i with
      | zero => simp
      | succ i => simp [fset]
    rw [e1] at this
    exact ⟨this.1, fun _ => this.2⟩
  | quiet h cmd hk hs hm ih =>
    obtain ⟨h1, h2⟩ := quiet_ok ih.1 hs
    exact ⟨h1, fun st => h2 (hm st) (ih.2 st)⟩
  | call h cmd op ws hs ho hp ih =>
    have r := h.reach
    obtain ⟨h1, h2⟩ := call_ok ih.1 hs (reach_nodup hc r) (reach_nodup hc (Reach.op r op ws _ ho hp))
    exact ⟨h1, fun st => h2 (ih.2 st)⟩
  | restart h hr nm =>
    have := loaded_ok nm (reach_nodup hc (Reach.restart h hr))
    exact ⟨this.1, fun _ => this.2⟩

/-! ## The theorems -/

/-- **C121, first part.** In every execution, whatever is created, changed, written, moved and destroyed,
with crashes and starts: something is expected to be stored for an object exactly if the object has a
record, and then the record has the type and the content that are expected; no two objects have the
same record. -/
theorem C121_stored {c : Cfg} (hc : c.Ok) {p : Par} {ssb : Nat} {strict : Prop} {s : St} {d : Disk}
    {es : List Entry} {o : Nat → Obj} {e : Stored} (h : OReach c p ssb strict s d es o e) :
    (∀ i v, e i = some v ↔ ∃ r ∈ es, (o i).cookie = some r.bid ∧ v = (r.typ, r.content)) ∧
    (∀ i j b, (o i).cookie = some b → (o j).cookie = some b → i = j) := by
  obtain ⟨hi, -⟩ := h.inv hc
  have nd := reach_nodup hc h.reach
  refine ⟨fun i v => ⟨fun hv => ?_, ?_⟩, hi.inj⟩
  · cases hk : (o i).cookie with
    | none => rw [hi.none i hk] at hv; cases hv
    | some b =>
      obtain ⟨r, hr, rfl, h2⟩ := hi.own i b hk
      exact ⟨r, hr, rfl, Option.some.inj (hv.symm.trans h2)⟩
  · rintro ⟨r, hr, hk, rfl⟩
    obtain ⟨q, hq, h1, h2⟩ := hi.own i r.bid hk
    rw [h2, mem_bid_inj nd hq hr h1]

/-- `l` lists what is expected for the objects, once for each object for which something is expected,
and nothing else. -/
def Holds (l : List (Nat × List Byte)) (e : Stored) : Prop :=
  ∃ ix : List Nat, ix.Nodup ∧ (∀ i, (e i).isSome = true ↔ i ∈ ix) ∧ ix.map e = l.map some

theorem holds_of {es : List Entry} {o : Nat → Obj} {e : Stored} (nd : (es.map Entry.bid).Nodup)
    (hi : OInv es o e) (hw : Owned es o) : Holds (es.map (fun r => (r.typ, r.content))) e := by
  classical
  have hex : ∀ r : Entry, ∃ i, r ∈ es → (o i).cookie = some r.bid := by
    intro r
    by_cases hr : r ∈ es
    · obtain ⟨i, hi⟩ := hw r hr; exact ⟨i, fun _ => hi⟩
    · exact ⟨0, fun hx => absurd hx hr⟩
  let f : Entry → Nat := fun r => (hex r).choose
  have hf : ∀ r ∈ es, (o (f r)).cookie = some r.bid := fun r hr => (hex r).choose_spec hr
  have hval : ∀ r ∈ es, e (f r) = some (r.typ, r.content) := by
    intro r hr
    obtain ⟨q, hq, h1, h2⟩ := hi.own _ _ (hf r hr)
    rw [h2, mem_bid_inj nd hq hr h1]
  refine ⟨es.map f, ?_, ?_, ?_⟩
  · have hes : es.Nodup := List.Nodup.of_map _ nd
    refine List.Nodup.map_on ?_ hes
    intro a ha b hb hab
    have h1 := hf a ha
    have h2 := hf b hb
    rw [hab, h2] at h1
    exact mem_bid_inj nd ha hb (Option.some.inj h1).symm
  · intro i
    constructor
    · intro hs
      cases hk : (o i).cookie with
      | none => rw [hi.none i hk] at hs; cases hs
      | some b =>
        obtain ⟨r, hr, rfl, -⟩ := hi.own i b hk
        exact List.mem_map.2 ⟨r, hr, hi.inj _ _ _ (hf r hr) hk⟩
    · intro hm
      obtain ⟨r, hr, rfl⟩ := List.mem_map.1 hm
      rw [hval r hr]; rfl
  · simp only [List.map_map]
    apply List.map_congr_left
    intro r hr
    simp [hval r hr]

/-- **C121, second part.** If no object is moved onto one that has a record, the store holds exactly what
is expected: one record for each object that was written and not destroyed, and no other.  A crash at
any time outside of operations, and a start, deliver exactly that. -/
theorem C121_exact_partial {c : Cfg} (hc : c.Ok) {p : Par} {ssb : Nat} {s : St} {d : Disk} {es : List Entry}
    {o : Nat → Obj} {e : Stored} (h : OReach c p ssb True s d es o e) :
    Holds (es.map (fun r => (r.typ, r.content))) e ∧
    ∃ s' rw, Restarts c ssb d (es, s', rw) := by
  obtain ⟨hi, hw⟩ := h.inv hc
  refine ⟨holds_of (reach_nodup hc h.reach) hi (hw trivial), ?_⟩
  obtain ⟨rfl, L, hL, rfl⟩ := reach_good hc h.reach
  obtain ⟨s', h1, -⟩ := restarts_of hc hL.ne hL.diskOk.weaken
  exact ⟨s', _, h1⟩

/-- **C121, third part.** If the machine crashes after any number `k` of the block writes of a call, the
next start delivers exactly what was expected before the call, or exactly what is expected after it:
never a part of a write, and never the record of another object changed. -/
theorem C121_crash_partial {c : Cfg} (hc : c.Ok) {p : Par} {ssb : Nat} {s s' : St} {d : Disk} {es : List Entry}
    {o o' : Nat → Obj} {e : Stored} (h : OReach c p ssb True s d es o e) {cmd : Cmd} {op : Op} {ws : List Write}
    (hs : step c p o cmd = some (some op, o')) (ho : OpOk c s es op) (hp : prog c s op = some (ws, s')) (k : Nat) :
    ∃ es' s'' rw, Restarts c ssb (exec d (ws.take k)) (es', s'', rw) ∧
      (Holds (es'.map (fun r => (r.typ, r.content))) e ∨
       Holds (es'.map (fun r => (r.typ, r.content))) (expect e o cmd)) := by
  obtain ⟨es', s'', rw, h1, h2, -⟩ := C20_crash_atomic_partial hc h.reach ho hp k
  refine ⟨es', s'', rw, h1, ?_⟩
  rcases h2 with rfl | rfl
  · exact Or.inl (C121_exact_partial hc h).1
  · exact Or.inr (C121_exact_partial hc (OReach.call h cmd op ws hs ho hp)).1

/-- **C121, fourth part.** A buffer has at least the size that was asked for and less than one alignment
more; asked for room for a `T` (with `create`, the default), the object gets its buffer, and nothing
ends the process. -/
theorem C121_create (c : Cfg) (p : Par) (ha : 0 < p.align) (o : Nat → Obj) (i n : Nat) (x : List Byte) :
    n ≤ bufSize c p n ∧ bufSize c p n < n + p.align ∧
    (p.sizeT ≤ n → ∃ o', step c p o (.create i n x) = some (none, o') ∧ (o' i).buf = some x ∧
      (o' i).cookie = (o i).cookie ∧ (o' i).name = (o i).name ∧ ∀ j, j ≠ i → o' j = o j) := by
  have h1 : n ≤ bufSize c p n ∧ bufSize c p n < n + p.align := by
    unfold bufSize
    split
    · omega
    · have := Nat.div_add_mod (n + p.align - 1) p.align
      have := Nat.mod_lt (n + p.align - 1) ha
      have := Nat.mul_comm p.align ((n + p.align - 1) / p.align)
      omega
  refine ⟨h1.1, h1.2, fun hT => ⟨fset o i { o i with buf := some x }, ?_, by simp, by simp, by simp, ?_⟩⟩
  · simp only [step, mkBuf]
    rw [if_neg (by omega)]
  · intro j hj
    exact fset_ne _ _ hj

example : bufSize ex ⟨[7, 8], 2, 2⟩ 11 = 12 := by decide

/-! ## Where it fails -/

/-- A record that no object has. -/
def Orphan (es : List Entry) (o : Nat → Obj) (r : Entry) : Prop := r ∈ es ∧ ∀ i, (o i).cookie ≠ some r.bid

/-- **C121 fails**: in every execution, an object that is moved onto one that has a record leaves that
record without an object: the assignment forgets the cookie of its target without removing the record. -/
theorem C121_move_violated {c : Cfg} (hc : c.Ok) {p : Par} {ssb : Nat} {strict : Prop} {s : St} {d : Disk}
    {es : List Entry} {o o' : Nat → Obj} {e : Stored} (h : OReach c p ssb strict s d es o e) {i j b : Nat}
    (hij : i ≠ j) (hj : (o j).cookie = some b) (hs : step c p o (.move i j) = some (none, o')) :
    ∃ r, r.bid = b ∧ Orphan es o' r := by
  obtain ⟨hi, -⟩ := h.inv hc
  obtain ⟨r, hr, hrb, -⟩ := hi.own j b hj
  simp only [step, hij, if_false, Option.some.injEq, Prod.mk.injEq, true_and] at hs
  subst hs
  refine ⟨r, hrb, hr, ?_⟩
  intro x hx
  by_cases h1 : x = i
  · subst h1; simp at hx
  · rw [fset_ne _ _ h1] at hx
    by_cases h2 : x = j
    · subst h2
      simp only [fset_eq] at hx
      exact hij (hi.inj i x b (by rw [hx, hrb]) hj)
    · rw [fset_ne _ _ h2] at hx
      exact h2 (hi.inj x j b (by rw [hx, hrb]) hj)

/-- … and no call ever changes it or removes it: it is there, with the same content, after every one. -/
theorem C121_orphan_stays {c : Cfg} (hc : c.Ok) {p : Par} {ssb : Nat} {strict : Prop} {s s' : St} {d : Disk}
    {es : List Entry} {o o' : Nat → Obj} {e : Stored} (h : OReach c p ssb strict s d es o e) {r : Entry}
    (hr : Orphan es o r) {cmd : Cmd} :
    (step c p o cmd = some (none, o') → Orphan es o' r) ∧
    (∀ op ws, step c p o cmd = some (some op, o') → OpOk c s es op → prog c s op = some (ws, s') →
      Orphan (specOp op es) o' r) := by
  obtain ⟨hr1, hr2⟩ := hr
  have hset : ∀ i (q : Obj), q.cookie ≠ some r.bid → ∀ x, (fset o i q x).cookie ≠ some r.bid := by
    intro i q hq x
    by_cases hx : x = i
    · subst hx; simpa using hq
    · rw [fset_ne _ _ hx]; exact hr2 x
  constructor
  · intro hs
    refine ⟨hr1, ?_⟩
    cases cmd with
    | create i n x => obtain ⟨-, rfl⟩ := mkBuf_some hs; exact hset _ _ (hr2 i)
    | resize i n x =>
      simp only [step] at hs
      cases hb : (o i).buf with
      | none => rw [hb] at hs; cases hs
      | some y => rw [hb] at hs; obtain ⟨-, rfl⟩ := mkBuf_some hs; exact hset _ _ (hr2 i)
    | edit i x =>
      simp only [step] at hs
      cases hb : (o i).buf with
      | none => rw [hb] at hs; cases hs
      | some y =>
        rw [hb] at hs
        simp only [Option.some.injEq, Prod.mk.injEq, true_and] at hs
        subst hs; exact hset _ _ (hr2 i)
    | write i b sp =>
      exfalso
      simp only [step] at hs
      split at hs
      · cases hs
      · split at hs
        · simp at hs
        · split at hs
          · cases hs
          · split at hs <;> simp at hs
    | destroy i =>
      simp only [step] at hs
      cases hk : (o i).cookie with
      | some k => rw [hk] at hs; simp at hs
      | none =>
        rw [hk] at hs
        simp only [Option.some.injEq, Prod.mk.injEq, true_and] at hs
        subst hs; exact hset _ _ (by simp)
    | move i j =>
      simp only [step] at hs
      by_cases hij : i = j
      · simp only [hij, if_true, Option.some.injEq, Prod.mk.injEq, true_and] at hs
        subst hs; exact hr2
      · simp only [hij, if_false, Option.some.injEq, Prod.mk.injEq, true_and] at hs
        subst hs
        intro x
        by_cases hx : x = i
        · subst hx; simp
        · rw [fset_ne _ _ hx]; exact hset j (o i) (hr2 i) x
  · intro op ws hs ho hp
    have nd' := reach_nodup hc (Reach.op h.reach op ws s' ho hp)
    cases cmd with
    | create i n x => obtain ⟨h1, -⟩ := mkBuf_some hs; cases h1
    | resize i n x =>
      simp only [step] at hs
      cases hb : (o i).buf with
      | none => rw [hb] at hs; cases hs
      | some y => rw [hb] at hs; obtain ⟨h1, -⟩ := mkBuf_some hs; cases h1
    | edit i x =>
      simp only [step] at hs
      cases hb : (o i).buf with
      | none => rw [hb] at hs; cases hs
      | some y => rw [hb] at hs; simp at hs
    | move i j =>
      simp only [step] at hs
      split at hs <;> simp at hs
    | write i b sp =>
      simp only [step] at hs
      cases hb : (o i).buf with
      | none => rw [hb] at hs; cases hs
      | some x =>
        simp only [hb] at hs
        cases hk : (o i).cookie with
        | some k =>
          simp only [hk, Option.some.injEq, Prod.mk.injEq] at hs
          obtain ⟨rfl, rfl⟩ := hs
          refine ⟨?_, hr2⟩
          have hne : r.bid ≠ k := by rintro rfl; exact hr2 i hk
          exact List.mem_map.2 ⟨r, hr1, by rw [if_neg hne]⟩
        | none =>
          simp only [hk] at hs
          cases ht : (o i).name with
          | none => simp [ht] at hs
          | some t =>
            simp only [ht] at hs
            by_cases hreg : t ∈ p.regs
            · simp only [hreg, if_true, Option.some.injEq, Prod.mk.injEq] at hs
              obtain ⟨rfl, rfl⟩ := hs
              refine ⟨by simp [specOp, hr1], hset _ _ ?_⟩
              intro hx
              have hx : b = r.bid := by simpa using hx
              simp only [specOp, List.map_append, List.map_cons, List.map_nil] at nd'
              rw [List.nodup_append] at nd'
              exact nd'.2.2 r.bid (List.mem_map.2 ⟨r, hr1, rfl⟩) b (by simp) hx.symm
            · simp [hreg] at hs
    | destroy i =>
      simp only [step] at hs
      cases hk : (o i).cookie with
      | none => rw [hk] at hs; simp at hs
      | some k =>
        simp only [hk, Option.some.injEq, Prod.mk.injEq] at hs
        obtain ⟨rfl, rfl⟩ := hs
        have hne : r.bid ≠ k := by rintro rfl; exact hr2 i hk
        refine ⟨?_, hset _ _ (by simp)⟩
        simp only [specOp, List.mem_filter, decide_eq_true_eq]
        exact ⟨hr1, hne⟩

/-- **C121 fails** for `json_superblk` (134-202), which, other than `superblk`, can be copied: once one of
two copies is destroyed, both a write and a destruction of the other end the process (the cookie is
that of a record that is gone). -/
theorem C121_copy_violated {c : Cfg} {s s' : St} {b : Nat} {ws : List Write}
    (hp : prog c s (.rem b) = some (ws, s')) :
    prog c s' (.rem b) = none ∧ ∀ x sp, prog c s' (.upd b x sp) = none := by
  have hg : s'.cache b = none := by
    simp only [prog, remOp] at hp
    split at hp
    · cases hp
    · split at hp
      · cases hp
      · split at hp
        · cases hp
        · split at hp
          · cases hp
          · simp only [Option.some.injEq, Prod.mk.injEq] at hp
            obtain ⟨-, rfl⟩ := hp
            simp
  refine ⟨?_, fun x sp => ?_⟩
  · simp [prog, remOp, hg]
  · simp [prog, updOp, hg]

/-- **C121 fails**: an object constructed without a name gets one that nobody has registered; its first
write ends the process. -/
theorem C121_no_name_violated (c : Cfg) (p : Par) (o : Nat → Obj) (i t b : Nat) (x : List Byte) (sp : Space)
    (hn : (o i).name = some t) (ht : t ∉ p.regs) (hk : (o i).cookie = none) (hb : (o i).buf = some x) :
    step c p o (.write i b sp) = none := by
  simp [step, hn, ht, hk, hb]

/-- **C121 fails** for `json_superblk`: a write after the destruction does not fail, it stores a new record,
of the null value, for an object that was destroyed. -/
theorem C121_json_revived_violated (p : Par) (o : Obj) (t b : Nat) (sp : Space) (hn : o.name = some t)
    (ht : t ∈ p.regs) :
    jWrite p (jDestroy o).2 b sp = some (.add t [0xc0] b sp, { name := o.name, cookie := some b, buf := none }) := by
  simp [jWrite, jDestroy, hn, ht]

/-- **C121 fails** for `json_superblk`: the object that a start makes for the configuration of a Raft group
has no name of its own (raft_repl_service.cpp:308 constructs it without one, which gives it a fresh name
that nobody registers): after its destruction the same write ends the process. -/
theorem C121_json_unnamed_violated (p : Par) (o : Obj) (t b : Nat) (sp : Space) (hn : o.name = some t)
    (ht : t ∉ p.regs) : jWrite p (jDestroy o).2 b sp = none ∧ (∀ k, o.cookie = some k → jWrite p o b sp ≠ none) := by
  refine ⟨by simp [jWrite, jDestroy, hn, ht], ?_⟩
  intro k hk
  simp [jWrite, hk]

/-! ## Concrete cases -/

/-- `C121_json_revived_violated` and `C121_json_unnamed_violated` on an object with a record. -/
example : (jDestroy ⟨some 7, some 2, some [9, 9]⟩).1.isSome = true ∧
    (jWrite ⟨[7, 8], 2, 2⟩ (jDestroy ⟨some 7, some 2, some [9, 9]⟩).2 5 ⟨[], []⟩).isSome = true ∧
    (jWrite ⟨[7, 8], 2, 2⟩ ⟨some 9, some 2, some [9, 9]⟩ 5 ⟨[], []⟩).isSome = true ∧
    (jWrite ⟨[7, 8], 2, 2⟩ (jDestroy ⟨some 9, some 2, some [9, 9]⟩).2 5 ⟨[], []⟩).isSome = false := by decide

def exP : Par := { regs := [7, 8], sizeT := 2, align := 2 }
/-- The objects after the first is written: all others have the name 8. -/
def exO1 : Nat → Obj := loaded (fun _ => 8) [⟨2, 7, [9, 9]⟩]
def exE1 : Stored := fset (fun _ => none) 0 (some (7, [9, 9]))
def exD1 : Disk := exec (exec (fun _ => .junk) (format 1).1)
  (((prog ex (format 1).2 (.add 7 [9, 9] 2 ⟨[], []⟩)).map Prod.fst).getD [])

theorem ex_boot : OReach ex exP 1 True exS1 exD1 [⟨2, 7, [9, 9]⟩] exO1 exE1 :=
  OReach.boot (fun _ => .junk) (fun _ => 8) 7 [9, 9] 2 ⟨[], []⟩ _ _
    ⟨⟨by decide, by decide⟩, by intro h; exact absurd h (by decide)⟩ rfl (by decide)

/-- A second object gets a buffer of 11 bytes, which is rounded up to 12. -/
def exO2 : Nat → Obj := fset exO1 1 { exO1 1 with buf := some (exBytes ++ [0]) }

theorem ex_create : OReach ex exP 1 True exS1 exD1 [⟨2, 7, [9, 9]⟩] exO2 exE1 :=
  OReach.quiet ex_boot (.create 1 11 (exBytes ++ [0])) (by show _ = _; decide) rfl
    (by intro _ i j h; cases h)

/-- It is written: the hypotheses of `C121_crash_partial`. -/
example : ∃ o', step ex exP exO2 (.write 1 3 exSp) = some (some (.add 8 (exBytes ++ [0]) 3 exSp), o') ∧
    OpOk ex exS1 [⟨2, 7, [9, 9]⟩] (.add 8 (exBytes ++ [0]) 3 exSp) ∧
    ((prog ex exS1 (.add 8 (exBytes ++ [0]) 3 exSp)).map (fun r => r.1.length)) = some 10 := by
  refine ⟨_, rfl, ⟨⟨by decide, by decide +kernel⟩, ?_⟩, by decide +kernel⟩
  intro _
  exact ⟨by decide, by decide, Or.inr (by decide)⟩

/-- The second object is moved onto the first: the hypotheses of `C121_move_violated`, and the record of
the first has no object any more. -/
example : (exO2 0).cookie = some 2 ∧ (step ex exP exO2 (.move 1 0)).isSome = true ∧
    (step ex exP exO2 (.move 1 0)).map (fun r => ((r.2 0).cookie, (r.2 1).cookie)) = some (none, none) := by
  decide +kernel

/-- A removal that is possible, for `C121_copy_violated`. -/
example : (prog ex exS1 (.rem 2)).isSome = true := by decide +kernel

end HS.SbObj
