import Verif.Fetch.Lemmas
/-!
# The invariant of C100
-/
namespace HS.Fetch
open HS.DataSvc

/-- Same requests, whatever their states. -/
def Same (a b : Nat → Req) : Prop :=
  ∀ r, (a r).server = (b r).server ∧ (a r).rem = (b r).rem ∧ (a r).loc = (b r).loc

structure Inv (c : Cfg) (val : Nat → Bytes) (s : St) : Prop where
  flyVal : ∀ r buf, (r, buf) ∈ s.fly →
    buf = val r ∧ (s.reqs r).st.recv = true ∧ (s.reqs r).st.written = false
  flyOnce : (s.fly.map (·.1)).Nodup
  done : ∀ r, (s.reqs r).st.written = true → (s.reqs r).st.recv = true ∧ Holds c val s r
  came : ∀ ids raw, (ids, raw) ∈ s.came → raw = [] ∨ raw = ids.flatMap val
  asked : ∀ b ∈ s.asked, ∃ srv, ∀ r ∈ b, (s.reqs r).server = srv
  going : ∀ r, (s.reqs r).st.recv = true → (s.reqs r).st.written = true ∨ (r, val r) ∈ s.fly

theorem Good.same {c : Cfg} {val : Nat → Bytes} {a b : Nat → Req} (g : Good c val a) (h : Same b a) :
    Good c val b where
  layout := g.layout
  loc r := (h r).2.2 ▸ g.loc r
  bs := g.bs
  nonempty := g.nonempty
  locSize r := (h r).2.2 ▸ g.locSize r
  remSize r := (h r).2.1 ▸ g.remSize r
  small := g.small
  count r := (h r).2.1 ▸ g.count r
  apart r r' hne := by rw [(h r).2.2, (h r').2.2]; exact g.apart r r' hne
  dec := g.dec

theorem Good.size {c : Cfg} {val : Nat → Bytes} {a : Nat → Req} (g : Good c val a) (r : Nat) :
    dataSize c.bs (a r).rem = (val r).length := by
  rw [dataSize_eq (g.count r) (by rw [g.remSize]; exact g.small r), g.remSize]

theorem inv_fresh {c : Cfg} {val : Nat → Bytes} {s : St} (h : Fresh s) : Inv c val s := by
  obtain ⟨h1, h2, h3, h4⟩ := h
  constructor
  · simp [h1]
  · simp [h1]
  · intro r hr; rw [(h4 r).2] at hr; cases hr
  · simp [h3]
  · simp [h2]
  · intro r hr; rw [(h4 r).1] at hr; cases hr

theorem setReq_same (s : St) (r : Nat) (f : Flags → Flags) : Same (s.setReq r f).reqs s.reqs := by
  intro x
  simp only [St.setReq]
  split
  · rename_i h; subst h; exact ⟨rfl, rfl, rfl⟩
  · exact ⟨rfl, rfl, rfl⟩

/-- Taking in the data of a request. -/
theorem save_inv {c : Cfg} {val : Nat → Bytes} {s : St} {r : Nat} (g : Good c val s.reqs)
    (i : Inv c val s) : ∃ s', save c.bs s r (val r) = some s' ∧ Inv c val s' ∧ Same s'.reqs s.reqs ∧
      (s'.reqs r).st.recv = true := by
  unfold save
  by_cases hr : (s.reqs r).st.recv = true
  · rw [if_pos hr]
    exact ⟨s, rfl, i, fun x => ⟨rfl, rfl, rfl⟩, hr⟩
  · rw [if_neg hr]
    have hov : overruns c.bs (s.reqs r).loc (val r) = false := by
      have := g.locSize r
      unfold bytesOf at this
      simp [overruns, this]
    rw [if_neg (by simp [hov])]
    refine ⟨_, rfl, ?_, setReq_same s r fun f => { f with recv := true }, by simp [St.setReq]⟩
    have hnf : ∀ buf, (r, buf) ∉ s.fly := fun buf hb => hr (i.flyVal r buf hb).2.1
    have hnw : (s.reqs r).st.written = false := by
      cases hw : (s.reqs r).st.written with
      | false => rfl
      | true => exact absurd (i.done r hw).1 hr
    constructor
    · intro x buf hx
      rcases List.mem_append.mp hx with hx | hx
      · have hne : x ≠ r := fun e => hnf buf (e ▸ hx)
        have := i.flyVal x buf hx
        simpa [St.setReq, hne] using this
      · simp only [List.mem_singleton, Prod.mk.injEq] at hx
        obtain ⟨rfl, rfl⟩ := hx
        simp [St.setReq, hnw]
    · simp only [List.map_append, List.map_cons, List.map_nil]
      rw [List.nodup_append]
      refine ⟨i.flyOnce, by simp, ?_⟩
      intro a ha b hb
      rw [List.mem_singleton] at hb; subst hb
      rintro rfl
      rw [List.mem_map] at ha
      obtain ⟨⟨y, buf⟩, hy, rfl⟩ := ha
      exact hnf buf hy
    · intro x hx
      by_cases he : x = r
      · subst he; simp [St.setReq, hnw] at hx
      · simp only [St.setReq, he, if_false] at hx
        have := i.done x hx
        simpa [Holds, St.setReq, he] using this
    · exact i.came
    · intro b hb
      obtain ⟨srv, h⟩ := i.asked b hb
      exact ⟨srv, fun x hx => by rw [(setReq_same s r _ x).1]; exact h x hx⟩
    · intro x hx
      by_cases he : x = r
      · subst he; right; simp
      · simp only [St.setReq, he, if_false] at hx ⊢
        rcases i.going x hx with h | h
        · exact Or.inl h
        · right; simp [h]

theorem Same.trans {a b d : Nat → Req} (h1 : Same a b) (h2 : Same b d) : Same a d :=
  fun r => ⟨(h1 r).1.trans (h2 r).1, (h1 r).2.1.trans (h2 r).2.1, (h1 r).2.2.trans (h2 r).2.2⟩

theorem save_recv {bs : Nat} {s s' : St} {r : Nat} {buf : Bytes} (h : save bs s r buf = some s')
    (x : Nat) (hx : (s.reqs x).st.recv = true) : (s'.reqs x).st.recv = true := by
  unfold save at h
  split at h
  · cases h; exact hx
  · split at h
    · cases h
    · cases h
      by_cases he : x = r
      · subst he; simp [St.setReq]
      · simp [St.setReq, he, hx]

theorem handleLoop_inv {c : Cfg} {val : Nat → Bytes} : ∀ (ids : List Nat) (s : St),
    Good c val s.reqs → Inv c val s → ∃ s', handleLoop c.bs ids (ids.flatMap val) s = some s' ∧
      Inv c val s' ∧ Same s'.reqs s.reqs ∧ (∀ r ∈ ids, (s'.reqs r).st.recv = true) ∧
      ∀ r, (s.reqs r).st.recv = true → (s'.reqs r).st.recv = true := by
  intro ids
  induction ids with
  | nil =>
    intro s g i
    exact ⟨s, rfl, i, fun _ => ⟨rfl, rfl, rfl⟩, by simp, fun _ h => h⟩
  | cons r rs ih =>
    intro s g i
    unfold handleLoop
    rw [g.size r]
    simp only [List.flatMap_cons, List.drop_left, List.take_left]
    by_cases hr : (s.reqs r).st.recv = true
    · rw [if_pos hr]
      obtain ⟨s', e, i', sm, a, b⟩ := ih s g i
      refine ⟨s', e, i', sm, ?_, b⟩
      intro x hx
      rcases List.mem_cons.mp hx with rfl | hx
      · exact b _ hr
      · exact a x hx
    · rw [if_neg hr, if_neg (by simp)]
      obtain ⟨s1, e1, i1, sm1, r1⟩ := save_inv (r := r) g i
      rw [e1]
      obtain ⟨s', e, i', sm, a, b⟩ := ih s1 (g.same sm1) i1
      refine ⟨s', e, i', sm.trans sm1, ?_, fun x hx => b x (save_recv e1 x hx)⟩
      intro x hx
      rcases List.mem_cons.mp hx with rfl | hx
      · exact b _ r1
      · exact a x hx

theorem handle_inv {c : Cfg} {val : Nat → Bytes} {s : St} {ids : List Nat} {raw : Bytes}
    (g : Good c val s.reqs) (i : Inv c val s) (h : raw = [] ∨ raw = ids.flatMap val) :
    ∃ s', handle c.bs ids raw s = some s' ∧ Inv c val s' ∧ Same s'.reqs s.reqs ∧
      (raw ≠ [] → ∀ r ∈ ids, (s'.reqs r).st.recv = true) := by
  unfold handle
  by_cases hr : raw = []
  · rw [if_pos hr]; exact ⟨s, rfl, i, fun _ => ⟨rfl, rfl, rfl⟩, fun h => absurd hr h⟩
  · rw [if_neg hr]
    obtain rfl := h.resolve_left hr
    obtain ⟨s', e, i', sm, a, -⟩ := handleLoop_inv ids s g i
    exact ⟨s', e, i', sm, fun _ => a⟩

theorem answer_val {c : Cfg} {val : Nat → Bytes} {s : St} {ids : List Nat} {k : Nat}
    {devs : Nat → Dev} {fails : Nat → Bool} (g : Good c val s.reqs) (i : Inv c val s)
    (hk : s.asked[k]? = some ids) (ho : Honest c val s (.serve k devs fails)) :
    answer c.bs (c.tblR (target s ids)) devs fails (ids.map fun r => (s.reqs r).rem) = [] ∨
    answer c.bs (c.tblR (target s ids)) devs fails (ids.map fun r => (s.reqs r).rem) =
      ids.flatMap val := by
  obtain ⟨srv, hs⟩ := i.asked ids (List.mem_of_getElem? hk)
  unfold answer
  rcases serve_eq (bs := c.bs) (tbl := c.tblR (target s ids)) (devs := devs) (fails := fails)
    (val := val) (rem := fun r => (s.reqs r).rem) ids 0 (by
      intro j r hj hf
      rw [Nat.zero_add] at hf ⊢
      refine ⟨g.size r, ?_⟩
      have hm := List.mem_of_getElem? hj
      have ht : target s ids = (s.reqs r).server := by
        rw [hs r hm]
        cases ids with
        | nil => simp at hm
        | cons x xs => exact hs x (by simp)
      rw [ht]
      exact ho ids hk j r hj hf) with e | e <;> rw [e]
  · left; rfl
  · right; rfl

theorem mem_eraseIdx {α : Type} {l : List α} {k : Nat} {x : α} (h : x ∈ l.eraseIdx k) : x ∈ l :=
  List.mem_of_mem_eraseIdx h

theorem nodup_erase {l : List (Nat × Bytes)} {k : Nat} (h : (l.map (·.1)).Nodup) :
    ((l.eraseIdx k).map (·.1)).Nodup :=
  h.sublist ((List.eraseIdx_sublist l k).map _)

theorem erased_gone {l : List (Nat × Bytes)} {k r : Nat} {buf : Bytes} (h : (l.map (·.1)).Nodup)
    (hk : l[k]? = some (r, buf)) : ∀ b, (r, b) ∉ l.eraseIdx k := by
  induction l generalizing k with
  | nil => simp
  | cons x xs ih =>
    rw [List.map_cons, List.nodup_cons] at h
    intro b hb
    cases k with
    | zero =>
      simp only [List.getElem?_cons_zero, Option.some.injEq] at hk
      subst hk
      exact h.1 (List.mem_map.mpr ⟨(r, b), by simpa using hb, rfl⟩)
    | succ k =>
      simp only [List.getElem?_cons_succ] at hk
      simp only [List.eraseIdx_cons_succ, List.mem_cons] at hb
      rcases hb with rfl | hb
      · exact h.1 (List.mem_map.mpr ⟨(r, buf), List.mem_of_getElem? hk, rfl⟩)
      · exact ih h.2 hk b hb

theorem erased_other {l : List (Nat × Bytes)} {k r x : Nat} {buf b : Bytes}
    (hk : l[k]? = some (r, buf)) (hne : x ≠ r) (hx : (x, b) ∈ l) : (x, b) ∈ l.eraseIdx k := by
  induction l generalizing k with
  | nil => simp at hx
  | cons y ys ih =>
    cases k with
    | zero =>
      simp only [List.getElem?_cons_zero, Option.some.injEq] at hk
      subst hk
      rcases List.mem_cons.mp hx with h | h
      · simp only [Prod.mk.injEq] at h; exact absurd h.1 hne
      · simpa using h
    | succ k =>
      simp only [List.getElem?_cons_succ] at hk
      simp only [List.eraseIdx_cons_succ, List.mem_cons]
      rcases List.mem_cons.mp hx with h | h
      · exact Or.inl h
      · exact Or.inr (ih hk h)

/-- No step of an honest run fails, and every one keeps the invariant. -/
theorem step_inv {c : Cfg} {val : Nat → Bytes} {s : St} {op : Op} {t : Option St}
    (g : Good c val s.reqs) (i : Inv c val s) (ho : Honest c val s op) (h : Step c s op t) :
    ∃ s', t = some s' ∧ Inv c val s' ∧ Same s'.reqs s.reqs := by
  cases h with
  | fetch ids hne =>
    obtain ⟨srv, hs⟩ := ho
    cases ids with
    | nil => exact absurd rfl hne
    | cons r rs =>
      have hr := hs r (by simp)
      obtain ⟨res, e, f, -⟩ := fetchLoop_spec (maxB := c.maxB) (bs := c.bs) (reqs := s.reqs)
        (orig := (s.reqs r).server) (r :: rs) 0 [] [] (by simp [weight]) (Or.inr (by simp)) (by simp)
        (fun x hx _ => by rw [hs x hx, hr])
      simp only [List.flatten_nil, List.nil_append] at f
      refine ⟨{ s with asked := s.asked ++ res }, by rw [checkAndFetch, e]; rfl, ?_, fun _ => ⟨rfl, rfl, rfl⟩⟩
      refine ⟨i.flyVal, i.flyOnce, i.done, i.came, ?_, i.going⟩
      intro b hb
      rcases List.mem_append.mp hb with hb | hb
      · exact i.asked b hb
      · refine ⟨srv, fun x hx => ?_⟩
        have : x ∈ res.flatten := List.mem_flatten.mpr ⟨b, hb, hx⟩
        rw [f] at this
        exact hs x (List.mem_filter.mp this).1
  | serve k devs fails ids hk =>
    refine ⟨_, rfl, ?_, fun _ => ⟨rfl, rfl, rfl⟩⟩
    refine ⟨i.flyVal, i.flyOnce, i.done, ?_, fun b hb => i.asked b (mem_eraseIdx hb), i.going⟩
    intro ids' raw hm
    rcases List.mem_append.mp hm with hm | hm
    · exact i.came ids' raw hm
    · simp only [List.mem_singleton, Prod.mk.injEq] at hm
      obtain ⟨rfl, rfl⟩ := hm
      exact answer_val g i hk ho
  | lose k =>
    exact ⟨_, rfl, ⟨i.flyVal, i.flyOnce, i.done, i.came, fun b hb => i.asked b (mem_eraseIdx hb),
      i.going⟩, fun _ => ⟨rfl, rfl, rfl⟩⟩
  | handle k ids raw hk =>
    have i' : Inv c val { s with came := s.came.eraseIdx k } :=
      ⟨i.flyVal, i.flyOnce, i.done, fun a b hb => i.came a b (mem_eraseIdx hb), i.asked, i.going⟩
    obtain ⟨s', e, j, sm, -⟩ := handle_inv (s := { s with came := s.came.eraseIdx k }) g i'
      (i.came ids raw (List.mem_of_getElem? hk))
    exact ⟨s', e, j, sm⟩
  | push msg =>
    obtain ⟨r, x, he, hx, rfl⟩ := ho
    rw [onPush_msg g.dec he]
    split
    · rename_i h
      rw [hx h]
      obtain ⟨s', e, j, sm, -⟩ := save_inv (r := r) g i
      exact ⟨s', e, j, sm⟩
    · exact ⟨s, rfl, i, fun _ => ⟨rfl, rfl, rfl⟩⟩
  | done k r buf d hk hc =>
    refine ⟨_, rfl, ?_, setReq_same s r fun f => { f with written := true }⟩
    obtain ⟨rfl, hrecv, hnw⟩ := i.flyVal r buf (List.mem_of_getElem? hk)
    have hgone := erased_gone i.flyOnce hk
    have hlen : (val r).length = bytesOf c.bs (s.reqs r).loc := (g.locSize r).symm
    constructor
    · intro x b hx
      have hne : x ≠ r := fun e => hgone b (e ▸ hx)
      have := i.flyVal x b (mem_eraseIdx hx)
      simpa [St.setReq, hne] using this
    · exact nodup_erase i.flyOnce
    · intro x hx
      by_cases he : x = r
      · subst he
        refine ⟨by simp [St.setReq, hrecv], ?_⟩
        have := C47_write_read g.layout (g.loc x) hlen hc
        simpa [Holds, St.setReq] using this
      · simp only [St.setReq, he, if_false] at hx
        obtain ⟨a, b⟩ := i.done x hx
        refine ⟨by simpa [St.setReq, he] using a, ?_⟩
        have := asyncRead_frame (n := (val x).length) g.layout g.bs (g.loc r) (g.loc x) hlen
          (g.locSize x).symm (g.apart r x (Ne.symm he)) hc
        simp only [Holds] at b ⊢
        simp only [St.setReq, he, if_false]
        rw [this]; exact b
    · exact i.came
    · intro b hb
      obtain ⟨srv, h⟩ := i.asked b hb
      exact ⟨srv, fun x hx => by
        have := (setReq_same s r (fun f => { f with written := true }) x).1
        exact this.trans (h x hx)⟩
    · intro x hx
      by_cases he : x = r
      · subst he; left; simp [St.setReq]
      · simp only [St.setReq, he, if_false] at hx ⊢
        rcases i.going x hx with h | h
        · exact Or.inl h
        · exact Or.inr (erased_other hk he h)

theorem run_inv {c : Cfg} {val : Nat → Bytes} {s : St} {ops : List Op} {t : Option St}
    (g : Good c val s.reqs) (i : Inv c val s) (h : Run c (Honest c val) s ops t) :
    ∃ s', t = some s' ∧ Inv c val s' ∧ Same s'.reqs s.reqs := by
  induction h with
  | nil s => exact ⟨s, rfl, i, fun _ => ⟨rfl, rfl, rfl⟩⟩
  | fail s op ops ho hs =>
    obtain ⟨s', e, -⟩ := step_inv g i ho hs
    cases e
  | cons s op s' ops t ho hs _ ih =>
    obtain ⟨s1, e, i1, sm1⟩ := step_inv g i ho hs
    cases e
    obtain ⟨s2, e2, i2, sm2⟩ := ih (g.same sm1) i1
    exact ⟨s2, e2, i2, sm2.trans sm1⟩

end HS.Fetch
