import Verif.Fetch.Inv
/-!
# C100 and C101

C100: the data of a replicated write that a member gets from another one, pushed or fetched, is the
data that was written, and it goes to the blocks of that write, once.  C101: what is asked for, and in
how many messages.
-/
namespace HS.Fetch
open HS.DataSvc

/-- **C100 (partial).**  However pushes, fetches, answers and writes to the disk follow one another,
with messages lost, cut, late and repeated and reads that fail: the process does not fail, a request
that is marked as written has exactly the user's data in its blocks, and no request is written a
second time.

Missing: writes of more than 65535 blocks (`C100_large_violated`), writes that do not fill their blocks
(`C100_ragged_violated`), originators that have used the blocks for something else in the meantime
(`C100_reused_violated`). -/
theorem C100_data_on_disk_partial {c : Cfg} {val : Nat → Bytes} {s0 : St} {ops : List Op} {t : Option St}
    (g : Good c val s0.reqs) (h0 : Fresh s0) (h : Run c (Honest c val) s0 ops t) :
    ∃ s, t = some s ∧
      (∀ r, (s.reqs r).st.written = true → Holds c val s r) ∧
      (∀ r buf, (r, buf) ∈ s.fly → buf = val r ∧ (s.reqs r).st.written = false) ∧
      (s.fly.map (·.1)).Nodup := by
  obtain ⟨s, e, i, -⟩ := run_inv g (inv_fresh h0) h
  exact ⟨s, e, fun r hr => (i.done r hr).2,
    fun r b hb => ⟨(i.flyVal r b hb).1, (i.flyVal r b hb).2.2⟩, i.flyOnce⟩

/-- **C100**, the other half: no block is touched that is not one of a request. -/
theorem C100_elsewhere_untouched_partial {c : Cfg} {val : Nat → Bytes} {s0 s : St} {ops : List Op}
    (g : Good c val s0.reqs) (h0 : Fresh s0) (h : Run c (Honest c val) s0 ops (some s))
    {ch b j : Nat} {a : Area} (ha : c.tblL ch = some a) (hb : (b + 1) * c.bs ≤ a.size) (hj : j < c.bs)
    (hout : ∀ r, ∀ p ∈ (s0.reqs r).loc, ¬ p.has ch b) :
    content c.bs c.tblL s.disk ch b j = content c.bs c.tblL s0.disk ch b j := by
  have i := inv_fresh (c := c) (val := val) h0
  clear h0
  generalize ht : some s = t at h
  induction h with
  | nil s1 => cases ht; rfl
  | fail => cases ht
  | cons s1 op s2 ops t ho hs _ ih =>
    obtain ⟨s2', e, i2, sm⟩ := step_inv g i ho hs
    cases e
    rw [ih (g.same sm) (fun r p hp => hout r p ((sm r).2.2 ▸ hp)) i2 ht]
    have key : s2.disk = s1.disk ∨ ∃ r d, s2.disk = d ∧
        Completes (asyncWrite c.bs c.tblL (s1.reqs r).loc (val r)) s1.disk d true := by
      have hsave : ∀ (x y : St) r buf, save c.bs x r buf = some y → y.disk = x.disk := by
        intro x y r buf e
        unfold save at e
        split at e
        · cases e; rfl
        · split at e
          · cases e
          · cases e; rfl
      have hloop : ∀ (ids : List Nat) (raw : Bytes) (x y : St),
          handleLoop c.bs ids raw x = some y → y.disk = x.disk := by
        intro ids
        induction ids with
        | nil => intro raw x y e; cases e; rfl
        | cons r rs ih =>
          intro raw x y e
          unfold handleLoop at e
          split at e
          · exact ih _ _ _ e
          · split at e
            · cases e
            · split at e
              · cases e
              · rename_i x' hx
                rw [ih _ _ _ e, hsave _ _ _ _ hx]
      generalize hr : some s2 = res at hs
      cases hs with
      | fetch ids hne =>
        left
        cases hc : checkAndFetch c.maxB c.bs s1.reqs ids with
        | none => rw [hc] at hr; cases hr
        | some bs => rw [hc] at hr; cases hr; rfl
      | serve k devs fails ids hk => left; cases hr; rfl
      | lose k => left; cases hr; rfl
      | handle k ids raw hk =>
        left
        unfold handle at hr
        split at hr
        · cases hr; rfl
        · have := hloop _ _ _ _ hr.symm
          exact this
      | push msg =>
        left
        unfold onPush at hr
        repeat' split at hr
        all_goals first | (cases hr; done) | (cases hr; rfl) | exact hsave _ _ _ _ hr.symm
      | done k r buf d hk hc =>
        right
        obtain ⟨rfl, -⟩ := i.flyVal r buf (List.mem_of_getElem? hk)
        cases hr
        exact ⟨r, d, rfl, hc⟩
    rcases key with e | ⟨r, d, e, hc⟩
    · rw [e]
    · rw [e]
      exact C47_write_frame g.layout (g.loc r) (g.locSize r).symm hc ha hb hj (hout r)

/-- The answer to one request that the originator can read. -/
theorem answer_one {c : Cfg} {val : Nat → Bytes} {s : St} {r : Nat} {d : Dev} (g : Good c val s.reqs)
    (hd : asyncRead c.bs (c.tblR (s.reqs r).server) d (s.reqs r).rem (val r).length = some (val r)) :
    answer c.bs (c.tblR (s.reqs r).server) (fun _ => d) (fun _ => false) [(s.reqs r).rem] = val r := by
  have := serve_all (bs := c.bs) (tbl := c.tblR (s.reqs r).server) (devs := fun _ => d) (val := val)
    (rem := fun r => (s.reqs r).rem) [r] 0 (by
      intro i x hx
      cases i with
      | zero =>
        simp only [List.getElem?_cons_zero, Option.some.injEq] at hx
        subst hx
        exact ⟨g.size r, hd⟩
      | succ i => simp at hx)
  simp only [List.map_cons, List.map_nil, List.flatMap_cons, List.flatMap_nil, List.append_nil] at this
  rw [answer, this]; rfl

/-- **C100**, data does arrive: from any state that a run reaches, a request whose data has not come
gets it by one fetch that is answered, whatever else is under way. -/
theorem C100_fetch_brings_data {c : Cfg} {val : Nat → Bytes} {s0 s : St} {ops : List Op} {r : Nat}
    {d : Dev} (g : Good c val s0.reqs) (h0 : Fresh s0) (h : Run c (Honest c val) s0 ops (some s))
    (hr : (s.reqs r).st.recv = false) (ha : (s.reqs r).st.alloc = true)
    (hd : asyncRead c.bs (c.tblR (s.reqs r).server) d (s.reqs r).rem (val r).length = some (val r)) :
    ∃ s', Run c (Honest c val) s [.fetch [r], .serve s.asked.length (fun _ => d) (fun _ => false),
        .handle s.came.length, .done s.fly.length] (some s') ∧
      (s'.reqs r).st.written = true ∧ Holds c val s' r := by
  obtain ⟨s_, e, i, sm⟩ := run_inv g (inv_fresh h0) h
  cases e
  have g' := g.same sm
  have hst : (s.reqs r).st ≠ { err := true } ∧ (s.reqs r).st ≠ { recv := true } := by
    constructor <;> intro e <;> rw [e] at ha <;> cases ha
  have hask : checkAndFetch c.maxB c.bs s.reqs [r] = some [[r]] := by
    simp only [checkAndFetch, fetchLoop]
    rw [if_neg hst.1, if_neg hst.2, if_neg (by simp)]
    split <;> simp [send]
  have hov : overruns c.bs (s.reqs r).loc (val r) = false := by
    have := g'.locSize r
    unfold bytesOf at this
    simp [overruns, this]
  obtain ⟨d', hd'⟩ := completes_exists s.disk (g'.loc r) (g'.locSize r).symm
  -- the run
  let s1 : St := { s with asked := s.asked ++ [[r]] }
  let s2 : St := { s with came := s.came ++ [([r], val r)] }
  let s3 : St := { (s.setReq r fun f => { f with recv := true }) with fly := s.fly ++ [(r, val r)] }
  let s4 : St := { (s3.setReq r fun f => { f with written := true }) with disk := d', fly := s.fly }
  have st1 : Step c s (.fetch [r]) (some s1) := by
    have := Step.fetch (c := c) s [r] (by simp)
    rw [hask] at this
    exact this
  have st2 : Step c s1 (.serve s.asked.length (fun _ => d) (fun _ => false)) (some s2) := by
    have := Step.serve (c := c) s1 s.asked.length (fun _ => d) (fun _ => false) [r] (by simp [s1])
    have e : answer c.bs (c.tblR (target s1 [r])) (fun _ => d) (fun _ => false)
        ([r].map fun x => (s1.reqs x).rem) = val r := answer_one g' hd
    rw [e] at this
    have e2 : s1.asked.eraseIdx s.asked.length = s.asked := by
      simp [s1, List.eraseIdx_append_of_length_le]
    rw [e2] at this
    exact this
  have st3 : Step c s2 (.handle s.came.length) (some s3) := by
    have := Step.handle (c := c) s2 s.came.length [r] (val r) (by simp [s2])
    have e2 : s2.came.eraseIdx s.came.length = s.came := by
      simp [s2, List.eraseIdx_append_of_length_le]
    rw [e2] at this
    have e3 : ({ s2 with came := s.came } : St) = s := rfl
    rw [e3] at this
    have e4 : handle c.bs [r] (val r) s = some s3 := by
      unfold handle
      rw [if_neg (g.nonempty r)]
      simp only [handleLoop]
      rw [if_neg (by simp [hr]), g'.size r, if_neg (by simp), List.take_length]
      simp only [save]
      rw [if_neg (by simp [hr]), if_neg (by simp [hov])]
    rw [e4] at this
    exact this
  have st4 : Step c s3 (.done s.fly.length) (some s4) := by
    have hloc : (s3.reqs r).loc = (s.reqs r).loc := by simp [s3, St.setReq]
    have := Step.done (c := c) s3 s.fly.length r (val r) d' (by simp [s3]) (by rw [hloc]; exact hd')
    have e2 : s3.fly.eraseIdx s.fly.length = s.fly := by
      simp [s3, List.eraseIdx_append_of_length_le]
    rw [e2] at this
    exact this
  have run : Run c (Honest c val) s [.fetch [r], .serve s.asked.length (fun _ => d) (fun _ => false),
      .handle s.came.length, .done s.fly.length] (some s4) := by
    refine .cons _ _ s1 _ _ ⟨(s.reqs r).server, by simp⟩ st1 (.cons _ _ s2 _ _ ?_ st2
      (.cons _ _ s3 _ _ trivial st3 (.cons _ _ s4 _ _ trivial st4 (.nil _))))
    intro ids hids j x hx _
    have : ids = [r] := by simpa [s1] using hids.symm
    subst this
    cases j with
    | zero =>
      simp only [List.getElem?_cons_zero, Option.some.injEq] at hx
      subst hx; exact hd
    | succ j => simp at hx
  have hw : (s4.reqs r).st.written = true := by simp [s4, St.setReq]
  obtain ⟨s5, e5, i5, -⟩ := run_inv g' i run
  cases e5
  exact ⟨s4, run, hw, (i5.done r hw).2⟩

/-- **C100**, pushes: a push that was sent brings its data; one whose data is cut or too long is
ignored. -/
theorem C100_push {c : Cfg} {s : St} {r : Nat} {data x : Bytes}
    (hd : ∀ h, c.dec (c.enc h) = some h) (hs : data.length < 4294967296)
    (he : (c.enc (r, data.length)).length < 4294967296) :
    (onPush c s (pushMsg c r data) = save c.bs s r data) ∧
    (x.length ≠ data.length →
      onPush c s (le4 (c.enc (r, data.length)).length ++ c.enc (r, data.length) ++ x) = some s) := by
  constructor
  · unfold pushMsg
    rw [Nat.mod_eq_of_lt hs]
    rw [onPush_msg (val := fun _ => data) hd he, if_pos rfl]
  · intro hx
    rw [onPush_msg (val := fun _ => data) hd he, if_neg hx]

/-! ## A case -/

/-- Unary numbers stand for the flatbuffer. -/
def encU (h : Nat × Nat) : Bytes := List.replicate h.1 1 ++ 0 :: List.replicate h.2 1
def decU (b : Bytes) : Option (Nat × Nat) :=
  some ((b.takeWhile (· == 1)).length, (b.dropWhile (· == 1)).length - 1)

theorem decU_encU (h : Nat × Nat) : decU (encU h) = some h := by
  obtain ⟨a, b⟩ := h
  have h1 : ∀ n, (List.replicate n (1 : UInt8) ++ 0 :: List.replicate b 1).takeWhile (· == 1) =
      List.replicate n 1 := by
    intro n
    induction n with
    | zero => rfl
    | succ n ih => simp [List.replicate_succ, ih]
  have h2 : ∀ n, (List.replicate n (1 : UInt8) ++ 0 :: List.replicate b 1).dropWhile (· == 1) =
      0 :: List.replicate b 1 := by
    intro n
    induction n with
    | zero => rfl
    | succ n ih => simp [List.replicate_succ, ih]
  simp [decU, encU, h1, h2]

/-- Every request has a chunk of its own, of 8 blocks of 2 bytes. -/
def cfg0 : Cfg :=
  { bs := 2, maxB := 6, tblR := fun _ ch => some ⟨ch, 0, 16⟩, tblL := fun ch => some ⟨ch, 16, 16⟩,
    enc := encU, dec := decU }
def val0 : Nat → Bytes := fun r => [1, 2, 3, UInt8.ofNat r]
def s00 : St :=
  { reqs := fun r => ⟨7, [⟨r, 3, 2⟩], [⟨r, 5, 1⟩, ⟨r, 1, 1⟩], { alloc := true }⟩
    disk := fun _ _ => 0, fly := [], asked := [], came := [] }
/-- The originator's disk. -/
def dev0 : Dev := fun ch o =>
  if o = 6 then 1 else if o = 7 then 2 else if o = 8 then 3 else if o = 9 then UInt8.ofNat ch else 0

theorem good0 : Good cfg0 val0 s00.reqs where
  layout := by
    intro ch ch' a a' hne h1 h2 h3
    simp only [cfg0, Option.some.injEq] at h1 h2
    subst h1; subst h2
    exact absurd h3 hne
  loc r := by
    constructor
    · simp [s00]
    · intro p hp
      simp only [s00, List.mem_cons, List.not_mem_nil, or_false] at hp
      rcases hp with rfl | rfl
      · exact ⟨⟨r, 16, 16⟩, rfl, by simp [cfg0]⟩
      · exact ⟨⟨r, 16, 16⟩, rfl, by simp [cfg0]⟩
    · simp only [s00, List.pairwise_cons, List.mem_cons, List.not_mem_nil, or_false]
      refine ⟨?_, by simp⟩
      rintro q rfl ch b ⟨⟨h1, h2, h3⟩, ⟨g1, g2, g3⟩⟩
      simp only at *; omega
  bs := by decide
  nonempty r := by simp [val0]
  locSize r := rfl
  remSize r := rfl
  small r := by simp [val0]
  count r := by simp [s00]
  apart r r' hne p hp q hq ch b hh := by
    simp only [s00, List.mem_cons, List.not_mem_nil, or_false] at hp hq
    obtain ⟨⟨h1, -⟩, ⟨h2, -⟩⟩ := hh
    have e1 : p.chunk = r := by rcases hp with rfl | rfl <;> rfl
    have e2 : q.chunk = r' := by rcases hq with rfl | rfl <;> rfl
    omega
  dec := decU_encU

theorem fresh0 : Fresh s00 := ⟨rfl, rfl, rfl, fun _ => ⟨rfl, rfl⟩⟩

/-- A cut push, then a fetch that is answered: the data of request 4 is on the disk. -/
example : ∃ ops s, Run cfg0 (Honest cfg0 val0) s00 ops (some s) ∧ (s.reqs 4).st.written = true ∧
    Holds cfg0 val0 s 4 ∧ ops.length = 5 := by
  have hp : Run cfg0 (Honest cfg0 val0) s00 [.push (le4 (encU (4, 4)).length ++ encU (4, 4) ++ [1, 2, 3])]
      (some s00) := by
    refine .cons _ _ s00 _ _ ⟨4, [1, 2, 3], by decide, by decide, rfl⟩ ?_ (.nil _)
    have := Step.push (c := cfg0) s00 (le4 (encU (4, 4)).length ++ encU (4, 4) ++ [1, 2, 3])
    have e := (C100_push (c := cfg0) (s := s00) (r := 4) (data := val0 4) (x := [1, 2, 3]) decU_encU
      (by decide) (by decide)).2 (by decide)
    rw [show onPush cfg0 s00 (le4 (encU (4, 4)).length ++ encU (4, 4) ++ [1, 2, 3]) = some s00 from e]
      at this
    exact this
  obtain ⟨s, h1, h2, h3⟩ := C100_fetch_brings_data (r := 4) (d := dev0) good0 fresh0 hp rfl rfl
    (by decide +kernel)
  cases hp with
  | cons _ _ s1 _ _ ho st rest =>
    cases rest with
    | nil => exact ⟨_, s, .cons _ _ s00 _ _ ho st h1, h2, h3, rfl⟩

/-! ## What is missing -/

/-- **C100 (violated).**  The originator's blocks hold other data by the time they are read, as they
were freed and written again after the commit: the member stores it as the data of the write.  The
answer carries nothing by which it could tell. -/
theorem C100_reused_violated :
    ∃ (d : Dev) (s : St), Run cfg0 (fun _ _ => True) s00
        [.fetch [4], .serve 0 (fun _ => d) (fun _ => false), .handle 0, .done 0] (some s) ∧
      (s.reqs 4).st.written = true ∧ ¬ Holds cfg0 val0 s 4 := by
  have g := good0
  -- the other write put `9, 9, 9, 9` there
  let val1 : Nat → Bytes := fun r => [9, 9, 9, UInt8.ofNat r]
  have g1 : Good cfg0 val1 s00.reqs :=
    { layout := g.layout, loc := g.loc, bs := g.bs, nonempty := fun r => by simp [val1]
      locSize := fun r => rfl, remSize := fun r => rfl, small := fun r => by simp [val1]
      count := g.count, apart := g.apart, dec := g.dec }
  let d1 : Dev := fun ch o => if o = 6 then 9 else if o = 7 then 9 else if o = 8 then 9 else
      if o = 9 then UInt8.ofNat ch else 0
  obtain ⟨s, h1, h2, h3⟩ := C100_fetch_brings_data (r := 4) (d := d1) g1 fresh0 (.nil _) rfl rfl (by decide +kernel)
  refine ⟨d1, s, ?_, h2, ?_⟩
  · have weaken : ∀ {a : St} {ops : List Op} {t : Option St}, Run cfg0 (Honest cfg0 val1) a ops t →
        Run cfg0 (fun _ _ => True) a ops t := by
      intro a ops t h
      induction h with
      | nil s => exact .nil s
      | fail s op ops _ hs => exact .fail s op ops trivial hs
      | cons s op s' ops t _ hs _ ih => exact .cons s op s' ops t trivial hs ih
    exact weaken h1
  · intro h4
    unfold Holds at h3 h4
    rw [show (val0 4).length = (val1 4).length from rfl, h3] at h4
    exact absurd h4 (by decide)

/-- **C100 (violated).**  A write that does not fill its last block, pushed to a member that gave it
blocks in two places: the member reads past the end of the data. -/
theorem C100_ragged_violated :
    Run cfg0 (fun _ _ => True) s00 [.push (pushMsg cfg0 4 [1, 2, 3])] none := by
  refine .fail _ _ _ trivial ?_
  have := Step.push (c := cfg0) s00 (pushMsg cfg0 4 [1, 2, 3])
  rw [show onPush cfg0 s00 (pushMsg cfg0 4 [1, 2, 3]) = none from by
    rw [(C100_push (c := cfg0) (s := s00) (r := 4) (data := [1, 2, 3]) (x := []) decU_encU
      (by decide) (by decide)).1]
    decide] at this
  exact this

/-- **C100 (violated).**  A write of 65536 blocks cannot be fetched: whatever the originator holds,
the answer is empty and the member drops it. -/
theorem C100_large_violated (c : Cfg) (s : St) (r : Nat) (devs : Nat → Dev) (fails : Nat → Bool)
    (hr : (s.reqs r).rem = [⟨0, 0, 32768⟩, ⟨0, 40000, 32768⟩]) :
    answer c.bs (c.tblR (target s [r])) devs fails ([r].map fun x => (s.reqs x).rem) = [] ∧
    handle c.bs [r] [] s = some s := by
  have h0 : dataSize c.bs [⟨0, 0, 32768⟩, ⟨0, 40000, 32768⟩] = 0 := by
    simp [dataSize, blkCount]
  refine ⟨?_, by simp [handle]⟩
  simp only [List.map_cons, List.map_nil, hr, answer, serve, readEntry, h0, List.take_zero]
  cases fails 0 with
  | true => rfl
  | false =>
    cases asyncRead c.bs (c.tblR (target s [r])) (devs 0) [⟨0, 0, 32768⟩, ⟨0, 40000, 32768⟩] 0 with
    | none => rfl
    | some b => rfl

/-! ## C101 -/

/-- **C101.**  A call that fetches the data of requests of one server asks for each request that has
blocks exactly once, in their order; no message is empty, and one that asks for more than one request
asks for less than the configured amount of data. -/
theorem C101_batches {maxB bs : Nat} {reqs : Nat → Req} {ids : List Nat} (hne : ids ≠ [])
    (hsrv : ∀ r ∈ ids, ∀ r' ∈ ids, (reqs r).server = (reqs r').server)
    (halloc : ∀ r ∈ ids, (reqs r).st.alloc = true)
    (hcnt : ∀ r ∈ ids, ((reqs r).rem.map (·.n)).sum < 65536)
    (hsz : ∀ r ∈ ids, bytesOf bs (reqs r).rem < 4294967296) :
    ∃ out, checkAndFetch maxB bs reqs ids = some out ∧ out.flatten = ids ∧
      ∀ b ∈ out, b ≠ [] ∧
        ((b.map fun r => bytesOf bs (reqs r).rem).sum < maxB ∨ b.length = 1) := by
  cases ids with
  | nil => exact absurd rfl hne
  | cons r rs =>
    obtain ⟨out, e, f, h⟩ := fetchLoop_spec (maxB := maxB) (bs := bs) (reqs := reqs)
      (orig := (reqs r).server) (r :: rs) 0 [] [] (by simp [weight]) (Or.inr (by simp)) (by simp)
      (fun x hx _ => hsrv x hx r (by simp))
    have hf : (r :: rs).filter (wanted reqs) = r :: rs := by
      rw [List.filter_eq_self]
      intro x hx
      have ha := halloc x hx
      simp only [wanted, ne_eq, decide_not, Bool.and_eq_true, Bool.not_eq_true',
        decide_eq_false_iff_not]
      constructor <;> intro e <;> rw [e] at ha <;> cases ha
    rw [List.flatten_nil, List.nil_append, List.nil_append, hf] at f
    refine ⟨out, e, f, fun b hb => ⟨(h b hb).1, ?_⟩⟩
    refine (h b hb).2.imp_left fun hw => ?_
    have : (b.map fun r => bytesOf bs (reqs r).rem) = b.map fun r => dataSize bs (reqs r).rem := by
      apply List.map_congr_left
      intro x hx
      have hm : x ∈ r :: rs := f ▸ List.mem_flatten.mpr ⟨b, hb, hx⟩
      exact (dataSize_eq (hcnt x hm) (hsz x hm)).symm
    rw [this]; exact hw

example : checkAndFetch 6 2 s00.reqs [0, 1, 2] = some [[0], [1], [2]] ∧
    checkAndFetch 9 2 s00.reqs [0, 1, 2] = some [[0, 1], [2]] := by decide

/-- **C101**, the other case: requests of several servers in one call end the process. -/
theorem C101_one_server {maxB bs : Nat} {reqs : Nat → Req} {r x : Nat} {rs : List Nat}
    (hx : x ∈ rs) (ha : (reqs x).st.alloc = true) (h : (reqs x).server ≠ (reqs r).server) :
    checkAndFetch maxB bs reqs (r :: rs) = none := by
  refine fetchLoop_none _ _ _ _ x (List.mem_cons_of_mem _ hx) ?_ h
  simp only [wanted, ne_eq, decide_not, Bool.and_eq_true, Bool.not_eq_true', decide_eq_false_iff_not]
  constructor <;> intro e <;> rw [e] at ha <;> cases ha

/-- **C101 (violated).**  Only data that is missing is asked for: the test compares the whole state of
a request with one flag, and a request with blocks never equals it. -/
theorem C101_only_missing_violated (maxB bs : Nat) (reqs : Nat → Req) (r : Nat)
    (ha : (reqs r).st.alloc = true) (_ : (reqs r).st.recv = true) (_ : (reqs r).st.written = true) :
    checkAndFetch maxB bs reqs [r] = some [[r]] := by
  simp only [checkAndFetch, fetchLoop]
  rw [if_neg (by intro e; rw [e] at ha; cases ha), if_neg (by intro e; rw [e] at ha; cases ha),
    if_neg (by simp)]
  split <;> simp [send]

end HS.Fetch
