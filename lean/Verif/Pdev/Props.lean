import Verif.Pdev.Ops
import Verif.Crc.Props
/-!
# C16, C17: chunk data areas and chunk records

Specification vocabulary: a chunk's data area is the byte range `[start, start+size)`; `Apart` = two areas
share no byte; `Fits` = an area lies in the device's data range.  A history is any sequence of calls
`create_chunk`, `create_chunks`, `remove_chunk` on the device, with crashes after any number of the
super block writes of a call, each followed by a restart.
-/
namespace HS.Pdev

/-- Two chunks' data areas share no byte. -/
def Apart (x y : Info) : Prop := ∀ b, ¬ ((x.start ≤ b ∧ b < x.start + x.size) ∧ (y.start ≤ b ∧ b < y.start + y.size))

/-- Every byte of the area is in the data range of the device. -/
def Fits (g : Geo) (x : Info) : Prop := ∀ b, x.start ≤ b → b < x.start + x.size → g.dataStart ≤ b ∧ b < g.dataEnd

inductive Op where
  | create (id vdev size : Nat)
  | createMany (ids : List Nat) (vdev size : Nat)
  | remove (c : Nat × Info)
deriving DecidableEq

/-- Execute a call: new in-memory state, super block writes in order, and whether it succeeded.
`none` = the program aborted. -/
def run (pick : List Bool → Nat → Option (Nat × Nat)) (g : Geo) (m : Mem) : Op → Option (Mem × List Write × Bool)
  | .create id vdev size =>
    match createChunk g m id vdev size with
    | .ok (m', ws) => some (m', ws, true)
    | .noRoom m' => some (m', [], false)
    | .abort => none
  | .createMany ids vdev size => createChunks pick g m ids vdev size
  | .remove c => some ((removeChunk m c).1, (removeChunk m c).2, true)

/-- What callers must respect: chunks have a positive size, and only existing chunks are removed. -/
def okOp (m : Mem) : Op → Prop
  | .create _ _ size => 1 ≤ size
  | .createMany _ _ size => 1 ≤ size
  | .remove c => c ∈ m.chunks

instance (m : Mem) (o : Op) : Decidable (okOp m o) := by cases o <;> unfold okOp <;> infer_instance

/-- `create_chunk` (singular) failed although a record slot was free, that is, for lack of data space: the one
situation in which the code leaks the slot bit. -/
def leaks (g : Geo) (m : Mem) : Op → Bool
  | .create _ _ size => (firstReset m.bm).isSome && (findArea g m size).isNone
  | _ => false

/-- States reachable from a freshly formatted device with `n` record slots.  The flag says that no
`create_chunk` has failed for lack of data space since the last (re)start. -/
inductive Reach (pick : List Bool → Nat → Option (Nat × Nat)) (g : Geo) (n : Nat) : Bool → Mem → Disk → Prop
  | format : Reach pick g n true ⟨[], List.replicate n false, [], []⟩ (formatted n)
  | op {b m d} (o : Op) {m' ws ok} : Reach pick g n b m d → okOp m o → run pick g m o = some (m', ws, ok) →
      Reach pick g n (b && !leaks g m o) m' (d.applyAll ws)
  | crash {m d} (o : Op) {m' ws ok} (k : Nat) {m''} : Reach pick g n true m d → okOp m o → leaks g m o = false →
      run pick g m o = some (m', ws, ok) → load (d.applyAll (ws.take k)) = some m'' →
      Reach pick g n true m'' (d.applyAll (ws.take k))
  | restart {m d m''} : Reach pick g n true m d → load d = some m'' → Reach pick g n true m'' d

/-- In-memory and persistent state agree (holds as long as the flag is set). -/
structure Clean (m : Mem) (d : Disk) : Prop where
  bm : d.bm = m.bm
  len : d.bm.length = d.slots.length
  bits : ∀ i : Nat, m.bm[i]? = some true → ∃ c ∈ m.chunks, c.1 = i
  recs : ∀ c ∈ m.chunks, d.slots[c.1]? = some (some c.2)

theorem Clean.img {m d} (h : Clean m d) : Img m.chunks d.bm d.slots := by
  intro i hi
  rw [h.bm] at hi
  obtain ⟨c, hc, e⟩ := h.bits i hi
  exact ⟨c.2, by rw [← e]; exact h.recs c hc, c, hc, e, Same.refl _⟩

theorem Img.mono {L L' bm sl} (h : Img L bm sl) (hs : ∀ c ∈ L, c ∈ L') : Img L' bm sl := by
  intro i hi
  obtain ⟨x, h1, c, hc, h2⟩ := h i hi
  exact ⟨x, h1, c, hs c hc, h2⟩

theorem slotsAfter_slots (ws : List Write) (out : List (Nat × Info)) : ∀ (sl : List (Option Info)),
    (∀ w ∈ ws, ∃ c ∈ out, w = .slot c.1 c.2) →
    (slotsAfter sl ws).length = sl.length ∧
    ∀ i : Nat, i < sl.length → (slotsAfter sl ws)[i]? = sl[i]? ∨ ∃ c ∈ out, c.1 = i ∧ (slotsAfter sl ws)[i]? = some (some c.2) := by
  induction ws with
  | nil => intro sl _; exact ⟨rfl, fun i _ => .inl rfl⟩
  | cons w ws ih =>
    intro sl h
    obtain ⟨c, hc, e⟩ := h w (by simp)
    subst e
    rw [slotsAfter_cons]
    simp only [Disk.apply]
    obtain ⟨h1, h2⟩ := ih (sl.set c.1 (some c.2)) (fun w hw => h w (by simp [hw]))
    refine ⟨by rw [h1]; simp, ?_⟩
    intro i hi
    rcases h2 i (by simpa using hi) with e | e
    · rw [e]
      by_cases hci : c.1 = i
      · subst hci; right; exact ⟨c, hc, rfl, by simp [hi]⟩
      · left; rw [List.getElem?_set_ne hci]
    · exact .inr e

theorem slotsAfter_written {ws : List Write} {out : List (Nat × Info)} (hnd : out.Pairwise fun x y => x.1 ≠ y.1) :
    ∀ {sl : List (Option Info)}, (∀ w ∈ ws, ∃ c ∈ out, w = .slot c.1 c.2) → ∀ {c}, c ∈ out → Write.slot c.1 c.2 ∈ ws →
    c.1 < sl.length → (slotsAfter sl ws)[c.1]? = some (some c.2) := by
  induction ws with
  | nil => intro sl _ c _ h; simp at h
  | cons w ws ih =>
    intro sl h c hc hw hl
    rw [slotsAfter_cons]
    obtain ⟨c', hc', e⟩ := h w (by simp)
    subst e
    simp only [Disk.apply]
    by_cases hin : Write.slot c.1 c.2 ∈ ws
    · exact ih (fun w hw => h w (by simp [hw])) hc hin (by simpa using hl)
    · have e : Write.slot c.1 c.2 = Write.slot c'.1 c'.2 := by
        rcases List.mem_cons.1 hw with e | e
        · exact e
        · exact absurd e hin
      injection e with e1 e2
      obtain ⟨h1, h2⟩ := slotsAfter_slots ws out (sl.set c'.1 (some c'.2)) (fun w hw => h w (by simp [hw]))
      rcases h2 c.1 (by simpa using hl) with e | ⟨x, hx, q1, q2⟩
      · rw [e, ← e1, ← e2]; simp [hl]
      · have : x = c := by
          apply Classical.byContradiction
          intro hne
          have : ∀ {l : List (Nat × Info)}, l.Pairwise (fun x y => x.1 ≠ y.1) → x ∈ l → c ∈ l → False := by
            intro l hp
            induction l with
            | nil => simp
            | cons a l ih2 =>
              rw [List.pairwise_cons] at hp
              intro m1 m2
              rcases List.mem_cons.1 m1 with e1 | m1 <;> rcases List.mem_cons.1 m2 with e2 | m2
              · exact hne (by rw [e1, e2])
              · exact hp.1 c m2 (by rw [← e1]; exact q1)
              · exact hp.1 x m1 (by rw [← e2]; exact q1.symm)
              · exact ih2 hp.2 m1 m2
          exact this hnd hx hc
        rw [q2, this]

theorem WOk_slots {L : List (Nat × Info)} {ws : List Write} : ∀ {sl : List (Option Info)},
    (∀ w ∈ ws, ∃ c ∈ L, w = .slot c.1 c.2) → (∀ c ∈ L, c.1 < sl.length) → WOk L sl ws := by
  induction ws with
  | nil => intro sl _ _; trivial
  | cons w ws ih =>
    intro sl h hl
    obtain ⟨c, hc, e⟩ := h w (by simp)
    subst e
    exact ⟨⟨hl c hc, c, hc, rfl, Same.refl _⟩, ih (fun w hw => h w (by simp [hw])) (by simpa using hl)⟩

/-- Writes of a roll back keep the disk an image of `L`. -/
theorem WOk_rollback {L : List (Nat × Info)} {bm0 : List Bool} {ws : List Write} : ∀ {sl : List (Option Info)},
    bm0.length = sl.length → Img L bm0 sl → (∀ c ∈ L, c.1 < sl.length) →
    (∀ w ∈ ws, match w with
      | .slot i info => ∃ c ∈ L, c.1 = i ∧ Same info c.2
      | .bitmap bm => bm.length = bm0.length ∧ ∀ i : Nat, bm[i]? = some true → bm0[i]? = some true) → WOk L sl ws := by
  induction ws with
  | nil => intro sl _ _ _ _; trivial
  | cons w ws ih =>
    intro sl hl himg hlt h
    have hw := h w (by simp)
    cases w with
    | slot i info =>
      obtain ⟨c, hc, e1, e2⟩ := hw
      have hi : i < sl.length := by rw [← e1]; exact hlt c hc
      exact ⟨⟨hi, c, hc, e1, e2⟩, ih (by simpa using hl) (Img_set himg hi ⟨c, hc, e1, e2⟩) (by simpa using hlt)
        (fun w hw => h w (by simp [hw]))⟩
    | bitmap bm =>
      exact ⟨⟨by rw [hw.1]; exact hl, fun i hi => himg i (hw.2 i hi)⟩, ih hl himg hlt (fun w hw => h w (by simp [hw]))⟩

/-- What a call creates. -/
def made (o : Op) (c : Nat × Info) : Prop := match o with
  | .create id vdev size => c.2.id = id ∧ c.2.vdev = vdev ∧ c.2.size = size
  | .createMany ids vdev size => c.2.id ∈ ids ∧ c.2.vdev = vdev ∧ c.2.size = size
  | .remove _ => False

theorem BitOk.lt {m : Mem} (h : BitOk m) {c} (hc : c ∈ m.chunks) : c.1 < m.bm.length := by
  rcases List.getElem?_eq_some_iff.1 (h c hc) with ⟨h, _⟩; exact h

theorem loopInv_init {g m ids vdev size} (h : Core g m) : LoopInv g m ids vdev size m [] [] :=
  ⟨h, by simp, by simp, by simp, fun i hi => .inl hi, fun i hi => hi, rfl, by simp, by simp⟩

/-- Main lemma: no call aborts, in-memory invariants are kept; and if memory and disk agreed and nothing
leaked, every crash point is fine and they agree again at the end. -/
theorem op_spec {pick g m} (hp : PickOk pick) (o : Op) (hc : Core g m) (hb : BitOk m) (ho : okOp m o) :
    ∃ m' ws ok, run pick g m o = some (m', ws, ok) ∧ Core g m' ∧ BitOk m' ∧
    (∀ d, Clean m d → leaks g m o = false → Clean m' (d.applyAll ws) ∧
      ∃ L, LOk g L ∧ (∀ c ∈ L, c ∈ m.chunks ∨ made o c) ∧ WOk L d.slots ws ∧ Img L d.bm d.slots ∧
        ∀ c ∈ m.chunks, (∀ c', o = .remove c' → c ≠ c') → ∀ w ∈ ws, KeepW c w) := by
  cases o with
  | create id vdev size =>
    simp only [run, createChunk, okOp] at *
    have hfr := firstReset_spec (bm := m.bm)
    cases hf : firstReset m.bm with
    | none =>
      refine ⟨_, _, _, rfl, hc, hb, ?_⟩
      intro d hd _
      exact ⟨hd, m.chunks, hc.lok, fun c h => .inl h, trivial, hd.img, by simp⟩
    | some s =>
      rw [hf] at hfr
      simp only at hfr ⊢
      have hsl : s < m.bm.length := by
        rcases List.getElem?_eq_some_iff.1 hfr with ⟨h, _⟩; exact h
      have fresh : ∀ c ∈ m.chunks, c.1 ≠ s := by
        intro c hcm e
        have := hb c hcm
        rw [e, hfr] at this; simp at this
      have hc1 : Core g { m with bm := m.bm.set s true } := ⟨hc.as, hc.lok, hc.cov, hc.sts, hc.snd⟩
      rcases populate_spec (vdev := vdev) (id := id) hc1 ho with ⟨h1, h2⟩ | ⟨info, m1, h1, hsz, hid, hvd, _, _, hbm, hch, hcore⟩
      · rw [h1]
        refine ⟨_, _, _, rfl, hc1, ?_, ?_⟩
        · intro c hcm
          rw [List.getElem?_set_ne (fun e => fresh c hcm e.symm)]; exact hb c hcm
        · intro d hd hl
          exfalso
          have h2' : findArea g m size = none := h2
          simp [leaks, hf, h2'] at hl
      · rw [h1]
        have hcore' := hcore s fresh
        simp only at hbm hch
        have hget : ∀ i : Nat, (m.bm.set s true)[i]? = if i = s then some true else m.bm[i]? := by
          intro i
          by_cases e : s = i
          · subst e; simp [hsl]
          · rw [List.getElem?_set_ne e, if_neg (fun e' => e e'.symm)]
        have hb' : BitOk { m1 with chunks := (s, info) :: m1.chunks } := by
          intro c hcm
          simp only at hcm ⊢
          rw [hbm, hget]
          rw [hch] at hcm
          rcases List.mem_cons.1 hcm with e | hcm
          · subst e; simp
          · rw [if_neg (fresh c hcm)]; exact hb c hcm
        refine ⟨_, _, _, rfl, hcore', hb', ?_⟩
        intro d hd _
        have hlen : d.slots.length = m.bm.length := by rw [← hd.len, hd.bm]
        have himg : Img ((s, info) :: m.chunks) d.bm d.slots := hd.img.mono (by simp +contextual)
        have himg2 : Img ((s, info) :: m.chunks) (m.bm.set s true) (d.slots.set s (some info)) := by
          intro i hi
          rw [hget] at hi
          by_cases e : i = s
          · subst e
            exact ⟨info, by simp [hlen, hsl], (i, info), by simp, rfl, Same.refl _⟩
          · rw [if_neg e] at hi
            rw [List.getElem?_set_ne (fun e' => e e'.symm)]
            exact himg i (by rw [hd.bm]; exact hi)
        refine ⟨?_, (s, info) :: m.chunks, ?_, ?_, ?_, himg, ?_⟩
        · refine ⟨?_, ?_, ?_, ?_⟩
          · simp only [Disk.applyAll, List.foldl, Disk.apply]; rw [hbm]
          · simp only [Disk.applyAll, List.foldl, Disk.apply, List.length_set]; rw [hlen]
          · intro i hi
            simp only [hbm, hget] at hi
            by_cases e : i = s
            · exact ⟨(s, info), by simp, e.symm⟩
            · rw [if_neg e] at hi
              obtain ⟨c, hcm, h⟩ := hd.bits i hi
              exact ⟨c, by simp [hch, hcm], h⟩
          · intro c hcm
            simp only [hch] at hcm
            simp only [Disk.applyAll, List.foldl, Disk.apply]
            rcases List.mem_cons.1 hcm with e | hcm
            · subst e; simp [hlen, hsl]
            · rw [List.getElem?_set_ne (fun e => fresh c hcm e.symm)]; exact hd.recs c hcm
        · have := hcore'.lok
          rw [hch] at this; exact this
        · intro c hcm
          rcases List.mem_cons.1 hcm with e | hcm
          · subst e; exact .inr ⟨hid, hvd, hsz⟩
          · exact .inl hcm
        · exact ⟨⟨by omega, (s, info), by simp, rfl, Same.refl _⟩, ⟨by simp [hlen], himg2⟩, trivial⟩
        · intro c hcm _ w hw
          simp only [List.mem_cons, List.not_mem_nil, or_false] at hw
          rcases hw with e | e
          · subst e; exact fun e => fresh c hcm e.symm
          · subst e
            simp only [KeepW]
            rw [hget, if_neg (fresh c hcm)]; exact hb c hcm
  | remove c =>
    simp only [run, okOp] at *
    have hcl := hb.lt ho
    have hget : ∀ i : Nat, (m.bm.set c.1 false)[i]? = if i = c.1 then some false else m.bm[i]? := by
      intro i
      by_cases e : c.1 = i
      · subst e; simp [hcl]
      · rw [List.getElem?_set_ne e, if_neg (fun e' => e e'.symm)]
    have hmem := removeChunk_mem hc ho
    have hdif : ∀ x ∈ m.chunks, x ≠ c → x.1 ≠ c.1 := by
      intro x hx hne
      rcases hc.lok.get hx ho with e | e
      · exact absurd e hne
      · exact e.1
    have hb' : BitOk (removeChunk m c).1 := by
      intro x hx
      have := (hmem x).1 hx
      show (m.bm.set c.1 false)[x.1]? = some true
      rw [hget, if_neg (hdif x this.1 this.2)]; exact hb x this.1
    refine ⟨_, _, _, rfl, removeChunk_spec hc ho, hb', ?_⟩
    intro d hd _
    have hlen : d.slots.length = m.bm.length := by rw [← hd.len, hd.bm]
    refine ⟨?_, m.chunks, hc.lok, fun c h => .inl h, ?_, hd.img, ?_⟩
    · refine ⟨rfl, ?_, ?_, ?_⟩
      · simp only [removeChunk, Disk.applyAll, List.foldl, Disk.apply, List.length_set]; rw [hlen]
      · intro i hi
        have hi' : (m.bm.set c.1 false)[i]? = some true := hi
        rw [hget] at hi'
        split at hi'
        · simp at hi'
        · rename_i hne
          obtain ⟨x, hx, e⟩ := hd.bits i hi'
          exact ⟨x, (hmem x).2 ⟨hx, fun e' => hne (by rw [← e, e'])⟩, e⟩
      · intro x hx
        have := (hmem x).1 hx
        simp only [removeChunk, Disk.applyAll, List.foldl, Disk.apply]
        rw [List.getElem?_set_ne (fun e => hdif x this.1 this.2 e.symm)]; exact hd.recs x this.1
    · refine ⟨⟨by omega, c, ho, rfl, rfl, rfl, rfl, rfl⟩, ⟨by simp [hlen], ?_⟩, trivial⟩
      intro i hi
      rw [hget] at hi
      split at hi
      · simp at hi
      · rename_i hne
        rw [List.getElem?_set_ne (fun e' => hne e'.symm)]
        exact hd.img i (by rw [hd.bm]; exact hi)
    · intro x hx hne w hw
      have hd1 := hdif x hx (hne c rfl)
      simp only [removeChunk, List.mem_cons, List.not_mem_nil, or_false] at hw
      rcases hw with e | e
      · subst e; exact fun e => hd1 e.symm
      · subst e
        simp only [KeepW]
        rw [hget, if_neg hd1]; exact hb x hx
  | createMany ids vdev size =>
    simp only [run, createChunks, okOp] at *
    obtain ⟨m1, out, ws, e, h1, inv, hok⟩ := createLoop_spec hp (all := ids) (vdev := vdev) ho (fuel := ids.length) (ids := ids)
      (loopInv_init hc) hb (fun x hx => hx) (Nat.le_refl _)
    rw [h1]
    have hout : ∀ c ∈ out, c.1 < m.bm.length := by
      intro c hco
      rcases List.getElem?_eq_some_iff.1 (inv.new c hco).1 with ⟨h, _⟩; exact h
    have hcross : ∀ c ∈ m.chunks, ∀ c' ∈ out, c.1 ≠ c'.1 := by
      intro c hcm c' hc' he
      have := hb c hcm
      rw [he, (inv.new c' hc').1] at this; simp at this
    have hLlt : ∀ c ∈ m1.chunks, c.1 < m.bm.length := by
      intro c hcm
      rcases (inv.mem c).1 hcm with h | h
      · exact hout c h
      · exact hb.lt h
    have hmade : ∀ c ∈ m1.chunks, c ∈ m.chunks ∨ made (.createMany ids vdev size) c := by
      intro c hcm
      rcases (inv.mem c).1 hcm with h | h
      · exact .inr (inv.new c h).2
      · exact .inl h
    have hwrL : ∀ w ∈ ws, ∃ c ∈ m1.chunks, w = .slot c.1 c.2 := by
      intro w hw
      obtain ⟨c, h, e⟩ := inv.wr w hw
      exact ⟨c, (inv.mem c).2 (.inl h), e⟩
    -- the disk after the record writes
    have himg1 : ∀ d, Clean m d → Img m1.chunks m1.bm (slotsAfter d.slots ws) := by
      intro d hd i hi
      have hlen : d.slots.length = m.bm.length := by rw [← hd.len, hd.bm]
      rcases inv.bits i hi with h | ⟨c, hco, e1, e2⟩
      · obtain ⟨c, hcm, e⟩ := hd.bits i h
        have hrec := hd.recs c hcm
        have := (slotsAfter_slots ws out d.slots inv.wr).2 i (by rw [hlen, ← e]; exact hb.lt hcm)
        rcases this with h' | ⟨c', hc', q1, q2⟩
        · exact ⟨c.2, by rw [h', ← e]; exact hrec, c, (inv.mem c).2 (.inr hcm), e, Same.refl _⟩
        · exact absurd (e.trans q1.symm) (hcross c hcm c' hc')
      · have := slotsAfter_written inv.nd (sl := d.slots) inv.wr hco e2 (by rw [hlen]; exact hout c hco)
        rw [e1] at this
        exact ⟨c.2, this, c, (inv.mem c).2 (.inl hco), e1, Same.refl _⟩
    have hkeep1 : ∀ c ∈ m.chunks, ∀ w ∈ ws, KeepW c w := by
      intro c hcm w hw
      obtain ⟨c', hc', e⟩ := inv.wr w hw
      subst e
      exact fun e => hcross c hcm c' hc' e.symm
    cases e with
    | false =>
      simp only
      obtain ⟨bo1, hw1, _⟩ := hok rfl
      refine ⟨_, _, _, rfl, inv.core, bo1, ?_⟩
      intro d hd _
      have hlen : d.slots.length = m.bm.length := by rw [← hd.len, hd.bm]
      have hsl := (slotsAfter_slots ws out d.slots inv.wr).1
      have happ : d.applyAll (ws ++ [.bitmap m1.bm]) = ⟨m1.bm, slotsAfter d.slots ws⟩ := by
        have : d.applyAll (ws ++ [.bitmap m1.bm]) = (d.applyAll ws).apply (.bitmap m1.bm) := by
          simp [Disk.applyAll, List.foldl_append]
        rw [this]
        simp only [Disk.apply, applyAll_slots]
      rw [happ]
      refine ⟨⟨rfl, by rw [inv.len, hsl, hlen], ?_, ?_⟩, m1.chunks, inv.core.lok, hmade, ?_, ?_, ?_⟩
      · intro i hi
        rcases inv.bits i hi with h | ⟨c, hco, e1, e2⟩
        · obtain ⟨c, hcm, e⟩ := hd.bits i h
          exact ⟨c, (inv.mem c).2 (.inr hcm), e⟩
        · exact ⟨c, (inv.mem c).2 (.inl hco), e1⟩
      · intro c hcm
        rcases (inv.mem c).1 hcm with h | h
        · rcases hw1 c h with h2 | h2
          · exact slotsAfter_written inv.nd inv.wr h h2 (by rw [hlen]; exact hout c h)
          · simp at h2
        · have := (slotsAfter_slots ws out d.slots inv.wr).2 c.1 (by rw [hlen]; exact hb.lt h)
          rcases this with h' | ⟨c', hc', q1, q2⟩
          · simp only [h']; exact hd.recs c h
          · exact absurd q1.symm (hcross c h c' hc')
      · apply WOk_append (WOk_slots hwrL (by rw [hlen]; exact hLlt))
        exact ⟨⟨by rw [inv.len, hsl, hlen], himg1 d hd⟩, trivial⟩
      · exact hd.img.mono (fun c h => (inv.mem c).2 (.inr h))
      · intro c hcm _ w hw
        rcases List.mem_append.1 hw with hw | hw
        · exact hkeep1 c hcm w hw
        · simp only [List.mem_cons, List.not_mem_nil, or_false] at hw
          subst hw
          exact bo1 c ((inv.mem c).2 (.inr hcm))
    | true =>
      simp only
      obtain ⟨r1, r2, r3, r4, r5, r6⟩ := removeAll_spec inv.core (cs := out) (fun c h => (inv.mem c).2 (.inl h)) inv.nd
      have hmem' : ∀ c, c ∈ (removeAll m1 out).1.chunks ↔ c ∈ m.chunks := by
        intro c
        rw [r2, inv.mem]
        constructor
        · rintro ⟨h | h, h2⟩
          · exact absurd h h2
          · exact h
        · intro h
          exact ⟨.inr h, fun h' => hcross c h c h' rfl⟩
      have hb' : BitOk (removeAll m1 out).1 := by
        intro c hcm
        have hcm := (hmem' c).1 hcm
        rw [r3, if_neg]
        · exact inv.keep _ (hb c hcm)
        · rintro ⟨⟨c', hc', e⟩, _⟩
          exact hcross c hcm c' hc' e.symm
      refine ⟨_, _, _, rfl, r1, hb', ?_⟩
      intro d hd _
      have hlen : d.slots.length = m.bm.length := by rw [← hd.len, hd.bm]
      have hsl := (slotsAfter_slots ws out d.slots inv.wr).1
      have hW : WOk m1.chunks d.slots (ws ++ (removeAll m1 out).2) := by
        apply WOk_append (WOk_slots hwrL (by rw [hlen]; exact hLlt))
        apply WOk_rollback (bm0 := m1.bm) (by rw [inv.len, hsl, hlen]) (himg1 d hd) (by rw [hsl, hlen]; exact hLlt)
        intro w hw
        have := r5 w hw
        cases w with
        | slot i info =>
          obtain ⟨c, h, e⟩ := this
          exact ⟨c, (inv.mem c).2 (.inl h), e⟩
        | bitmap bm => exact ⟨this.1, this.2.1⟩
      have hK : ∀ c ∈ m.chunks, ∀ w ∈ ws ++ (removeAll m1 out).2, KeepW c w := by
        intro c hcm w hw
        rcases List.mem_append.1 hw with hw | hw
        · exact hkeep1 c hcm w hw
        · have := r5 w hw
          cases w with
          | slot i info =>
            obtain ⟨c', hc', e, _⟩ := this
            exact fun e' => hcross c hcm c' hc' (by rw [e, e'])
          | bitmap bm =>
            simp only [KeepW]
            rw [this.2.2 c.1 (fun c' hc' e => hcross c hcm c' hc' e.symm)]
            exact inv.keep _ (hb c hcm)
      have himg0 : Img m1.chunks d.bm d.slots := hd.img.mono (fun c h => (inv.mem c).2 (.inr h))
      refine ⟨⟨?_, ?_, ?_, ?_⟩, m1.chunks, inv.core.lok, hmade, hW, himg0, fun c hcm _ => hK c hcm⟩
      · have e : d.applyAll (ws ++ (removeAll m1 out).2) = (d.applyAll ws).applyAll (removeAll m1 out).2 := by
          simp [Disk.applyAll, List.foldl_append]
        rw [e]
        apply r6
        by_cases ho : out = []
        · left
          obtain ⟨e1, e2⟩ := inv.emp ho
          rw [e2, e1]; exact hd.bm
        · exact .inr ho
      · have := (WOk_img hW hd.len himg0 (ws ++ (removeAll m1 out).2).length).2
        rw [List.take_length] at this
        exact this.1
      · intro i hi
        rw [r3] at hi
        split at hi
        · simp at hi
        · rename_i hne
          have hil : i < m1.bm.length := by
            rcases List.getElem?_eq_some_iff.1 hi with ⟨h, _⟩; exact h
          rcases inv.bits i hi with h | ⟨c, hco, e1, _⟩
          · obtain ⟨c, hcm, e⟩ := hd.bits i h
            exact ⟨c, (hmem' c).2 hcm, e⟩
          · exact absurd ⟨⟨c, hco, e1⟩, hil⟩ hne
      · intro c hcm
        have hcm := (hmem' c).1 hcm
        have := (keep_all (d := d) (hK c hcm) (by rw [hd.bm]; exact hb c hcm) (hd.recs c hcm) (ws ++ (removeAll m1 out).2).length).2
        rw [List.take_length] at this
        exact this

/-- Restarting from a disk whose set bits all carry records of `L`. -/
theorem crash_spec {g : Geo} {L : List (Nat × Info)} {d : Disk} (hL : LOk g L) (h : Img L d.bm d.slots)
    (hlen : d.bm.length = d.slots.length) :
    ∃ m', load d = some m' ∧ Core g m' ∧ BitOk m' ∧ Clean m' d ∧
      (∀ c ∈ m'.chunks, ∃ c' ∈ L, c.1 = c'.1 ∧ Same c.2 c'.2) := by
  obtain ⟨m', e1, e2, e3, e4, e5, e6⟩ := load_spec hL h
  refine ⟨m', e1, e2, e3, ⟨e4.symm, hlen, ?_, fun c hc => ((e6 c).1 hc).2⟩, ?_⟩
  · intro i hi
    rw [e4] at hi; exact e5 i hi
  · intro c hc
    obtain ⟨h1, h2⟩ := (e6 c).1 hc
    obtain ⟨x, q1, c', hc', q2, q3⟩ := h c.1 h1
    rw [h2] at q1
    injection q1 with q1; injection q1 with q1
    exact ⟨c', hc', q2.symm, by rw [q1]; exact q3⟩

theorem reach_inv {pick g n b m d} (hp : PickOk pick) (h : Reach pick g n b m d) :
    Core g m ∧ BitOk m ∧ (b = true → Clean m d) := by
  induction h with
  | format =>
    refine ⟨⟨⟨by simp, by simp⟩, ⟨by simp, by simp⟩, by simp, by simp, by simp⟩, by simp [BitOk], fun _ => ?_⟩
    refine ⟨rfl, by simp [formatted], ?_, by simp⟩
    intro i hi
    simp [List.getElem?_replicate] at hi
  | op o _ ho hr ih =>
    obtain ⟨i1, i2, i3⟩ := ih
    obtain ⟨m', ws, ok, e, h1, h2, h3⟩ := op_spec hp o i1 i2 ho
    rw [e] at hr
    simp only [Option.some.injEq, Prod.mk.injEq] at hr
    obtain ⟨q1, q2, q3⟩ := hr
    subst q1; subst q2
    refine ⟨h1, h2, ?_⟩
    intro hb
    simp only [Bool.and_eq_true, Bool.not_eq_true'] at hb
    exact (h3 _ (i3 hb.1) hb.2).1
  | crash o k _ ho hl hr hload ih =>
    obtain ⟨i1, i2, i3⟩ := ih
    obtain ⟨m', ws, ok, e, h1, h2, h3⟩ := op_spec hp o i1 i2 ho
    rw [e] at hr
    simp only [Option.some.injEq, Prod.mk.injEq] at hr
    obtain ⟨q1, q2, q3⟩ := hr
    subst q1; subst q2
    obtain ⟨_, L, l1, l2, l3, l4, l5⟩ := h3 _ (i3 rfl) hl
    obtain ⟨w1, w2, w3⟩ := WOk_img l3 (i3 rfl).len l4 k
    obtain ⟨m2, x1, x2, x3, x4, _⟩ := crash_spec l1 w1 w2
    rw [x1] at hload
    injection hload with hload
    subst hload
    exact ⟨x2, x3, fun _ => x4⟩
  | restart _ hload ih =>
    obtain ⟨i1, i2, i3⟩ := ih
    obtain ⟨m2, x1, x2, x3, x4, _⟩ := crash_spec i1.lok (i3 rfl).img (i3 rfl).len
    rw [x1] at hload
    injection hload with hload
    subst hload
    exact ⟨x2, x3, fun _ => x4⟩

theorem Apart.of_disj {x y : Info} (h : Disj x y) : Apart x y := by
  intro b hb
  unfold Disj at h
  omega

/-- **C16**, disjointness (partial: a restart after a `create_chunk` that failed for lack of data space is
excluded, see `C17_failed_create_violated`).  In every reachable state the data areas of all chunks are
pairwise disjoint and inside the device's data range, and no two chunks share a record slot. -/
theorem C16_areas_partial {pick g n b m d} (hp : PickOk pick) (h : Reach pick g n b m d) :
    m.chunks.Pairwise (fun x y => x.1 ≠ y.1 ∧ Apart x.2 y.2) ∧ ∀ c ∈ m.chunks, Fits g c.2 := by
  obtain ⟨i1, _, _⟩ := reach_inv hp h
  refine ⟨i1.lok.pw.imp (fun ⟨a, b⟩ => ⟨a, Apart.of_disj b⟩), ?_⟩
  intro c hc b h1 h2
  have := i1.lok.inb c hc
  exact ⟨by have := this.2.1; omega, by have := this.2.2; omega⟩

/-- **C16**, creation: in every reachable state (same restriction) `create_chunk` does not abort, and it fails
only if all record slots are taken or no gap of the requested size exists in the data range; if it succeeds
there is exactly one new chunk, with the requested size and ids. -/
theorem C16_create_partial {pick g n b m d id vdev size} (hp : PickOk pick) (h : Reach pick g n b m d) (hs : 1 ≤ size) :
    (∃ m' ws slot info, createChunk g m id vdev size = .ok (m', ws) ∧ m'.chunks = (slot, info) :: m.chunks ∧
        info.id = id ∧ info.vdev = vdev ∧ info.size = size) ∨
    (∃ m', createChunk g m id vdev size = .noRoom m' ∧ m'.chunks = m.chunks ∧
      ((∀ i : Nat, i < m.bm.length → m.bm[i]? = some true) ∨
       ¬ ∃ lo, g.dataStart ≤ lo ∧ lo + size ≤ g.dataEnd ∧ ∀ c ∈ m.chunks, Apart ⟨lo, size, id, vdev, true⟩ c.2)) := by
  obtain ⟨i1, i2, _⟩ := reach_inv hp h
  unfold createChunk
  have hfr := firstReset_spec (bm := m.bm)
  cases hf : firstReset m.bm with
  | none =>
    rw [hf] at hfr
    right
    refine ⟨m, rfl, rfl, .inl ?_⟩
    intro i hi
    have := hfr i
    simp only [List.getElem?_eq_getElem hi, ne_eq, Option.some.injEq, Bool.not_eq_false] at this ⊢
    exact this
  | some s =>
    simp only
    have hc1 : Core g { m with bm := m.bm.set s true } := ⟨i1.as, i1.lok, i1.cov, i1.sts, i1.snd⟩
    rcases populate_spec (vdev := vdev) (id := id) hc1 hs with ⟨h1, h2⟩ | ⟨info, m1, h1, hsz, hid, hvd, _, _, _, hch, _⟩
    · right
      rw [h1]
      refine ⟨_, rfl, rfl, .inr ?_⟩
      rintro ⟨lo, a1, a2, a3⟩
      obtain ⟨c, hc, hn⟩ := findArea_none hc1 h2 lo a1 a2
      have hb := i1.lok.inb c hc
      have := a3 c hc (max lo c.2.start)
      unfold InB at hb
      simp only at this hn
      omega
    · left
      rw [h1]
      exact ⟨_, _, s, info, rfl, by simp [hch], hid, hvd, hsz⟩

/-- **C17** (partial: histories in which a `create_chunk` failed for lack of data space are excluded).  In every
reachable state, a call does not abort; and if the machine crashes after any number of the super block writes
of the call, the restart succeeds, every chunk that existed before the call and was not being removed is loaded
unchanged, and every chunk loaded either existed before the call (possibly the one being removed) or is one the
interrupted call was creating. -/
theorem C17_crash_partial {pick g n m d} (hp : PickOk pick) (h : Reach pick g n true m d) (o : Op) (ho : okOp m o)
    (hl : leaks g m o = false) :
    ∃ m' ws ok, run pick g m o = some (m', ws, ok) ∧
      ∀ k, ∃ m'', load (d.applyAll (ws.take k)) = some m'' ∧
        (∀ c ∈ m.chunks, (∀ c', o = .remove c' → c ≠ c') → c ∈ m''.chunks) ∧
        (∀ c ∈ m''.chunks, (∃ c' ∈ m.chunks, c.1 = c'.1 ∧ Same c.2 c'.2) ∨ made o c) := by
  obtain ⟨i1, i2, i3⟩ := reach_inv hp h
  obtain ⟨m', ws, ok, e, h1, h2, h3⟩ := op_spec hp o i1 i2 ho
  refine ⟨m', ws, ok, e, ?_⟩
  intro k
  have cl := i3 rfl
  obtain ⟨_, L, l1, l2, l3, l4, l5⟩ := h3 d cl hl
  obtain ⟨w1, w2, w3⟩ := WOk_img l3 cl.len l4 k
  obtain ⟨m2, x1, x2, x3, x4, x5⟩ := crash_spec l1 w1 w2
  obtain ⟨_, y1, _, _, _, _, y6⟩ := load_spec l1 w1
  rw [x1] at y1; injection y1 with y1; subst y1
  refine ⟨m2, x1, ?_, ?_⟩
  · intro c hc hne
    rw [y6]
    exact keep_all (l5 c hc hne) (by rw [cl.bm]; exact i2 c hc) (cl.recs c hc) k
  · intro c hc
    obtain ⟨c', hc', q1, q2⟩ := x5 c hc
    rcases l2 c' hc' with hm | hm
    · exact .inl ⟨c', hm, q1, q2⟩
    · right
      revert hm
      cases o <;> simp only [made] <;> simp [q2.2.2.1, q2.2.2.2, q2.2.1]

/-- **C17**, clean restart: after a completed call (same restriction) a restart loads exactly the chunks the
running system knows, each with its slot and record unchanged. -/
theorem C17_restart_partial {pick g n m d} (hp : PickOk pick) (h : Reach pick g n true m d) :
    ∃ m'', load d = some m'' ∧ ∀ c, c ∈ m''.chunks ↔ c ∈ m.chunks := by
  obtain ⟨i1, i2, i3⟩ := reach_inv hp h
  have cl := i3 rfl
  obtain ⟨m2, e1, _, _, _, _, e6⟩ := load_spec i1.lok cl.img
  refine ⟨m2, e1, ?_⟩
  intro c
  rw [e6]
  constructor
  · rintro ⟨h1, h2⟩
    rw [cl.bm] at h1
    obtain ⟨c', hc', e⟩ := cl.bits c.1 h1
    have := cl.recs c' hc'
    rw [e, h2] at this
    simp only [Option.some.injEq] at this
    have hcc : c = c' := Prod.ext e.symm this
    rw [hcc]; exact hc'
  · intro hc
    exact ⟨by rw [cl.bm]; exact i2 c hc, cl.recs c hc⟩

theorem fillRun_ids {g : Geo} {vdev size : Nat} : ∀ {ids : List Nat} {s : Nat} {m m1 : Mem} {out out1 : List (Nat × Info)},
    fillRun g vdev size s ids m out = some (m1, out1, false) → out1.map (fun c => c.2.id) = out.map (fun c => c.2.id) ++ ids := by
  intro ids
  induction ids with
  | nil => intro s m m1 out out1 h; simp [fillRun] at h; simp [h.2]
  | cons id ids ih =>
    intro s m m1 out out1 h
    simp only [fillRun] at h
    cases hp : populate g m vdev size id with
    | abort => rw [hp] at h; simp at h
    | noRoom m2 => rw [hp] at h; simp at h
    | ok r =>
      rw [hp] at h
      have hid : r.1.id = id := by
        unfold populate at hp
        split at hp
        · cases hp
        · split at hp
          · cases hp
          · cases hp; rfl
      have := ih h
      rw [this]
      simp [hid]

theorem createLoop_ids {pick : List Bool → Nat → Option (Nat × Nat)} (hp : PickOk pick) {g : Geo} {vdev size : Nat} :
    ∀ {fuel : Nat} {ids : List Nat} {m m1 : Mem} {out out1 ws ws1}, ids.length ≤ fuel →
    createLoop pick g vdev size fuel ids m out ws = some (m1, out1, ws1, false) →
    out1.map (fun c => c.2.id) = out.map (fun c => c.2.id) ++ ids := by
  intro fuel
  induction fuel with
  | zero =>
    intro ids m m1 out out1 ws ws1 hl h
    have : ids = [] := List.length_eq_zero_iff.1 (by omega)
    simp [createLoop] at h
    simp [h.2.1, this]
  | succ fuel ih =>
    intro ids m m1 out out1 ws ws1 hl h
    simp only [createLoop] at h
    split at h
    · rename_i h0
      simp at h
      simp [h.2.1, List.length_eq_zero_iff.1 h0]
    · rename_i h0
      have hpk := hp m.bm ids.length (by omega)
      split at h
      · simp at h
      · rename_i s n hpick
        rw [hpick] at hpk
        split at h
        · simp at h
        · simp at h
        · rename_i m2 new hfill
          have h1 := fillRun_ids hfill
          have h2 := ih (by simp; omega) h
          rw [h2]
          simp only [List.map_append, h1, List.map_nil, List.nil_append, List.append_assoc, List.take_append_drop]

/-- **C17**, creating several chunks at once (partial, same restriction): `create_chunks` does not abort.  If it
reports success there is one new chunk for every requested id, in order, with the requested size and virtual
device, in slots not used before; if it reports failure the chunks are those that existed before the call. -/
theorem C17_create_many_partial {pick g n b m d ids vdev size} (hp : PickOk pick) (h : Reach pick g n b m d) (hs : 1 ≤ size) :
    ∃ m' ws ok, createChunks pick g m ids vdev size = some (m', ws, ok) ∧
      (ok = true → ∃ new : List (Nat × Info), new.map (fun c => c.2.id) = ids ∧ (∀ c, c ∈ m'.chunks ↔ c ∈ new ∨ c ∈ m.chunks) ∧
        (∀ c ∈ new, c.2.vdev = vdev ∧ c.2.size = size ∧ ∀ c' ∈ m.chunks, c'.1 ≠ c.1)) ∧
      (ok = false → ∀ c, c ∈ m'.chunks ↔ c ∈ m.chunks) := by
  obtain ⟨hc, hb, _⟩ := reach_inv hp h
  obtain ⟨m1, out, ws, e, h1, inv, hok⟩ := createLoop_spec hp (all := ids) (vdev := vdev) hs (fuel := ids.length) (ids := ids)
    (loopInv_init hc) hb (fun x hx => hx) (Nat.le_refl _)
  have hcross : ∀ c ∈ m.chunks, ∀ c' ∈ out, c.1 ≠ c'.1 := by
    intro c hcm c' hc' he
    have := hb c hcm
    rw [he, (inv.new c' hc').1] at this; simp at this
  unfold createChunks
  rw [h1]
  cases e with
  | false =>
    refine ⟨_, _, _, rfl, fun _ => ⟨out, ?_, inv.mem, ?_⟩, by simp⟩
    · simpa using createLoop_ids hp (Nat.le_refl _) h1
    · intro c hco
      exact ⟨(inv.new c hco).2.2.1, (inv.new c hco).2.2.2, fun c' hc' => hcross c' hc' c hco⟩
  | true =>
    refine ⟨_, _, _, rfl, by simp, fun _ c => ?_⟩
    obtain ⟨_, r2, _⟩ := removeAll_spec inv.core (cs := out) (fun c h => (inv.mem c).2 (.inl h)) inv.nd
    rw [r2, inv.mem]
    constructor
    · rintro ⟨h | h, h2⟩
      · exact absurd h h2
      · exact h
    · intro h
      exact ⟨.inr h, fun h' => hcross c h c h' rfl⟩

/-! ## Non-vacuity: a concrete history -/

/-- First run of clear bits, at most `k` long. -/
def firstRun (bm : List Bool) (k : Nat) : Option (Nat × Nat) :=
  match firstReset bm with
  | none => none
  | some s => if k = 0 then none else some (s, min k ((bm.drop s).takeWhile (· = false)).length)

/-- The simplest admissible choice of run: one bit at a time. -/
def pickOne (bm : List Bool) (_k : Nat) : Option (Nat × Nat) :=
  match firstReset bm with
  | none => none
  | some s => some (s, 1)

/-- The hypothesis `PickOk` is met by taking the first clear bit. -/
theorem pickOne_ok : PickOk pickOne := by
  intro bm k hk
  have := firstReset_spec (bm := bm)
  unfold pickOne
  cases h : firstReset bm with
  | none => rw [h] at this; exact this
  | some s =>
    rw [h] at this
    refine ⟨Nat.le_refl _, hk, ?_⟩
    intro i hi
    have : i = 0 := by omega
    subst this; simpa using ‹bm[s]? = some false›

theorem takeWhile_false : ∀ (l : List Bool) (i : Nat), i < (l.takeWhile (· = false)).length → l[i]? = some false := by
  intro l
  induction l with
  | nil => intro i h; simp at h
  | cons a l ih =>
    intro i h
    cases a with
    | true => simp at h
    | false =>
      cases i with
      | zero => rfl
      | succ i => simp at h; simpa using ih i (by simpa using h)

/-- The hypothesis `PickOk` is met by taking the longest possible part of the first run of clear bits. -/
theorem firstRun_ok : PickOk firstRun := by
  intro bm k hk
  have hs := firstReset_spec (bm := bm)
  unfold firstRun
  cases h : firstReset bm with
  | none => rw [h] at hs; exact hs
  | some s =>
    rw [h] at hs
    simp only [if_neg (show ¬ k = 0 by omega)]
    have hs : bm[s]? = some false := hs
    obtain ⟨h1, h2⟩ := List.getElem?_eq_some_iff.1 hs
    have hd : bm.drop s = false :: bm.drop (s + 1) := by rw [List.drop_eq_getElem_cons h1, h2]
    refine ⟨?_, Nat.min_le_left _ _, ?_⟩
    · rw [hd]; simp; omega
    · intro i hi
      have := takeWhile_false (bm.drop s) i (by omega)
      simpa using this

def g0 : Geo := ⟨100, 200⟩
def m0 : Mem := ⟨[], List.replicate 6 false, [], []⟩

/-- Two chunks of 30 bytes, then removal of the first, then two of 25 bytes (the first goes into the gap). -/
def demo : Option (Mem × Disk) := do
  let (m1, w1, _) ← run firstRun g0 m0 (.createMany [7, 8] 1 30)
  let (m2, w2, _) ← run firstRun g0 m1 (.remove (0, ⟨100, 30, 7, 1, true⟩))
  let (m3, w3, _) ← run firstRun g0 m2 (.createMany [9, 10] 1 25)
  return (m3, (((formatted 6).applyAll w1).applyAll w2).applyAll w3)

example : demo.map (fun p => p.1.chunks) = some
    [(2, ⟨160, 25, 10, 1, true⟩), (0, ⟨100, 25, 9, 1, true⟩), (1, ⟨130, 30, 8, 1, true⟩)] := by decide +kernel

/-- The theorems apply to the last state of this history: it is reachable with the flag set. -/
example : ∃ m d, demo = some (m, d) ∧ m.chunks.length = 3 ∧ Reach firstRun g0 6 true m d :=
  ⟨_, _, rfl, by decide +kernel,
    .op (b := true) (.createMany [9, 10] 1 25) (.op (b := true) (.remove (0, ⟨100, 30, 7, 1, true⟩))
      (.op (b := true) (.createMany [7, 8] 1 30) .format (by decide +kernel) rfl) (by decide +kernel) rfl) (by decide +kernel) rfl⟩

/-- A crash between the first and the second super block write of the removal: the chunk is still there. -/
example : ((run firstRun g0 m0 (.createMany [7, 8] 1 30)).bind fun r1 =>
    (run firstRun g0 r1.1 (.remove (0, ⟨100, 30, 7, 1, true⟩))).bind fun r2 =>
      (load (((formatted 6).applyAll r1.2.1).applyAll (r2.2.1.take 1))).map fun m => m.chunks.map (·.2.id)) = some [8, 7] := by
  decide +kernel

/-- A failing `create_chunks` rolls back: third chunk of 40 does not fit. -/
example : (run firstRun g0 m0 (.createMany [1, 2, 3] 1 40)).map (fun r => (r.1.chunks, r.1.areas, r.2.2)) =
    some ([], [], false) := by decide +kernel

/-! ## Violation: a failed create_chunk leaks its slot -/

/-- **C17** (and **C16** across the restart) is violated.  History: create a chunk A, remove it, try to create a
chunk that does not fit in any gap (fails, slot 0 stays marked in memory), create chunk B (persists the bitmap,
slot 0 included), restart: the removed chunk A is loaded again, and its data area overlaps B's. -/
theorem C17_failed_create_violated : ∃ m1 w1 m2 w2 m3 m4 w4 m5 a b,
    run pickOne g0 m0 (.create 1 1 60) = some (m1, w1, true) ∧ a ∈ m1.chunks ∧
    run pickOne g0 m1 (.remove a) = some (m2, w2, true) ∧
    run pickOne g0 m2 (.create 2 1 120) = some (m3, [], false) ∧
    run pickOne g0 m3 (.create 3 1 50) = some (m4, w4, true) ∧ m4.chunks = [b] ∧
    load ((((formatted 6).applyAll w1).applyAll w2).applyAll w4) = some m5 ∧
    b ∈ m5.chunks ∧ (∃ a' ∈ m5.chunks, a'.2.id = 1 ∧ ¬ Apart a'.2 b.2) := by
  refine ⟨_, _, _, _, _, _, _, _, (0, ⟨100, 60, 1, 1, true⟩), (1, ⟨100, 50, 3, 1, true⟩), rfl, by decide +kernel, rfl, rfl, rfl,
    by decide +kernel, rfl, by decide +kernel, (0, ⟨100, 60, 1, 1, false⟩), by decide +kernel, by decide +kernel, ?_⟩
  intro h
  exact h 100 (by decide)

/-- **C17** is violated in a second way: if the leaked slot was never used before, the restart aborts (its
record is all zeros and the checksum test of an all-zero record fails, `HS.Crc.zero_record_rejected`). -/
theorem C17_failed_create_abort_violated : ∃ m1 m2 w2,
    run pickOne g0 m0 (.create 2 1 120) = some (m1, [], false) ∧
    run pickOne g0 m1 (.create 3 1 50) = some (m2, w2, true) ∧
    load ((formatted 6).applyAll w2) = none :=
  ⟨_, _, _, rfl, rfl, by decide +kernel⟩

end HS.Pdev
