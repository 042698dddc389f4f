import Verif.Meta.Content

/-!
# Lemmas: the record list on disk, operations, restart
-/
namespace HS.Meta

/-- Ghost view of one record: block, overflow chain with data, content. -/
structure G where
  m : MBlk
  xs : List (OHdr × List Byte)
  content : List Byte

def G.blocks (g : G) : List Nat := g.m.bid :: xblocks g.xs
def G.entry (g : G) : Entry := { bid := g.m.bid, typ := g.m.typ, content := g.content }
def G.hdrs (g : G) : List OHdr := g.xs.map Prod.fst
/-- The same record with other links. -/
def G.link (g : G) (p : Nat) (n : Option Nat) : G := { g with m := { g.m with prev := p, next := n } }

@[simp] theorem G.link_blocks (g : G) (p n) : (g.link p n).blocks = g.blocks := rfl
@[simp] theorem G.link_entry (g : G) (p n) : (g.link p n).entry = g.entry := rfl
@[simp] theorem G.link_hdrs (g : G) (p n) : (g.link p n).hdrs = g.hdrs := rfl
@[simp] theorem G.link_bid (g : G) (p n) : (g.link p n).m.bid = g.m.bid := rfl
@[simp] theorem G.link_next (g : G) (p n) : (g.link p n).m.next = n := rfl
@[simp] theorem G.link_prev (g : G) (p n) : (g.link p n).m.prev = p := rfl

def blocksOf (L : List G) : List Nat := L.flatMap G.blocks

@[simp] theorem blocksOf_nil : blocksOf [] = [] := rfl
@[simp] theorem blocksOf_cons (g : G) (L : List G) : blocksOf (g :: L) = g.blocks ++ blocksOf L := rfl
@[simp] theorem blocksOf_append (A B : List G) : blocksOf (A ++ B) = blocksOf A ++ blocksOf B := by
  simp [blocksOf]

theorem bid_mem_blocks (g : G) : g.m.bid ∈ g.blocks := by simp [G.blocks]

theorem bid_mem_blocksOf {g : G} {L : List G} (h : g ∈ L) : g.m.bid ∈ blocksOf L :=
  List.mem_flatMap.2 ⟨g, h, bid_mem_blocks g⟩

/-- A stretch of the list on disk, from the pointer `s` (stored in the record `p`) to the pointer
`f`.  With `strict`, the back pointers are right too. -/
def Seg (c : Cfg) (d : Disk) (strict : Prop) : Nat → Option Nat → List G → Option Nat → Prop
  | _, s, [], f => s = f
  | p, s, g :: gs, f => s = some g.m.bid ∧ d g.m.bid = .mblk g.m ∧ RecOk c d g.m g.xs g.content ∧
      (strict → g.m.prev = p) ∧ Seg c d strict g.m.bid g.m.next gs f

/-- bid of the last record of `L`, or `p`. -/
def lastBid (p : Nat) : List G → Nat
  | [] => p
  | g :: gs => lastBid g.m.bid gs

@[simp] theorem lastBid_append_singleton (p : Nat) (A : List G) (g : G) : lastBid p (A ++ [g]) = g.m.bid := by
  induction A generalizing p with
  | nil => rfl
  | cons a A ih => exact ih _

theorem Seg.append {c : Cfg} {d : Disk} {st : Prop} {p : Nat} {s f : Option Nat} {A B : List G} :
    Seg c d st p s (A ++ B) f ↔ ∃ k, Seg c d st p s A k ∧ Seg c d st (lastBid p A) k B f := by
  induction A generalizing p s with
  | nil => simp [Seg, lastBid]
  | cons a A ih =>
    simp only [List.cons_append, Seg, lastBid, ih]
    constructor
    · rintro ⟨h1, h2, h3, h4, k, h5, h6⟩; exact ⟨k, ⟨h1, h2, h3, h4, h5⟩, h6⟩
    · rintro ⟨k, ⟨h1, h2, h3, h4, h5⟩, h6⟩; exact ⟨h1, h2, h3, h4, k, h5, h6⟩

theorem Seg.frame {c : Cfg} (hbs : 0 < c.bs) {d d' : Disk} {st : Prop} {p : Nat} {s f : Option Nat} {L : List G}
    (h : Seg c d st p s L f) (e : ∀ b ∈ blocksOf L, d' b = d b) : Seg c d' st p s L f := by
  induction L generalizing p s with
  | nil => exact h
  | cons g L ih =>
    obtain ⟨h1, h2, h3, h4, h5⟩ := h
    refine ⟨h1, ?_, h3.frame hbs ?_, h4, ih h5 ?_⟩
    · rw [e _ (by simp [G.blocks]), h2]
    · intro b hb; exact e b (by simp [G.blocks, hb])
    · intro b hb; exact e b (by simp [hb])

theorem Seg.weaken {c : Cfg} {d : Disk} {st : Prop} {p : Nat} {s f : Option Nat} {L : List G}
    (h : Seg c d st p s L f) : Seg c d False p s L f := by
  induction L generalizing p s with
  | nil => exact h
  | cons g L ih => exact ⟨h.1, h.2.1, h.2.2.1, False.elim, ih h.2.2.2.2⟩

/-- Changing where the previous record is does not matter without `strict`. -/
theorem Seg.prevIrrel {c : Cfg} {d : Disk} {p q : Nat} {s f : Option Nat} {L : List G}
    (h : Seg c d False p s L f) : Seg c d False q s L f := by
  cases L with
  | nil => exact h
  | cons g L => exact ⟨h.1, h.2.1, h.2.2.1, False.elim, h.2.2.2.2⟩

/-- The records `L` are on disk. -/
structure DiskOk (c : Cfg) (ssb : Nat) (strict : Prop) (d : Disk) (L : List G) : Prop where
  list : ∃ first, d ssb = .ssb ssb first ∧ Seg c d strict ssb first L none
  nd : (ssb :: blocksOf L).Nodup

theorem DiskOk.frame {c : Cfg} (hbs : 0 < c.bs) {ssb : Nat} {st : Prop} {d d' : Disk} {L : List G}
    (h : DiskOk c ssb st d L) (e : ∀ b ∈ ssb :: blocksOf L, d' b = d b) : DiskOk c ssb st d' L := by
  obtain ⟨⟨f, h1, h2⟩, h3⟩ := h
  refine ⟨⟨f, ?_, h2.frame hbs (fun b hb => e b (by simp [hb]))⟩, h3⟩
  rw [e _ (by simp), h1]

theorem DiskOk.weaken {c : Cfg} {ssb : Nat} {st : Prop} {d : Disk} {L : List G}
    (h : DiskOk c ssb st d L) : DiskOk c ssb False d L := by
  obtain ⟨⟨f, h1, h2⟩, h3⟩ := h
  exact ⟨⟨f, h1, h2.weaken⟩, h3⟩

/-! ## Scanning -/

def hdrsOf (L : List G) : List OHdr := L.flatMap G.hdrs

/-- The records with their back pointers repaired. -/
def fixL : Nat → List G → List G
  | _, [] => []
  | p, g :: gs => g.link p g.m.next :: fixL g.m.bid gs

theorem fixL_entry (p : Nat) (L : List G) : (fixL p L).map G.entry = L.map G.entry := by
  induction L generalizing p with
  | nil => rfl
  | cons g L ih => simp [fixL, ih]

theorem fixL_blocks (p : Nat) (L : List G) : blocksOf (fixL p L) = blocksOf L := by
  induction L generalizing p with
  | nil => rfl
  | cons g L ih => simp [fixL, ih]

theorem fixL_hdrs (p : Nat) (L : List G) : hdrsOf (fixL p L) = hdrsOf L := by
  induction L generalizing p with
  | nil => rfl
  | cons g L ih => 
    have := ih g.m.bid
    simp only [hdrsOf] at this ⊢
    simp [fixL, this]

/-- Repairs. -/
def fixW : Nat → List G → List Write
  | _, [] => []
  | p, g :: gs => (if g.m.prev ≠ p then [(g.m.bid, Blk.mblk (g.link p g.m.next).m)] else []) ++ fixW g.m.bid gs

def maxHdrs : List G → Nat
  | [] => 0
  | g :: gs => max g.xs.length (maxHdrs gs)

def scanRes : Nat → List G → List (MBlk × Bool × List OHdr)
  | _, [] => []
  | p, g :: gs => ((g.link p g.m.next).m, decide (g.m.prev ≠ p), g.hdrs) :: scanRes g.m.bid gs

theorem scanMeta_ok {c : Cfg} {d : Disk} {p : Nat} {s : Option Nat} {L : List G} {st : Prop}
    (h : Seg c d st p s L none) (of f : Nat) (ho : maxHdrs L ≤ of) (hf : L.length ≤ f) :
    scanMeta c d of f p s = some (scanRes p L) := by
  induction L generalizing p s f with
  | nil =>
    have : s = none := h
    subst this
    rw [scanMeta]; rfl
  | cons g L ih =>
    obtain ⟨h1, h2, h3, h4, h5⟩ := h
    subst h1
    cases f with
    | zero => simp at hf
    | succ f =>
      have ho' : g.xs.length ≤ of ∧ maxHdrs L ≤ of := by simpa [maxHdrs] using ho
      rw [scanMeta]
      simp only [h2, if_true, scanOvf_ok d g.xs h3.has _ h3.chain of ho'.1]
      rw [if_pos h3.size, ih h5 f ho'.2 (by simp at hf; omega)]
      rfl

theorem scanRes_ms (p : Nat) (L : List G) : (scanRes p L).map (·.1) = (fixL p L).map G.m := by
  induction L generalizing p with
  | nil => rfl
  | cons g L ih => simp [scanRes, fixL, ih]

theorem scanRes_hs (p : Nat) (L : List G) : (scanRes p L).flatMap (·.2.2) = hdrsOf L := by
  induction L generalizing p with
  | nil => rfl
  | cons g L ih => 
    have := ih g.m.bid
    simp only [hdrsOf] at this ⊢
    simp [scanRes, this]

theorem scanRes_ws (p : Nat) (L : List G) :
    (scanRes p L).filterMap (fun x => if x.2.1 then some (x.1.bid, Blk.mblk x.1) else none) = fixW p L := by
  induction L generalizing p with
  | nil => rfl
  | cons g L ih =>
    by_cases h : g.m.prev = p
    · simp [scanRes, fixW, ih, h]
    · simp [scanRes, fixW, ih, h]

theorem scanRes_blocks (p : Nat) (L : List G) :
    (scanRes p L).flatMap (fun x => x.1.bid :: x.2.2.flatMap OHdr.blocks) = blocksOf L := by
  induction L generalizing p with
  | nil => rfl
  | cons g L ih => simp [scanRes, ih, G.blocks, G.hdrs, xblocks]

theorem fixW_sub (p : Nat) (L : List G) : ((fixW p L).map Prod.fst).Sublist (L.map (·.m.bid)) := by
  induction L generalizing p with
  | nil => simp [fixW]
  | cons g L ih =>
    by_cases h : g.m.prev = p
    · simpa [fixW, h] using (ih g.m.bid).cons _
    · simpa [fixW, h] using (ih g.m.bid).cons_cons g.m.bid

/-- After any prefix of the repairs the same records are there; after all of them the back pointers
are right. -/
theorem Seg.repair {c : Cfg} (hbs : 0 < c.bs) {d : Disk} {st : Prop} {p : Nat} {s f : Option Nat} {L : List G}
    (h : Seg c d st p s L f) (nd : (blocksOf L).Nodup) (k : Nat) :
    (∃ L', Seg c (exec d ((fixW p L).take k)) False p s L' f ∧ L'.map G.entry = L.map G.entry ∧
      blocksOf L' = blocksOf L) ∧
    Seg c (exec d (fixW p L)) True p s (fixL p L) f := by
  induction L generalizing p s k d with
  | nil => exact ⟨⟨[], h, rfl, rfl⟩, h⟩
  | cons g L ih =>
    obtain ⟨h1, h2, h3, h4, h5⟩ := h
    rw [blocksOf_cons, List.nodup_append] at nd
    obtain ⟨nd1, nd2, nd3⟩ := nd
    have nd4 : ∀ b ∈ g.blocks, b ∉ blocksOf L := fun b hb hb' => nd3 b hb b hb' rfl
    have nd5 : g.m.bid ∉ xblocks g.xs := by
      have := nd1; simp only [G.blocks, List.nodup_cons] at this; exact this.1
    have hsubW : ∀ b ∈ (fixW g.m.bid L).map Prod.fst, b ∈ blocksOf L := by
      intro b hb
      have := (fixW_sub g.m.bid L).subset hb
      obtain ⟨x, hx, rfl⟩ := List.mem_map.1 this
      exact bid_mem_blocksOf hx
    have hsubT : ∀ k, ∀ b ∈ ((fixW g.m.bid L).take k).map Prod.fst, b ∈ blocksOf L := by
      intro k b hb
      apply hsubW
      rw [List.map_take] at hb
      exact List.mem_of_mem_take hb
    by_cases hp : g.m.prev = p
    · have eW : fixW p (g :: L) = fixW g.m.bid L := by simp [fixW, hp]
      have eg : g.link p g.m.next = g := by
        obtain ⟨m, xs, ct⟩ := g
        subst hp; rfl
      rw [eW]
      obtain ⟨⟨L', i1, i2, i3⟩, -⟩ := ih h5 nd2 k
      obtain ⟨-, i4⟩ := ih h5 nd2 0
      constructor
      · refine ⟨g :: L', ⟨h1, ?_, h3.frame hbs ?_, False.elim, i1⟩, by simp [i2], by simp [i3]⟩
        · rw [exec_frame _ _ _ (fun hb => nd4 _ (bid_mem_blocks g) (hsubT k _ hb)), h2]
        · intro b hb
          exact exec_frame _ _ _ (fun hb' => nd4 b (by simp [G.blocks, hb]) (hsubT k _ hb'))
      · rw [fixL, eg]
        refine ⟨h1, ?_, h3.frame hbs ?_, fun _ => hp, i4⟩
        · rw [exec_frame _ _ _ (fun hb => nd4 _ (bid_mem_blocks g) (hsubW _ hb)), h2]
        · intro b hb
          exact exec_frame _ _ _ (fun hb' => nd4 b (by simp [G.blocks, hb]) (hsubW _ hb'))
    · have eW : fixW p (g :: L) = (g.m.bid, Blk.mblk (g.link p g.m.next).m) :: fixW g.m.bid L := by
        simp [fixW, hp]
      rw [eW]
      let d1 := fset d g.m.bid (Blk.mblk (g.link p g.m.next).m)
      have hfr : ∀ b, b ≠ g.m.bid → d1 b = d b := by intro b hb; simp [d1, fset, hb]
      have h5' : Seg c d1 st g.m.bid g.m.next L f := h5.frame hbs (fun b hb =>
        hfr b (fun he => nd4 _ (bid_mem_blocks g) (he ▸ hb)))
      have h3' : RecOk c d1 (g.link p g.m.next).m g.xs g.content :=
        (h3.frame hbs (fun b hb => hfr b (fun he => nd5 (he ▸ hb)))).relink p g.m.next
      have h2' : d1 g.m.bid = Blk.mblk (g.link p g.m.next).m := by simp [d1, fset]
      constructor
      · cases k with
        | zero =>
          refine ⟨g :: L, ?_, rfl, rfl⟩
          exact ⟨h1, h2, h3, False.elim, h5.weaken⟩
        | succ k =>
          obtain ⟨⟨L', i1, i2, i3⟩, -⟩ := ih h5' nd2 k
          rw [List.take_succ_cons, exec_cons]
          refine ⟨g.link p g.m.next :: L', ⟨h1, ?_, h3'.frame hbs ?_, False.elim, i1⟩, by simp [i2], by simp [i3]⟩
          · rw [G.link_bid]
            change exec d1 _ _ = _
            rw [exec_frame _ _ _ (fun hb => nd4 _ (bid_mem_blocks g) (hsubT k _ hb)), h2']
          · intro b hb
            exact exec_frame _ _ _ (fun hb' => nd4 b (by simp [G.blocks]; right; exact hb) (hsubT k _ hb'))
      · obtain ⟨-, i4⟩ := ih h5' nd2 0
        rw [exec_cons, fixL]
        refine ⟨h1, ?_, h3'.frame hbs ?_, fun _ => rfl, i4⟩
        · rw [G.link_bid]
          change exec d1 _ _ = _
          rw [exec_frame _ _ _ (fun hb => nd4 _ (bid_mem_blocks g) (hsubW _ hb)), h2']
        · intro b hb
          exact exec_frame _ _ _ (fun hb' => nd4 b (by simp [G.blocks]; right; exact hb) (hsubW _ hb'))

/-! ## The in-memory view -/

/-- The running service: records `L`, in memory and on disk. -/
structure Inv (c : Cfg) (s : St) (d : Disk) (L : List G) : Prop where
  disk : ∃ first, d s.ssb = .ssb s.ssb first ∧ s.ssbNext = first ∧ Seg c d True s.ssb first L none
  nd : (s.ssb :: blocksOf L).Nodup
  ne : L ≠ []
  last : s.last = some (lastBid s.ssb L)
  cache : ∀ b m, s.cache b = some m ↔ ∃ g ∈ L, g.m = m ∧ m.bid = b
  hdrs : s.ohdrs.Perm (hdrsOf L)
  used : ∀ b, s.used b = true ↔ b ∈ s.ssb :: blocksOf L

theorem Inv.diskOk {c : Cfg} {s : St} {d : Disk} {L : List G} (h : Inv c s d L) : DiskOk c s.ssb True d L := by
  obtain ⟨f, h1, -, h2⟩ := h.disk
  exact ⟨⟨f, h1, h2⟩, h.nd⟩

theorem hdrs_bids_sub (L : List G) : ((hdrsOf L).map OHdr.bid).Sublist (blocksOf L) := by
  induction L with
  | nil => simp [hdrsOf]
  | cons g L ih =>
    have e : hdrsOf (g :: L) = g.hdrs ++ hdrsOf L := rfl
    rw [e, List.map_append, blocksOf_cons]
    refine List.Sublist.append ?_ ih
    refine List.Sublist.cons _ ?_
    unfold xblocks
    change (g.hdrs.map OHdr.bid).Sublist (g.hdrs.flatMap OHdr.blocks)
    generalize g.hdrs = hs
    induction hs with
    | nil => simp
    | cons h hs ih =>
      simp only [List.map_cons, List.flatMap_cons, OHdr.blocks, List.cons_append]
      exact List.Sublist.cons_cons _ (ih.trans (List.sublist_append_right _ _))

theorem find_of_mem {hs : List OHdr} (nd : (hs.map OHdr.bid).Nodup) {o : OHdr} (h : o ∈ hs) :
    hs.find? (fun x => x.bid = o.bid) = some o := by
  induction hs with
  | nil => cases h
  | cons a hs ih =>
    simp only [List.map_cons, List.nodup_cons] at nd
    rw [List.find?_cons]
    rcases List.mem_cons.1 h with rfl | h
    · simp
    · have : a.bid ≠ o.bid := fun e => nd.1 (e ▸ List.mem_map_of_mem h)
      simp only [this, decide_false]
      exact ih nd.2 h

theorem deliverAll_ok {c : Cfg} (hbs : 0 < c.bs) {d : Disk} {hs : List OHdr} {st : Prop} {p : Nat} {s f : Option Nat}
    {L : List G} (h : Seg c d st p s L f) (nd : (hs.map OHdr.bid).Nodup)
    (hsub : ∀ g ∈ L, g.hdrs.Sublist hs) :
    deliverAll c d hs (L.map G.m) = some (L.map G.entry) := by
  induction L generalizing p s with
  | nil => rfl
  | cons g L ih =>
    obtain ⟨h1, h2, h3, h4, h5⟩ := h
    have hg := hsub g (by simp)
    have hx := (h3.deliver hbs (hs := hs)
      (fun x hx => find_of_mem nd (hg.subset (List.mem_map_of_mem hx)))
      (by simpa [G.hdrs] using hg.length_le)).2
    simp only [List.map_cons, deliverAll, hx, ih h5 (fun g' hg' => hsub g' (by simp [hg']))]
    rfl

theorem hdrs_sub_hdrsOf {g : G} {L : List G} (h : g ∈ L) : g.hdrs.Sublist (hdrsOf L) := by
  induction L with
  | nil => cases h
  | cons a L ih =>
    have e : hdrsOf (a :: L) = a.hdrs ++ hdrsOf L := rfl
    rw [e]
    rcases List.mem_cons.1 h with rfl | h
    · exact List.sublist_append_left _ _
    · exact (ih h).trans (List.sublist_append_right _ _)

theorem fixL_ne {p : Nat} {L : List G} (h : L ≠ []) : fixL p L ≠ [] := by
  cases L with
  | nil => exact absurd rfl h
  | cons => simp [fixL]

theorem lastBid_fix (p q : Nat) (L : List G) : lastBid p (fixL q L) = lastBid p L := by
  induction L generalizing p q with
  | nil => rfl
  | cons g L ih => simp only [fixL, lastBid, G.link_bid]; exact ih _ _

theorem lastBid_getLast (p : Nat) {L : List G} (h : L ≠ []) :
    (L.map G.m).getLast?.map MBlk.bid = some (lastBid p L) := by
  induction L generalizing p with
  | nil => exact absurd rfl h
  | cons g L ih =>
    cases L with
    | nil => rfl
    | cons g' L =>
      rw [lastBid, ← ih (p := g.m.bid) (by simp)]
      rfl

theorem scanRes_eq (p : Nat) (L : List G) {x} (h : x ∈ scanRes p L) : ∃ g ∈ fixL p L, g.m = x.1 := by
  have : x.1 ∈ (scanRes p L).map (·.1) := List.mem_map_of_mem h
  rw [scanRes_ms] at this
  exact List.mem_map.1 this

theorem cacheOf_scan (p : Nat) (L : List G) (nd : (blocksOf L).Nodup) (b : Nat) (m : MBlk) :
    cacheOf (scanRes p L) b = some m ↔ ∃ g ∈ fixL p L, g.m = m ∧ m.bid = b := by
  induction L generalizing p with
  | nil => simp [cacheOf, scanRes, fixL]
  | cons g L ih =>
    rw [blocksOf_cons, List.nodup_append] at nd
    have ih := ih g.m.bid nd.2.1
    simp only [cacheOf] at ih ⊢
    rw [scanRes, List.find?_cons, fixL]
    by_cases hb : g.m.bid = b
    · simp only [G.link_bid, hb, decide_true, Option.map_some, List.mem_cons, exists_eq_or_imp]
      constructor
      · intro h
        simp only [Option.some.injEq] at h
        left
        refine ⟨h, ?_⟩
        rw [← h]; exact hb
      · rintro (⟨h, -⟩ | ⟨g', hg', h, h'⟩)
        · rw [h]
        · exfalso
          have h6 : g'.m.bid ∈ blocksOf (fixL g.m.bid L) := bid_mem_blocksOf (by rw [hb]; exact hg')
          rw [fixL_blocks] at h6
          exact nd.2.2 _ (bid_mem_blocks g) _ h6 (by rw [hb, h, h'])
    · simp only [G.link_bid, hb, decide_false, List.mem_cons, exists_eq_or_imp]
      rw [ih]
      constructor
      · intro h; right; exact h
      · rintro (⟨h, h'⟩ | h)
        · rw [← h] at h'; exact absurd h' hb
        · exact h

/-- Restarting delivers exactly the records on disk. -/
theorem restart_ok {c : Cfg} (hbs : 0 < c.bs) {ssb : Nat} {d : Disk} {L : List G}
    (h : DiskOk c ssb False d L) (ne : L ≠ []) (fuel : Nat) (hf : max L.length (maxHdrs L) ≤ fuel) :
    ∃ s, restart c fuel ssb d = some (L.map G.entry, s, fixW ssb L) ∧ s.ssb = ssb ∧
      Inv c s (exec d (fixW ssb L)) (fixL ssb L) := by
  obtain ⟨⟨first, h1, h2⟩, nd⟩ := h
  have nd' : (blocksOf L).Nodup := (List.nodup_cons.1 nd).2
  have hscan := scanMeta_ok h2 fuel fuel (by omega) (by omega)
  have hrep := (h2.repair hbs nd' 0).2
  cases hfirst : first with
  | none =>
    subst hfirst
    cases L with
    | nil => exact absurd rfl ne
    | cons g L => exact absurd h2.1 (by simp)
  | some b =>
    subst hfirst
    have hnd : ((hdrsOf L).map OHdr.bid).Nodup := (hdrs_bids_sub L).nodup nd'
    have hdel : deliverAll c (exec d (fixW ssb L)) (hdrsOf L) ((fixL ssb L).map G.m)
        = some ((fixL ssb L).map G.entry) := by
      refine deliverAll_ok hbs hrep hnd (fun g hg => ?_)
      rw [← fixL_hdrs ssb L]
      exact hdrs_sub_hdrsOf hg
    unfold restart
    simp only [h1, if_true, hscan, scanRes_ms, scanRes_hs, scanRes_ws, hdel, scanRes_blocks]
    refine ⟨_, by rw [fixL_entry], rfl, ?_⟩
    refine ⟨⟨some b, ?_, rfl, hrep⟩, ?_, fixL_ne ne, ?_, ?_, ?_, ?_⟩
    · simp only
      rw [exec_frame, h1]
      intro hb
      obtain ⟨x, hx, hxe⟩ := List.mem_map.1 ((fixW_sub ssb L).subset hb)
      exact (List.nodup_cons.1 nd).1 (hxe ▸ bid_mem_blocksOf hx)
    · simp only [fixL_blocks]; exact nd
    · simp only
      exact lastBid_getLast ssb (fixL_ne ne)
    · intro b' m; exact cacheOf_scan ssb L nd' b' m
    · simp only [fixL_hdrs]; exact List.Perm.refl _
    · intro b'; simp only [fixL_blocks, decide_eq_true_eq]

/-- A restart interrupted while repairing leaves the same records on disk. -/
theorem restart_prefix_ok {c : Cfg} (hbs : 0 < c.bs) {ssb : Nat} {d : Disk} {L : List G}
    (h : DiskOk c ssb False d L) (k : Nat) :
    ∃ L', DiskOk c ssb False (exec d ((fixW ssb L).take k)) L' ∧ L'.map G.entry = L.map G.entry := by
  obtain ⟨⟨first, h1, h2⟩, nd⟩ := h
  obtain ⟨⟨L', i1, i2, i3⟩, -⟩ := h2.repair hbs (List.nodup_cons.1 nd).2 k
  refine ⟨L', ⟨⟨first, ?_, i1⟩, by rw [i3]; exact nd⟩, i2⟩
  rw [exec_frame, h1]
  intro hb
  rw [List.map_take] at hb
  obtain ⟨x, hx, hxe⟩ := List.mem_map.1 ((fixW_sub ssb L).subset (List.mem_of_mem_take hb))
  exact (List.nodup_cons.1 nd).1 (hxe ▸ bid_mem_blocksOf hx)

end HS.Meta
