import Verif.Meta.Lemmas

/-!
# Lemmas: the three operations, crash point by crash point
-/
namespace HS.Meta

/-! ## Freeing a chain -/

theorem freeChain_ok (hs : List OHdr) : ∀ (rest m : List OHdr) (o : Option Nat) (f : Nat),
    m.Perm (hs ++ rest) → (m.map OHdr.bid).Nodup → Chain o hs → hs.length ≤ f →
    ∃ m', freeChain f m o = some (m', hs.flatMap OHdr.blocks) ∧ m'.Perm rest := by
  induction hs with
  | nil =>
    intro rest m o f hp _ hc _
    cases o with
    | none => exact ⟨m, by cases f <;> rfl, by simpa using hp⟩
    | some b => exact hc.elim
  | cons h hs ih =>
    intro rest m o f hp nd hc hf
    cases o with
    | none => exact hc.elim
    | some b =>
      obtain ⟨hb, hc⟩ := hc
      cases f with
      | zero => simp at hf
      | succ f =>
        have hmem : h ∈ m := hp.symm.subset (by simp)
        have hfind := find_of_mem nd hmem
        rw [hb] at hfind
        have nd2 : ((h :: (hs ++ rest)).map OHdr.bid).Nodup := by
          have := (hp.map OHdr.bid).nodup_iff.1 nd
          simpa using this
        have hfil : (m.filter (fun o => o.bid ≠ b)).Perm (hs ++ rest) := by
          refine (hp.filter _).trans ?_
          rw [List.cons_append, List.filter_cons]
          simp only [hb, ne_eq, not_true_eq_false, decide_false, Bool.false_eq_true, if_false]
          rw [List.filter_eq_self.2]
          intro o ho
          simp only [decide_eq_true_eq]
          intro he
          simp only [List.map_cons, List.nodup_cons] at nd2
          exact nd2.1 (by rw [hb, ← he]; exact List.mem_map_of_mem ho)
        have nd3 : ((m.filter (fun o => o.bid ≠ b)).map OHdr.bid).Nodup :=
          (List.Sublist.map _ List.filter_sublist).nodup nd
        obtain ⟨m', e, hp'⟩ := ih rest _ h.next f hfil nd3 hc (by simp at hf; omega)
        refine ⟨m', ?_, hp'⟩
        simp only [freeChain, hfind, e, Option.map_some, List.flatMap_cons]

/-! ## The cache -/

def CacheOk (cache : Nat → Option MBlk) (L : List G) : Prop :=
  ∀ b m, cache b = some m ↔ ∃ g ∈ L, g.m = m ∧ m.bid = b

def bids (L : List G) : List Nat := L.map (·.m.bid)

theorem bids_sub (L : List G) : (bids L).Sublist (blocksOf L) := by
  induction L with
  | nil => exact List.Sublist.refl _
  | cons g L ih =>
    rw [blocksOf_cons]
    exact List.Sublist.cons_cons _ (ih.trans (List.sublist_append_right _ _))

theorem CacheOk.get {cache : Nat → Option MBlk} {L : List G} (h : CacheOk cache L) {g : G} (hg : g ∈ L) :
    cache g.m.bid = some g.m := (h _ _).2 ⟨g, hg, rfl, rfl⟩

theorem CacheOk.add {cache : Nat → Option MBlk} {L : List G} (h : CacheOk cache L) {g : G}
    (hn : g.m.bid ∉ bids L) : CacheOk (fset cache g.m.bid (some g.m)) (L ++ [g]) := by
  intro b m
  unfold fset
  by_cases hb : b = g.m.bid
  · simp only [hb, if_true, Option.some.injEq]
    constructor
    · intro e; exact ⟨g, by simp, e, by rw [← e]⟩
    · rintro ⟨g', hg', e1, e2⟩
      rcases List.mem_append.1 hg' with hg' | hg'
      · exact absurd (List.mem_map_of_mem (f := fun g : G => g.m.bid) hg')
          (by rw [e1, e2]; exact hn)
      · simp only [List.mem_singleton] at hg'; rw [← hg', e1]
  · simp only [hb, if_false]
    rw [h b m]
    constructor
    · rintro ⟨g', hg', e⟩; exact ⟨g', by simp [hg'], e⟩
    · rintro ⟨g', hg', e1, e2⟩
      rcases List.mem_append.1 hg' with hg' | hg'
      · exact ⟨g', hg', e1, e2⟩
      · simp only [List.mem_singleton] at hg'
        subst hg'; rw [← e1] at e2; exact absurd e2.symm hb

theorem CacheOk.replace {cache : Nat → Option MBlk} {A B : List G} {g g' : G}
    (h : CacheOk cache (A ++ g :: B)) (nd : (bids (A ++ g :: B)).Nodup) (hb : g'.m.bid = g.m.bid) :
    CacheOk (fset cache g.m.bid (some g'.m)) (A ++ g' :: B) := by
  have hA : ∀ x ∈ A, x.m.bid ≠ g.m.bid := by
    intro x hx he
    simp only [bids, List.map_append, List.map_cons, List.nodup_append] at nd
    exact nd.2.2 x.m.bid (List.mem_map_of_mem (f := fun g : G => g.m.bid) hx) g.m.bid (by simp) he
  have hB : ∀ x ∈ B, x.m.bid ≠ g.m.bid := by
    intro x hx he
    simp only [bids, List.map_append, List.map_cons, List.nodup_append, List.nodup_cons] at nd
    exact nd.2.1.1 (by rw [← he]; exact (List.mem_map_of_mem (f := fun g : G => g.m.bid) hx))
  intro b m
  unfold fset
  by_cases hbb : b = g.m.bid
  · simp only [hbb, if_true, Option.some.injEq]
    constructor
    · intro e; exact ⟨g', by simp, e, by rw [← e, hb]⟩
    · rintro ⟨x, hx, e1, e2⟩
      simp only [List.mem_append, List.mem_cons] at hx
      rcases hx with hx | rfl | hx
      · exact absurd (by rw [e1, e2]) (hA x hx)
      · exact e1
      · exact absurd (by rw [e1, e2]) (hB x hx)
  · simp only [hbb, if_false]
    rw [h b m]
    constructor
    · rintro ⟨x, hx, e1, e2⟩
      simp only [List.mem_append, List.mem_cons] at hx
      rcases hx with hx | rfl | hx
      · exact ⟨x, by simp [hx], e1, e2⟩
      · rw [← e1] at e2; exact absurd e2.symm hbb
      · exact ⟨x, by simp [hx], e1, e2⟩
    · rintro ⟨x, hx, e1, e2⟩
      simp only [List.mem_append, List.mem_cons] at hx
      rcases hx with hx | rfl | hx
      · exact ⟨x, by simp [hx], e1, e2⟩
      · rw [← e1, hb] at e2; exact absurd e2.symm hbb
      · exact ⟨x, by simp [hx], e1, e2⟩

theorem CacheOk.erase {cache : Nat → Option MBlk} {A B : List G} {g : G}
    (h : CacheOk cache (A ++ g :: B)) (nd : (bids (A ++ g :: B)).Nodup) :
    CacheOk (fset cache g.m.bid none) (A ++ B) := by
  have hA : ∀ x ∈ A, x.m.bid ≠ g.m.bid := by
    intro x hx he
    simp only [bids, List.map_append, List.map_cons, List.nodup_append] at nd
    exact nd.2.2 x.m.bid (List.mem_map_of_mem (f := fun g : G => g.m.bid) hx) g.m.bid (by simp) he
  have hB : ∀ x ∈ B, x.m.bid ≠ g.m.bid := by
    intro x hx he
    simp only [bids, List.map_append, List.map_cons, List.nodup_append, List.nodup_cons] at nd
    exact nd.2.1.1 (by rw [← he]; exact (List.mem_map_of_mem (f := fun g : G => g.m.bid) hx))
  intro b m
  unfold fset
  by_cases hbb : b = g.m.bid
  · simp only [hbb, if_true]
    constructor
    · intro e; cases e
    · rintro ⟨x, hx, e1, e2⟩
      simp only [List.mem_append] at hx
      rcases hx with hx | hx
      · exact absurd (by rw [e1, e2]) (hA x hx)
      · exact absurd (by rw [e1, e2]) (hB x hx)
  · simp only [hbb, if_false]
    rw [h b m]
    constructor
    · rintro ⟨x, hx, e1, e2⟩
      simp only [List.mem_append, List.mem_cons] at hx
      rcases hx with hx | rfl | hx
      · exact ⟨x, by simp [hx], e1, e2⟩
      · rw [← e1] at e2; exact absurd e2.symm hbb
      · exact ⟨x, by simp [hx], e1, e2⟩
    · rintro ⟨x, hx, e1, e2⟩
      simp only [List.mem_append] at hx
      rcases hx with hx | hx
      · exact ⟨x, by simp [hx], e1, e2⟩
      · exact ⟨x, by simp [hx], e1, e2⟩

theorem hdrsOf_append (A B : List G) : hdrsOf (A ++ B) = hdrsOf A ++ hdrsOf B := by simp [hdrsOf]
theorem hdrsOf_cons (g : G) (B : List G) : hdrsOf (g :: B) = g.hdrs ++ hdrsOf B := rfl

theorem mark_true {u : Nat → Bool} {l : List Nat} {b : Nat} : mark u l true b = true ↔ b ∈ l ∨ u b = true := by
  unfold mark; by_cases h : b ∈ l <;> simp [h]

theorem mark_false {u : Nat → Bool} {l : List Nat} {b : Nat} : mark u l false b = true ↔ b ∉ l ∧ u b = true := by
  unfold mark; by_cases h : b ∈ l <;> simp [h]

theorem Fresh.not_mem {c : Cfg} {s : St} {d : Disk} {L : List G} (h : Inv c s d L) {l : List Nat}
    (hf : Fresh s.used l) : ∀ b ∈ l, b ∉ s.ssb :: blocksOf L := by
  intro b hb hm
  have := (h.used b).2 hm
  rw [hf.free b hb] at this; cases this

theorem lastBid_replace {p : Nat} {A B : List G} {g g' : G} (h : g'.m.bid = g.m.bid) :
    lastBid p (A ++ g :: B) = lastBid p (A ++ g' :: B) := by
  induction A generalizing p with
  | nil => simp [lastBid, h]
  | cons a A ih => exact ih

theorem lastBid_append {p : Nat} {A B : List G} : lastBid p (A ++ B) = lastBid (lastBid p A) B := by
  induction A generalizing p with
  | nil => rfl
  | cons a A ih => exact ih

theorem used_aux {S a m O X b : Prop} (h1 : S → ¬ O) (h2 : a → ¬ O) (h3 : m → ¬ O) (h4 : X → ¬ O) (h5 : b → ¬ O) :
    (¬ O ∧ (X ∨ S ∨ (a ∨ m ∨ O ∨ b))) ↔ (S ∨ a ∨ m ∨ X ∨ b) := by tauto

/-! ## add -/

theorem add_ok {c : Cfg} (hc : c.Ok) {s s' : St} {d : Disk} {L : List G} (h : Inv c s d L)
    {typ : Nat} {content : List Byte} {bid : Nat} {sp : Space} {ws : List Write}
    (hop : addOp c s typ content bid sp = some (ws, s'))
    (hfr : Fresh s.used (bid :: sp.blocks))
    (hsp : c.inlineMax < (stored c content).length → SpaceOk c (stored c content).length sp) :
    (∀ k, k < ws.length → DiskOk c s.ssb True (exec d (ws.take k)) L) ∧ s'.ssb = s.ssb ∧
    ∃ L', Inv c s' (exec d ws) L' ∧ L'.map G.entry = L.map G.entry ++ [⟨bid, typ, content⟩] := by
  unfold addOp at hop
  cases hb : writeBody c content sp with
  | none => simp [hb] at hop
  | some b =>
    simp only [hb] at hop
    obtain ⟨xs, hhs, hws, hhok, ⟨l, hperm, hsub⟩, hrec⟩ := writeBody_ok hc hb hsp
    obtain ⟨A, g, rfl⟩ : ∃ A g, L = A ++ [g] :=
      ⟨L.dropLast, L.getLast h.ne, (List.dropLast_append_getLast h.ne).symm⟩
    have hlast : s.last = some g.m.bid := by rw [h.last]; simp
    have hcg : s.cache g.m.bid = some g.m := CacheOk.get h.cache (by simp)
    simp only [hlast, hcg, Option.some.injEq, Prod.mk.injEq] at hop
    obtain ⟨rfl, rfl⟩ := hop
    have hnd := hfr.nd
    rw [List.nodup_cons] at hnd
    have hxsub : ∀ x ∈ xblocks xs, x ∈ sp.blocks := fun x hx => hsub.subset (hperm.subset hx)
    have hxnd : (xblocks xs).Nodup := hperm.nodup_iff.2 (hsub.nodup hnd.2)
    have hbx : bid ∉ xblocks xs := fun hx => hnd.1 (hxsub _ hx)
    have hwsub : ((ovfWrites c xs).map Prod.fst).Sublist (xblocks xs) := ovfWrites_sub hc.bs xs hhok
    have hnm := Fresh.not_mem h hfr
    have hndL := h.nd
    rw [List.nodup_cons] at hndL
    have hgbid : g.m.bid ∈ blocksOf (A ++ [g]) := bid_mem_blocksOf (by simp)
    have hbidg : bid ≠ g.m.bid := by
      intro e; exact hnm bid (by simp) (by rw [e]; exact List.mem_cons_of_mem _ hgbid)
    -- the writes before the link
    let w1 : Write := (bid, Blk.mblk (mkMBlk bid g.m.bid none typ b))
    have hpre_t : ∀ x ∈ (b.ws ++ [w1]).map Prod.fst, x ∈ bid :: sp.blocks := by
      intro x hx
      rw [hws] at hx
      simp only [List.map_append, List.mem_append, List.map_cons, List.map_nil, List.mem_singleton, w1] at hx
      rcases hx with hx | hx
      · exact List.mem_cons_of_mem _ (hxsub _ (hwsub.subset hx))
      · rw [hx]; simp
    have hpre : ∀ k, DiskOk c s.ssb True (exec d ((b.ws ++ [w1]).take k)) (A ++ [g]) := by
      intro k
      refine h.diskOk.frame hc.bs (fun x hx => exec_frame _ _ _ (fun hx' => ?_))
      rw [List.map_take] at hx'
      exact hnm x (hpre_t x (List.mem_of_mem_take hx')) hx
    refine ⟨?_, rfl, ?_⟩
    · intro k hk
      have : (b.ws ++ [w1, (g.m.bid, Blk.mblk { g.m with next := some bid })]).take k
          = (b.ws ++ [w1]).take k := by
        rw [show b.ws ++ [w1, (g.m.bid, Blk.mblk { g.m with next := some bid })]
          = (b.ws ++ [w1]) ++ [(g.m.bid, Blk.mblk { g.m with next := some bid })] by simp]
        rw [List.take_append_of_le_length]
        simp only [List.length_append, List.length_cons, List.length_nil] at hk ⊢; omega
      show DiskOk c s.ssb True (exec d ((b.ws ++ [w1, (g.m.bid, Blk.mblk { g.m with next := some bid })]).take k)) _
      rw [this]; exact hpre k
    · -- everything written
      let d1 := exec d (b.ws ++ [w1])
      have hd1 : DiskOk c s.ssb True d1 (A ++ [g]) := by
        have := hpre (b.ws ++ [w1]).length
        rwa [List.take_length] at this
      have hnd1 : ((b.ws ++ [w1]).map Prod.fst).Nodup := by
        rw [hws, List.map_append, List.nodup_append]
        refine ⟨hwsub.nodup hxnd, by simp, ?_⟩
        intro x hx y hy he
        simp only [List.map_cons, List.map_nil, List.mem_singleton, w1] at hy
        rw [hy] at he
        exact hbx (he ▸ hwsub.subset hx)
      have hhas := exec_has (b.ws ++ [w1]) d hnd1
      rw [Has.append] at hhas
      have hrec1 : RecOk c d1 (mkMBlk bid g.m.bid none typ b) xs content := hrec _ _ _ _ _ hhas.1
      have hd1b : d1 bid = Blk.mblk (mkMBlk bid g.m.bid none typ b) := hhas.2 w1 (by simp)
      let d2 := fset d1 g.m.bid (Blk.mblk { g.m with next := some bid })
      have hd2 : exec d (b.ws ++ [w1, (g.m.bid, Blk.mblk { g.m with next := some bid })]) = d2 := by
        rw [show b.ws ++ [w1, (g.m.bid, Blk.mblk { g.m with next := some bid })]
          = (b.ws ++ [w1]) ++ [(g.m.bid, Blk.mblk { g.m with next := some bid })] by simp, exec_append]
        rfl
      have hfr2 : ∀ x, x ≠ g.m.bid → d2 x = d1 x := by intro x hx; simp [d2, fset, hx]
      let gn : G := { m := mkMBlk bid g.m.bid none typ b, xs := xs, content := content }
      obtain ⟨⟨first, e1, e2⟩, -⟩ := hd1
      rw [Seg.append] at e2
      obtain ⟨kk, e2, e3⟩ := e2
      obtain ⟨f1, f2, f3, f4, f5⟩ := e3
      have hndb := hndL.2
      rw [blocksOf_append, List.nodup_append] at hndb
      have hA : ∀ x ∈ blocksOf A, x ≠ g.m.bid := fun x hx he =>
        hndb.2.2 x hx g.m.bid (by simp [G.blocks]) he
      have hgx : g.m.bid ∉ xblocks g.xs := by
        have := hndb.2.1
        simp only [blocksOf_cons, blocksOf_nil, List.append_nil, G.blocks, List.nodup_cons] at this
        exact this.1
      have hssbg : s.ssb ≠ g.m.bid := fun e => hndL.1 (e ▸ hgbid)
      have hxg : g.m.bid ∉ xblocks xs := fun hx =>
        hnm g.m.bid (List.mem_cons_of_mem _ (hxsub _ hx)) (List.mem_cons_of_mem _ hgbid)
      have hblk : blocksOf (A ++ [g.link g.m.prev (some bid), gn]) = blocksOf (A ++ [g]) ++ (bid :: xblocks xs) := by
        simp [gn, G.blocks, mkMBlk, G.link]
      refine ⟨A ++ [g.link g.m.prev (some bid), gn], ?_, ?_⟩
      · show Inv c _ (exec d (b.ws ++ [w1, (g.m.bid, Blk.mblk { g.m with next := some bid })])) _
        rw [hd2]
        refine ⟨⟨s.ssbNext, ?_, rfl, ?_⟩, ?_, by simp, ?_, ?_, ?_, ?_⟩
        · show d2 s.ssb = _
          obtain ⟨f0, g0, g1, -⟩ := h.disk
          rw [hfr2 _ hssbg]
          have : d1 s.ssb = d s.ssb := exec_frame _ _ _ (fun hx => hnm _ (hpre_t _ hx) (by simp))
          rw [this, g0, g1]
        · show Seg c d2 True s.ssb s.ssbNext _ none
          have hfirst : s.ssbNext = first := by
            obtain ⟨f0, g0, g1, -⟩ := h.disk
            have : d1 s.ssb = d s.ssb := exec_frame _ _ _ (fun hx => hnm _ (hpre_t _ hx) (by simp))
            rw [this, g0] at e1
            simp only [Blk.ssb.injEq, true_and] at e1
            rw [g1, e1]
          rw [hfirst, Seg.append]
          refine ⟨kk, e2.frame hc.bs (fun x hx => hfr2 x (hA x hx)), ?_⟩
          refine ⟨f1, by simp [d2, fset, G.link], ?_, f4, ?_⟩
          · exact (f3.frame hc.bs (fun x hx => hfr2 x (fun he => hgx (he ▸ hx)))).relink _ _
          · refine ⟨rfl, ?_, ?_, fun _ => rfl, rfl⟩
            · rw [hfr2 _ (by simpa [gn, mkMBlk] using hbidg)]; exact hd1b
            · exact hrec1.frame hc.bs (fun x hx => hfr2 x (fun he => hxg (he ▸ hx)))
        · show (s.ssb :: blocksOf _).Nodup
          rw [hblk, ← List.cons_append, List.nodup_append]
          refine ⟨h.nd, by simp [hbx, hxnd], ?_⟩
          intro x hx y hy he
          subst he
          refine hnm x ?_ hx
          rcases List.mem_cons.1 hy with rfl | hy
          · simp
          · exact List.mem_cons_of_mem _ (hxsub _ hy)
        · show some bid = _
          rw [show A ++ [g.link g.m.prev (some bid), gn] = (A ++ [g.link g.m.prev (some bid)]) ++ [gn] by simp,
            lastBid_append_singleton]
          rfl
        · have hbn := (bids_sub (A ++ [g])).nodup hndL.2
          have c1 := CacheOk.replace (A := A) (B := []) (g := g) (g' := g.link g.m.prev (some bid)) h.cache hbn rfl
          have hgb : gn.m.bid = bid := rfl
          have hb' : bid ∉ bids (A ++ [g.link g.m.prev (some bid)]) := by
            intro hx
            refine hnm bid (by simp) (List.mem_cons_of_mem _ ((bids_sub (A ++ [g])).subset ?_))
            simpa [bids] using hx
          have c2 := CacheOk.add c1 (g := gn) (by rw [hgb]; exact hb')
          rw [List.append_assoc] at c2
          exact c2
        · show (s.ohdrs ++ b.hs).Perm _
          rw [show A ++ [g.link g.m.prev (some bid), gn] = (A ++ [g.link g.m.prev (some bid)]) ++ [gn] by simp,
            hdrsOf_append, hhs]
          refine List.Perm.append ?_ (by simp [hdrsOf, gn, G.hdrs])
          have := h.hdrs
          simpa [hdrsOf_append, hdrsOf_cons] using this
        · intro x
          show mark (mark s.used [bid] true) b.blocks true x = true ↔ _
          rw [mark_true, mark_true, h.used, hblk]
          have : b.blocks = xblocks xs := by simp [Body.blocks, hhs, xblocks]
          rw [this]
          simp only [List.mem_cons, List.mem_append, List.mem_singleton, List.not_mem_nil, or_false]
          tauto
      · simp [gn, G.entry, mkMBlk, G.link]

/-! ## update -/

theorem upd_ok {c : Cfg} (hc : c.Ok) {s s' : St} {d : Disk} {L : List G} (h : Inv c s d L)
    {content : List Byte} {bid : Nat} {sp : Space} {ws : List Write}
    (hop : updOp c s bid content sp = some (ws, s'))
    (hfr : Fresh s.used sp.blocks)
    (hsp : c.inlineMax < (stored c content).length → SpaceOk c (stored c content).length sp) :
    (∀ k, k < ws.length → DiskOk c s.ssb True (exec d (ws.take k)) L) ∧ s'.ssb = s.ssb ∧
    ∃ L', Inv c s' (exec d ws) L' ∧
      L'.map G.entry = (L.map G.entry).map (fun e => if e.bid = bid then { e with content := content } else e) := by
  unfold updOp at hop
  cases hm : s.cache bid with
  | none => simp [hm] at hop
  | some m =>
    simp only [hm] at hop
    cases hb : writeBody c content sp with
    | none => simp [hb] at hop
    | some b =>
      simp only [hb] at hop
      obtain ⟨xs, hhs, hws, hhok, ⟨l, hperm, hsub⟩, hrec⟩ := writeBody_ok hc hb hsp
      obtain ⟨g, hg, rfl, rfl⟩ := (h.cache _ _).1 hm
      obtain ⟨A, B, rfl⟩ := List.append_of_mem hg
      have hnd := hfr.nd
      have hxsub : ∀ x ∈ xblocks xs, x ∈ sp.blocks := fun x hx => hsub.subset (hperm.subset hx)
      have hxnd : (xblocks xs).Nodup := hperm.nodup_iff.2 (hsub.nodup hnd)
      have hwsub : ((ovfWrites c xs).map Prod.fst).Sublist (xblocks xs) := ovfWrites_sub hc.bs xs hhok
      have hnm := Fresh.not_mem h hfr
      have hndL := h.nd
      rw [List.nodup_cons] at hndL
      have hgbid : g.m.bid ∈ blocksOf (A ++ g :: B) := bid_mem_blocksOf (by simp)
      obtain ⟨first, q1, q2, q3⟩ := h.disk
      have q3' := q3
      rw [Seg.append] at q3
      obtain ⟨kk, q3, q4, q5, q6, q7, q8⟩ := q3
      -- freeing the old chain
      have hohd : (s.ohdrs ++ b.hs).Perm (g.hdrs ++ (hdrsOf (A ++ B) ++ xs.map Prod.fst)) := by
        rw [hhs, ← List.append_assoc]
        refine List.Perm.append_right _ (h.hdrs.trans ?_)
        rw [hdrsOf_append, hdrsOf_append, hdrsOf_cons]
        exact List.perm_append_comm_assoc _ _ _
      have hhbid : ((s.ohdrs ++ b.hs).map OHdr.bid).Nodup := by
        have e1 : ((s.ohdrs ++ b.hs).map OHdr.bid).Perm ((hdrsOf (A ++ g :: B)).map OHdr.bid ++ (xs.map Prod.fst).map OHdr.bid) := by
          rw [← List.map_append, hhs]
          exact (List.Perm.append_right _ h.hdrs).map _
        rw [e1.nodup_iff, List.nodup_append]
        have s1 := hdrs_bids_sub (A ++ g :: B)
        have s2 : ((xs.map Prod.fst).map OHdr.bid).Sublist (xblocks xs) := by
          unfold xblocks
          generalize xs.map Prod.fst = hs
          induction hs with
          | nil => simp
          | cons h hs ih =>
            simp only [List.map_cons, List.flatMap_cons, OHdr.blocks, List.cons_append]
            exact List.Sublist.cons_cons _ (ih.trans (List.sublist_append_right _ _))
        refine ⟨s1.nodup hndL.2, s2.nodup hxnd, ?_⟩
        intro x hx y hy he
        subst he
        exact hnm x (hxsub _ (s2.subset hy)) (List.mem_cons_of_mem _ (s1.subset hx))
      obtain ⟨hs', hfree, hperm'⟩ := freeChain_ok g.hdrs _ _ g.m.ovf (s.ohdrs ++ b.hs).length hohd hhbid q6.chain
        (by rw [hohd.length_eq]; simp)
      rw [hfree] at hop
      simp only [Option.some.injEq, Prod.mk.injEq] at hop
      obtain ⟨rfl, rfl⟩ := hop
      have hpre_t : ∀ x ∈ b.ws.map Prod.fst, x ∈ sp.blocks := by
        intro x hx
        rw [hws] at hx
        exact hxsub _ (hwsub.subset hx)
      have hpre : ∀ k, DiskOk c s.ssb True (exec d (b.ws.take k)) (A ++ g :: B) := by
        intro k
        refine h.diskOk.frame hc.bs (fun x hx => exec_frame _ _ _ (fun hx' => ?_))
        rw [List.map_take] at hx'
        exact hnm x (hpre_t x (List.mem_of_mem_take hx')) hx
      refine ⟨?_, rfl, ?_⟩
      · intro k hk
        rw [List.take_append_of_le_length]
        · exact hpre k
        · simp only [List.length_append, List.length_cons, List.length_nil] at hk; omega
      · let d1 := exec d b.ws
        have hhas : Has d1 b.ws := exec_has _ _ (by rw [hws]; exact hwsub.nodup hxnd)
        let gn : G := { m := mkMBlk g.m.bid g.m.prev g.m.next g.m.typ b, xs := xs, content := content }
        let d2 := fset d1 g.m.bid (Blk.mblk gn.m)
        have hd2 : exec d (b.ws ++ [(g.m.bid, Blk.mblk gn.m)]) = d2 := by rw [exec_append]; rfl
        have hfr1 : ∀ x ∈ s.ssb :: blocksOf (A ++ g :: B), d1 x = d x := fun x hx =>
          exec_frame _ _ _ (fun hx' => hnm x (hpre_t x hx') hx)
        have hfr2 : ∀ x, x ≠ g.m.bid → d2 x = d1 x := by intro x hx; simp [d2, fset, hx]
        have hndb := hndL.2
        rw [blocksOf_append, blocksOf_cons, List.nodup_append, List.nodup_append] at hndb
        have hA : ∀ x ∈ blocksOf A, x ≠ g.m.bid := fun x hx he =>
          hndb.2.2 x hx g.m.bid (by simp [G.blocks]) he
        have hB : ∀ x ∈ blocksOf B, x ≠ g.m.bid := fun x hx he =>
          hndb.2.1.2.2 g.m.bid (by simp [G.blocks]) x hx he.symm
        have hgx : g.m.bid ∉ xblocks g.xs := by
          have := hndb.2.1.1
          simp only [G.blocks, List.nodup_cons] at this
          exact this.1
        have hssbg : s.ssb ≠ g.m.bid := fun e => hndL.1 (e ▸ hgbid)
        have hxg : g.m.bid ∉ xblocks xs := fun hx =>
          hnm g.m.bid (hxsub _ hx) (List.mem_cons_of_mem _ hgbid)
        have hblk : ∀ x, x ∈ blocksOf (A ++ gn :: B) ↔ x ∈ blocksOf A ∨ x = g.m.bid ∨ x ∈ xblocks xs ∨ x ∈ blocksOf B := by
          intro x
          simp only [blocksOf_append, blocksOf_cons, G.blocks, List.mem_append, List.mem_cons, gn, mkMBlk]
          tauto
        refine ⟨A ++ gn :: B, ?_, ?_⟩
        · show Inv c _ (exec d (b.ws ++ [(g.m.bid, Blk.mblk gn.m)])) _
          rw [hd2]
          refine ⟨⟨first, ?_, q2, ?_⟩, ?_, by simp, ?_, ?_, ?_, ?_⟩
          · show d2 s.ssb = _
            rw [hfr2 _ hssbg, hfr1 _ (by simp), q1]
          · show Seg c d2 True s.ssb first _ none
            rw [Seg.append]
            refine ⟨kk, q3.frame hc.bs (fun x hx => ?_), q4, by simp [d2, fset, gn, mkMBlk], ?_, q7, ?_⟩
            · rw [hfr2 x (hA x hx), hfr1 x (by simp [hx])]
            · exact (hrec d1 g.m.bid g.m.prev g.m.next g.m.typ hhas).frame hc.bs
                (fun x hx => hfr2 x (fun he => hxg (he ▸ hx)))
            · exact q8.frame hc.bs (fun x hx => by rw [hfr2 x (hB x hx), hfr1 x (by simp [hx])])
          · show (s.ssb :: blocksOf (A ++ gn :: B)).Nodup
            have hnmx : ∀ x ∈ xblocks xs, x ∉ s.ssb :: blocksOf (A ++ g :: B) := fun x hx => hnm x (hxsub x hx)
            rw [List.nodup_cons]
            constructor
            · rw [hblk]
              rintro (hx | hx | hx | hx)
              · exact hndL.1 (by simp [hx])
              · exact hssbg hx
              · exact hnmx _ hx (by simp)
              · exact hndL.1 (by simp [hx])
            · rw [blocksOf_append, blocksOf_cons, List.nodup_append, List.nodup_append]
              refine ⟨hndb.1, ⟨?_, hndb.2.1.2.1, ?_⟩, ?_⟩
              · simp only [G.blocks, List.nodup_cons, gn]
                exact ⟨hxg, hxnd⟩
              · intro x hx y hy he
                subst he
                rcases List.mem_cons.1 hx with hx | hx
                · exact hB x hy hx
                · exact hnmx x hx (by simp [hy])
              · intro x hx y hy he
                subst he
                rcases List.mem_append.1 hy with hy | hy
                · rcases List.mem_cons.1 hy with hy | hy
                  · exact hA x hx hy
                  · exact hnmx x hy (by simp [hx])
                · exact hndb.2.2 x hx x (List.mem_append.2 (Or.inr hy)) rfl
          · show s.last = _
            rw [h.last]
            congr 1
            exact lastBid_replace rfl
          · exact CacheOk.replace (g' := gn) h.cache ((bids_sub _).nodup hndL.2) rfl
          · show hs'.Perm _
            refine hperm'.trans ?_
            rw [hdrsOf_append, hdrsOf_append, hdrsOf_cons, List.append_assoc]
            exact List.Perm.append_left _ List.perm_append_comm
          · intro x
            show mark (mark s.used b.blocks true) (g.hdrs.flatMap OHdr.blocks) false x = true ↔ _
            rw [mark_false, mark_true, h.used]
            have e1 : b.blocks = xblocks xs := by simp [Body.blocks, hhs, xblocks]
            have e2 : g.hdrs.flatMap OHdr.blocks = xblocks g.xs := rfl
            rw [e1, e2, List.mem_cons, List.mem_cons, hblk]
            have hnmx : ∀ x ∈ xblocks xs, x ∉ s.ssb :: blocksOf (A ++ g :: B) := fun x hx => hnm x (hxsub x hx)
            have hmem : x ∈ blocksOf (A ++ g :: B) ↔ x ∈ blocksOf A ∨ x = g.m.bid ∨ x ∈ xblocks g.xs ∨ x ∈ blocksOf B := by
              simp only [blocksOf_append, blocksOf_cons, G.blocks, List.mem_append, List.mem_cons]; tauto
            rw [hmem]
            refine used_aux ?_ ?_ ?_ ?_ ?_
            · intro h2 hx
              exact hndL.1 (h2 ▸ hmem.2 (Or.inr (Or.inr (Or.inl hx))))
            · intro h2 hx
              exact hndb.2.2 x h2 x (by simp [G.blocks, hx]) rfl
            · intro h2 hx; exact hgx (h2 ▸ hx)
            · intro h2 hx
              exact hnmx x h2 (List.mem_cons_of_mem _ (hmem.2 (Or.inr (Or.inr (Or.inl hx)))))
            · intro h2 hx
              exact hndb.2.1.2.2 x (by simp [G.blocks, hx]) x h2 rfl
        · have hbn := (bids_sub _).nodup hndL.2
          simp only [bids, List.map_append, List.map_cons, List.nodup_append, List.nodup_cons] at hbn
          have eA : ∀ x ∈ A, x.entry.bid ≠ g.m.bid := fun x hx he =>
            hbn.2.2 _ (List.mem_map_of_mem (f := fun g : G => g.m.bid) hx) g.m.bid (by simp) he
          have eB : ∀ x ∈ B, x.entry.bid ≠ g.m.bid := fun x hx he =>
            hbn.2.1.1 (he ▸ List.mem_map_of_mem (f := fun g : G => g.m.bid) hx)
          simp only [List.map_append, List.map_cons, List.map_map]
          congr 1
          · apply List.map_congr_left
            intro x hx
            simp [eA x hx]
          · congr 1
            · simp [G.entry, gn, mkMBlk]
            · apply List.map_congr_left
              intro x hx
              simp [eB x hx]

/-! ## remove -/

theorem unlinkPrev_ok {c : Cfg} (hbs : 0 < c.bs) {s : St} {d : Disk} {A B : List G} {g : G}
    (h : Inv c s d (A ++ g :: B)) :
    ∃ w s1 A1 first, unlinkPrev s g.m = some ([w], s1) ∧
      A1.map G.entry = A.map G.entry ∧ blocksOf A1 = blocksOf A ∧ hdrsOf A1 = hdrsOf A ∧ bids A1 = bids A ∧
      lastBid s.ssb A1 = lastBid s.ssb A ∧
      s1.ssb = s.ssb ∧ s1.ssbNext = first ∧ s1.ohdrs = s.ohdrs ∧ s1.used = s.used ∧
      (B ≠ [] → s1.last = s.last) ∧ CacheOk s1.cache (A1 ++ g :: B) ∧
      fset d w.1 w.2 s.ssb = .ssb s.ssb first ∧
      Seg c (fset d w.1 w.2) True s.ssb first A1 g.m.next ∧
      Seg c (fset d w.1 w.2) True g.m.bid g.m.next B none := by
  obtain ⟨first, q1, q2, q3⟩ := h.disk
  rw [Seg.append] at q3
  obtain ⟨kk, q3, q4, q5, q6, q7, q8⟩ := q3
  have hndL := h.nd
  rw [List.nodup_cons] at hndL
  have hndb := hndL.2
  rw [blocksOf_append, blocksOf_cons, List.nodup_append, List.nodup_append] at hndb
  have hprev := q7 trivial
  rcases List.eq_nil_or_concat A with rfl | ⟨A', p, rfl⟩
  · -- the predecessor is the super block
    have hp : g.m.prev = s.ssb := hprev
    refine ⟨(s.ssb, .ssb s.ssb g.m.next),
      { s with ssbNext := g.m.next, last := if s.last = some g.m.bid then none else s.last },
      [], g.m.next, ?_, rfl, rfl, rfl, rfl, rfl, rfl, rfl, rfl, rfl, ?_, h.cache, by simp [fset], rfl, ?_⟩
    · simp [unlinkPrev, hp]
    · intro hB
      have hl := h.last
      have hne : s.last ≠ some g.m.bid := by
        rw [hl]
        intro he
        simp only [Option.some.injEq] at he
        rcases List.eq_nil_or_concat B with rfl | ⟨B', n, rfl⟩
        · exact hB rfl
        · have : lastBid s.ssb ([] ++ g :: B'.concat n) = n.m.bid := by
            rw [show ([] : List G) ++ g :: B'.concat n = (g :: B') ++ [n] by simp]
            exact lastBid_append_singleton _ _ _
          rw [this] at he
          exact hndb.2.1.2.2 g.m.bid (by simp [G.blocks]) n.m.bid
            (bid_mem_blocksOf (by simp)) he.symm
      simp only [hne, if_false]
    · refine q8.frame hbs (fun b hb => ?_)
      have : b ≠ s.ssb := fun he => hndL.1 (by rw [← he]; simp [hb])
      simp [fset, this]
  · -- the predecessor is the record `p`
    rw [List.concat_eq_append] at *
    rw [lastBid_append_singleton] at hprev
    have hpb : p.m.bid ∈ blocksOf (A' ++ [p]) := bid_mem_blocksOf (by simp)
    have hps : p.m.bid ≠ s.ssb := fun he => hndL.1 (by
      rw [← he, blocksOf_append]; exact List.mem_append_left _ hpb)
    have hcp : s.cache p.m.bid = some p.m := CacheOk.get h.cache (by simp)
    rw [Seg.append] at q3
    obtain ⟨k', r1, r2, r3, r4, r5, r6⟩ := q3
    have hndA := hndb.1
    rw [blocksOf_append, List.nodup_append] at hndA
    have hfr : ∀ b, b ≠ p.m.bid → fset d p.m.bid (Blk.mblk { p.m with next := g.m.next }) b = d b := by
      intro b hb; simp [fset, hb]
    refine ⟨(p.m.bid, .mblk { p.m with next := g.m.next }),
      { s with cache := fset s.cache p.m.bid (some { p.m with next := g.m.next }) },
      A' ++ [p.link p.m.prev g.m.next], first, ?_, by simp, by simp, ?_, by simp [bids], ?_, rfl, q2, rfl, rfl, fun _ => rfl, ?_, ?_, ?_, ?_⟩
    · simp [unlinkPrev, hprev, hps, hcp]
    · simp [hdrsOf_append, hdrsOf_cons]
    · simp
    · have := CacheOk.replace (A := A') (g := p) (B := g :: B) (g' := p.link p.m.prev g.m.next)
        (by have := h.cache; rw [List.append_assoc] at this; exact this) (by simpa using (bids_sub _).nodup hndL.2) rfl
      rw [List.append_assoc]; exact this
    · simp only; rw [hfr _ hps.symm, q1]
    · simp only
      rw [Seg.append]
      refine ⟨k', r1.frame hbs (fun b hb => hfr b ?_), r2, by simp [fset, G.link], ?_, r5, rfl⟩
      · intro he
        exact hndA.2.2 b hb p.m.bid (by simp [G.blocks]) he
      · refine (r4.frame hbs (fun b hb => hfr b ?_)).relink _ _
        intro he
        have := hndA.2.1
        simp only [blocksOf_cons, blocksOf_nil, List.append_nil, G.blocks, List.nodup_cons] at this
        exact this.1 (he ▸ hb)
    · refine q8.frame hbs (fun b hb => hfr b ?_)
      intro he
      exact hndb.2.2 p.m.bid hpb b (List.mem_append_right _ hb) he.symm

theorem rem_ok {c : Cfg} (hc : c.Ok) {s s' : St} {d : Disk} {L : List G} (h : Inv c s d L)
    {bid : Nat} {ws : List Write} (hop : remOp s bid = some (ws, s')) (h2 : 2 ≤ L.length) :
    (∀ k, ∃ L', DiskOk c s.ssb False (exec d (ws.take k)) L' ∧ L' ≠ [] ∧
      (L'.map G.entry = L.map G.entry ∨
       L'.map G.entry = (L.map G.entry).filter (fun e => e.bid ≠ bid))) ∧ s'.ssb = s.ssb ∧
    ∃ L', Inv c s' (exec d ws) L' ∧ L'.map G.entry = (L.map G.entry).filter (fun e => e.bid ≠ bid) := by
  unfold remOp at hop
  cases hm : s.cache bid with
  | none => simp [hm] at hop
  | some m =>
    simp only [hm] at hop
    obtain ⟨g, hg, rfl, rfl⟩ := (h.cache _ _).1 hm
    obtain ⟨A, B, rfl⟩ := List.append_of_mem hg
    obtain ⟨w, s1, A1, first, e0, eE, eBl, eH, eBi, eLa, eS, eN, eO, eU, eL, eC, f1, f2, f3⟩ := unlinkPrev_ok hc.bs h
    rw [e0] at hop
    simp only at hop
    let d1 := fset d w.1 w.2
    obtain ⟨f0, -, -, q3⟩ := h.disk
    rw [Seg.append] at q3
    obtain ⟨kk, -, q4, q5, q6, q7, q8⟩ := q3
    have hprev : g.m.prev = lastBid s.ssb A := q7 trivial
    have hndL := h.nd
    rw [List.nodup_cons] at hndL
    have hndb := hndL.2
    rw [blocksOf_append, blocksOf_cons, List.nodup_append, List.nodup_append] at hndb
    have hbn := (bids_sub _).nodup hndL.2
    have hfilt : ((A ++ g :: B).map G.entry).filter (fun e => e.bid ≠ g.m.bid) = A.map G.entry ++ B.map G.entry := by
      have hbn' := hbn
      simp only [bids, List.map_append, List.map_cons, List.nodup_append, List.nodup_cons] at hbn'
      rw [List.map_append, List.map_cons, List.filter_append, List.filter_cons]
      have eg : decide (g.entry.bid ≠ g.m.bid) = false := by simp [G.entry]
      rw [eg, List.filter_eq_self.2, List.filter_eq_self.2]
      · simp
      · intro e he
        obtain ⟨x, hx, rfl⟩ := List.mem_map.1 he
        simp only [decide_eq_true_eq]
        intro he
        exact hbn'.2.1.1 (he ▸ List.mem_map_of_mem (f := fun g : G => g.m.bid) hx)
      · intro e he
        obtain ⟨x, hx, rfl⟩ := List.mem_map.1 he
        simp only [decide_eq_true_eq]
        intro he
        exact hbn'.2.2 _ (List.mem_map_of_mem (f := fun g : G => g.m.bid) hx) g.m.bid (by simp) he
    have hndAB : (s.ssb :: blocksOf (A ++ B)).Nodup := by
      refine List.Sublist.nodup ?_ h.nd
      refine List.Sublist.cons_cons _ ?_
      rw [blocksOf_append, blocksOf_append, blocksOf_cons]
      exact List.Sublist.append (List.Sublist.refl _) (List.sublist_append_right _ _)
    have hneAB : A ++ B ≠ [] := by
      intro he
      simp only [List.append_eq_nil_iff] at he
      obtain ⟨rfl, rfl⟩ := he
      simp at h2
    have hd1 : DiskOk c s.ssb False d1 (A1 ++ B) := by
      refine ⟨⟨first, f1, ?_⟩, ?_⟩
      · rw [Seg.append]
        exact ⟨g.m.next, f2.weaken, f3.weaken.prevIrrel⟩
      · rw [blocksOf_append, eBl, ← blocksOf_append]; exact hndAB
    have hneA1B : A1 ++ B ≠ [] := by
      intro he
      simp only [List.append_eq_nil_iff] at he
      obtain ⟨rfl, rfl⟩ := he
      apply hneAB
      have := congrArg List.length eE
      simp only [List.map_nil, List.length_nil, List.length_map] at this
      rw [List.append_nil]
      exact List.length_eq_zero_iff.1 this.symm
    have hE1 : (A1 ++ B).map G.entry = A.map G.entry ++ B.map G.entry := by rw [List.map_append, eE]
    have hfree : ∀ (o : List OHdr), o = s.ohdrs → ∃ m', freeChain o.length o g.m.ovf = some (m', xblocks g.xs) ∧
        m'.Perm (hdrsOf (A ++ B)) := by
      rintro o rfl
      have hp : s.ohdrs.Perm (g.hdrs ++ hdrsOf (A ++ B)) := by
        refine h.hdrs.trans ?_
        rw [hdrsOf_append, hdrsOf_append, hdrsOf_cons]
        exact List.perm_append_comm_assoc _ _ _
      refine freeChain_ok g.hdrs _ _ _ _ hp ?_ q6.chain ?_
      · rw [(h.hdrs.map _).nodup_iff]
        exact (hdrs_bids_sub _).nodup hndL.2
      · rw [hp.length_eq]; simp
    have hused : ∀ (B' : List G) x, blocksOf B' = blocksOf B →
        (mark (mark s.used [g.m.bid] false) (xblocks g.xs) false x = true ↔ x ∈ s.ssb :: blocksOf (A1 ++ B')) := by
      intro B' x hB'
      rw [mark_false, mark_false, h.used, show blocksOf (A1 ++ B') = blocksOf (A ++ B) by
        rw [blocksOf_append, eBl, hB', ← blocksOf_append]]
      have hmem : x ∈ blocksOf (A ++ g :: B) ↔ x ∈ g.blocks ∨ x ∈ blocksOf (A ++ B) := by
        simp only [blocksOf_append, blocksOf_cons, List.mem_append]; tauto
      have hgb : x ∈ g.blocks ↔ x = g.m.bid ∨ x ∈ xblocks g.xs := by simp [G.blocks]
      have hdis : x ∈ g.blocks → x ∉ s.ssb :: blocksOf (A ++ B) := by
        intro hx hx'
        rcases List.mem_cons.1 hx' with rfl | hx'
        · exact hndL.1 (hmem.2 (Or.inl hx))
        · rw [blocksOf_append] at hx'
          rcases List.mem_append.1 hx' with hx' | hx'
          · exact hndb.2.2 x hx' x (List.mem_append_left _ hx) rfl
          · exact hndb.2.1.2.2 x hx x hx' rfl
      simp only [List.mem_cons, hmem, hgb, List.not_mem_nil, or_false] at hdis ⊢
      clear hmem hgb
      tauto
    cases hB : B with
    | nil =>
      subst hB
      have hnx : g.m.next = none := q8
      simp only [unlinkNext, hnx] at hop
      obtain ⟨m', hf1, hf2⟩ := hfree s1.ohdrs eO
      rw [hf1] at hop
      simp only [Option.some.injEq, Prod.mk.injEq, List.append_nil] at hop
      obtain ⟨rfl, rfl⟩ := hop
      refine ⟨?_, eS, ?_⟩
      · intro k
        cases k with
        | zero => exact ⟨A ++ [g], h.diskOk.weaken, by simp, Or.inl rfl⟩
        | succ k =>
          refine ⟨A1 ++ [], ?_, hneA1B, Or.inr ?_⟩
          · simpa [exec] using hd1
          · rw [hfilt, hE1]
      · refine ⟨A1 ++ [], ?_, by rw [hfilt, hE1]⟩
        rw [List.append_nil] at hneAB hneA1B ⊢
        refine ⟨⟨first, ?_, eN, ?_⟩, ?_, hneA1B, ?_, ?_, ?_, ?_⟩
        · simp only [eS]; exact f1
        · simp only [eS]
          rw [hnx] at f2; exact f2
        · simp only [eS]; rw [eBl]; simpa using hndAB
        · simp only [eS]; rw [hprev, eLa]
        · have hbn1 : (bids (A1 ++ [g])).Nodup := by
            have : bids (A1 ++ [g]) = bids (A ++ [g]) := by
              simp only [bids, List.map_append] at eBi ⊢
              rw [eBi]
            rw [this]; exact hbn
          have := CacheOk.erase eC hbn1
          rw [List.append_nil] at this; exact this
        · simp only
          rw [eH]; simpa using hf2
        · intro x
          simp only [eS, eU]
          simpa using hused [] x rfl
    | cons n B' =>
      subst hB
      obtain ⟨t1, t2, t3, t4, t5⟩ := f3
      have hcn : s1.cache n.m.bid = some n.m := CacheOk.get eC (by simp)
      simp only [unlinkNext, t1, hcn] at hop
      obtain ⟨m', hf1, hf2⟩ := hfree s1.ohdrs eO
      rw [hf1] at hop
      simp only [Option.some.injEq, Prod.mk.injEq] at hop
      obtain ⟨rfl, rfl⟩ := hop
      let w2 : Write := (n.m.bid, Blk.mblk { n.m with prev := g.m.prev })
      let d2 := fset d1 w2.1 w2.2
      let n' := n.link g.m.prev n.m.next
      have hnA : n.m.bid ∉ s.ssb :: blocksOf A := by
        intro hx
        rcases List.mem_cons.1 hx with hx | hx
        · exact hndL.1 (hx ▸ bid_mem_blocksOf (by simp))
        · exact hndb.2.2 _ hx n.m.bid (List.mem_append_right _ (bid_mem_blocksOf (by simp))) rfl
      have hndB := hndb.2.1.2.1
      rw [blocksOf_cons, List.nodup_append] at hndB
      have hfr : ∀ b, b ≠ n.m.bid → d2 b = d1 b := by intro b hb; simp [d2, fset, w2, hb]
      have hS2 : Seg c d2 True (lastBid s.ssb A1) g.m.next (n' :: B') none := by
        refine ⟨t1, by simp [d2, fset, w2, n', G.link], ?_, fun _ => ?_, ?_⟩
        · refine (t3.frame hc.bs (fun b hb => hfr b ?_)).relink _ _
          intro he
          have := hndB.1
          simp only [G.blocks, List.nodup_cons] at this
          exact this.1 (he ▸ hb)
        · rw [eLa]; exact hprev
        · refine Seg.frame hc.bs t5 (fun b hb => hfr b ?_)
          intro he
          exact hndB.2.2 n.m.bid (by simp [G.blocks]) b hb he.symm
      have hS1 : Seg c d2 True s.ssb first A1 g.m.next := by
        refine f2.frame hc.bs (fun b hb => hfr b ?_)
        intro he
        rw [eBl] at hb
        exact hnA (he ▸ List.mem_cons_of_mem _ hb)
      have hssb2 : d2 s.ssb = .ssb s.ssb first := by
        rw [hfr _ (fun he => hnA (by rw [← he]; simp))]; exact f1
      have hblkn : blocksOf (n' :: B') = blocksOf (n :: B') := by simp [n']
      have hE2 : (A1 ++ n' :: B').map G.entry = A.map G.entry ++ (n :: B').map G.entry := by
        simp [eE, n']
      have hnd2 : (s.ssb :: blocksOf (A1 ++ n' :: B')).Nodup := by
        rw [blocksOf_append, eBl, hblkn, ← blocksOf_append]; exact hndAB
      refine ⟨?_, eS, ?_⟩
      · intro k
        match k with
        | 0 => exact ⟨_, h.diskOk.weaken, by simp, Or.inl rfl⟩
        | 1 =>
          refine ⟨A1 ++ n :: B', ?_, hneA1B, Or.inr (by rw [hfilt, hE1])⟩
          simpa [exec] using hd1
        | k + 2 =>
          refine ⟨A1 ++ n' :: B', ⟨⟨first, ?_, ?_⟩, hnd2⟩, by simp, Or.inr (by rw [hfilt, hE2])⟩
          · simpa [exec] using hssb2
          · rw [Seg.append]
            refine ⟨g.m.next, ?_, ?_⟩
            · simpa [exec] using hS1.weaken
            · simpa [exec] using hS2.weaken
      · refine ⟨A1 ++ n' :: B', ?_, by rw [hfilt, hE2]⟩
        have hexec : exec d ([w] ++ [w2]) = d2 := rfl
        show Inv c _ (exec d ([w] ++ [w2])) _
        rw [hexec]
        refine ⟨⟨first, ?_, eN, ?_⟩, ?_, by simp, ?_, ?_, ?_, ?_⟩
        · simp only [eS]; exact hssb2
        · simp only [eS]
          rw [Seg.append]; exact ⟨_, hS1, hS2⟩
        · simp only [eS]; exact hnd2
        · simp only [eS]
          rw [eL (by simp), h.last, lastBid_append, lastBid_append, eLa]
          rfl
        · have hbn1 : (bids (A1 ++ g :: n :: B')).Nodup := by
            have : bids (A1 ++ g :: n :: B') = bids (A ++ g :: n :: B') := by
              simp only [bids, List.map_append] at eBi ⊢
              rw [eBi]
            rw [this]; exact hbn
          have c1 := CacheOk.replace (A := A1 ++ [g]) (g := n) (B := B') (g' := n')
            (by simpa using eC) (by simpa using hbn1) rfl
          have c2 := CacheOk.erase (A := A1) (g := g) (B := n' :: B') (by simpa using c1)
            (by simpa [bids, n'] using hbn1)
          exact c2
        · simp only
          rw [hdrsOf_append, eH, hdrsOf_cons]
          simpa [hdrsOf_append, hdrsOf_cons, n'] using hf2
        · intro x
          simp only [eS, eU]
          exact hused (n' :: B') x hblkn

end HS.Meta
