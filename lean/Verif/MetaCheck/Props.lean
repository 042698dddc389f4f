import Verif.MetaCheck.Lemmas

/-!
# Properties of the check of the superblock store: C120
-/
namespace HS.MetaCheck
open HS.Meta

/-! ## It accepts what the service wrote -/

/-- **C120, first part.** After any history of registrations, operations, crashes at any block write and
interrupted starts, the check comes to an end and accepts the store. -/
theorem C120_accepts {c : Cfg} (hc : c.Ok) {ssb : Nat} {s : St} {d : Disk} {es : List Entry} {u : Sub}
    (h : SReach c ssb s d es u) : Verifies c s u d .yes := by
  have hu := h.sub hc
  obtain ⟨-, L, hi, rfl⟩ := h.good hc
  exact ⟨_, fun fuel hf => check_inv hi hu fuel hf⟩

/-! ## What it accepts is linked as it should be -/

/-- **C120, second part.** Whatever has become of the device since: if the check accepts it, the super
block is there, and the records linked from the first one are exactly those of the service, with their
types and ids, in the same order, with right links in both directions, and with overflow chains of
proper headers. -/
theorem C120_sound {c : Cfg} (hc : c.Ok) {ssb : Nat} {s : St} {d : Disk} {es : List Entry} {u : Sub}
    (h : SReach c ssb s d es u) {d' : Disk} {fuel : Nat} (hy : check c fuel s u d' = .yes) :
    (∃ x, d' ssb = .ssb ssb x) ∧ Listed c d' ssb s.ssbNext (es.map (fun e => (e.typ, e.bid))) := by
  have hu := h.sub hc
  obtain ⟨rfl, L, hi, rfl⟩ := h.good hc
  obtain ⟨first, -, h2, h3⟩ := hi.disk
  unfold check at hy
  cases hd : d' s.ssb with
  | ssb b y =>
    simp only [hd] at hy
    by_cases hb : b = s.ssb
    · subst hb
      simp only [if_true] at hy
      cases hr : checkRecs c s u d' fuel fuel s.ssb s.ssbNext 0 [] with
      | error v => simp only [hr] at hy; subst hy; exact absurd hr checkRecs_not_yes
      | ok r => exact ⟨⟨y, rfl⟩, checkRecs_listed hi hu (fun g hg => hg) (h2 ▸ h3) hr⟩
    · simp [hb] at hy
  | junk => simp [hd] at hy
  | mblk _ => simp [hd] at hy
  | ovf _ => simp [hd] at hy
  | data _ => simp [hd] at hy

theorem Listed.start {c : Cfg} {d : Disk} {p : Nat} {st : Option Nat} {l : List (Nat × Nat)}
    (h : Listed c d p st l) : st = l.head?.map Prod.snd := by
  cases h <;> rfl

/-- Two devices that hold the same list have the same links. -/
theorem Listed.links {c : Cfg} {d d' : Disk} {p : Nat} {st : Option Nat} {l : List (Nat × Nat)}
    (h : Listed c d p st l) (h' : Listed c d' p st l) :
    ∀ x ∈ l, ∃ m m', d x.2 = .mblk m ∧ d' x.2 = .mblk m' ∧ m'.bid = m.bid ∧ m'.prev = m.prev ∧
      m'.next = m.next ∧ m'.typ = m.typ := by
  induction l generalizing p st with
  | nil => intro x hx; cases hx
  | cons y l ih =>
    generalize hz : y :: l = z at h h'
    cases h with
    | nil => cases hz
    | @cons _ b m l1 hd hb hp _ _ hn =>
      cases hz
      generalize hz' : (m.typ, b) :: l = z' at h'
      cases h' with
      | @cons _ _ m' l2 hd' hb' hp' _ _ hn' =>
        obtain ⟨ht, rfl⟩ : (m.typ, b) = (m'.typ, b) ∧ l = l2 := by
          exact ⟨(List.cons.inj hz').1, (List.cons.inj hz').2⟩
        have ht : m.typ = m'.typ := congrArg Prod.fst ht
        have hnn : m'.next = m.next := by rw [hn.start, hn'.start]
        intro x hx
        rcases List.mem_cons.1 hx with rfl | hx
        · exact ⟨m, m', hd, hd', by rw [hb, hb'], by rw [hp, hp'], hnn, ht.symm⟩
        · exact ih hn (hnn ▸ hn') x hx

/-- **C120, second part, for one record.** If the check accepts a device, the block of every record on it
is a record, with the id, the links and the type that it had when the service wrote it: the check never
accepts a device on which one of them is another. -/
theorem C120_broken_link {c : Cfg} (hc : c.Ok) {ssb : Nat} {s : St} {d : Disk} {es : List Entry} {u : Sub}
    (h : SReach c ssb s d es u) {d' : Disk} {fuel : Nat} (hy : check c fuel s u d' = .yes) {e : Entry}
    (he : e ∈ es) : ∃ m m', d e.bid = .mblk m ∧ d' e.bid = .mblk m' ∧ m'.bid = m.bid ∧ m'.prev = m.prev ∧
      m'.next = m.next ∧ m'.typ = m.typ := by
  obtain ⟨n, hn⟩ := C120_accepts hc h
  exact Listed.links (C120_sound hc h (hn n (Nat.le_refl n))).2 (C120_sound hc h hy).2 (e.typ, e.bid)
    (List.mem_map.2 ⟨e, he, rfl⟩)

/-! ## Damage it finds -/

theorem checkOvf_broken {c : Cfg} (d : Disk) (X Y : List (OHdr × List Byte)) (x : OHdr × List Byte) (v : Blk)
    (hd : Has d (ovfWrites c (X ++ x :: Y))) (hok : ∀ y ∈ X ++ x :: Y, HdrOk c y)
    (nd : ((X ++ x :: Y).map (fun y => y.1.bid)).Nodup)
    (hv : ∀ o, v = .ovf o → ¬ (o.bid = x.1.bid ∧ o.pieces ≠ []))
    (o : Option Nat) (hc : Chain o ((X ++ x :: Y).map Prod.fst)) (f : Nat) (hf : X.length < f) :
    checkOvf (fset d x.1.bid v) f o = .no := by
  induction X generalizing o f with
  | nil =>
    cases o with
    | none => exact hc.elim
    | some b =>
      obtain ⟨hb, -⟩ := hc
      cases f with
      | zero => simp at hf
      | succ f =>
        subst hb
        rw [checkOvf]
        simp only [fset, if_true]
        cases v with
        | ovf o' => simp only; rw [if_neg (hv o' rfl)]
        | _ => rfl
  | cons z X ih =>
    cases o with
    | none => exact hc.elim
    | some b =>
      obtain ⟨hb, hc⟩ := hc
      have hd' : Has d ((z.1.bid, .ovf z.1) :: dataWrites c.bs z.1.pieces z.2) ∧
          Has d (ovfWrites c (X ++ x :: Y)) := by
        rw [← Has.append]; simpa [ovfWrites] using hd
      cases f with
      | zero => simp at hf
      | succ f =>
        have nd' := List.nodup_cons.1 (by simpa using nd : (z.1.bid :: (X ++ x :: Y).map (fun y => y.1.bid)).Nodup)
        have hne : b ≠ x.1.bid := by
          intro he
          apply nd'.1
          rw [hb, he]
          simp
        have e1 : fset d x.1.bid v b = .ovf z.1 := by
          simp only [fset, hne, if_false]
          rw [← hb]; exact hd'.1 (z.1.bid, .ovf z.1) (by simp)
        have hp : z.1.pieces ≠ [] := (hok z (by simp)).fit.ne
        simp only [checkOvf, e1, hb, hp, ne_eq, not_false_eq_true, and_self, if_true]
        exact ih hd'.2 (fun y hy => hok y (by simp [hy])) nd'.2 z.1.next hc f (by simp at hf; omega)

theorem fset_frame {d : Disk} {b : Nat} {v : Blk} {l : List Nat} (h : b ∉ l) : ∀ x ∈ l, fset d b v x = d x := by
  intro x hx
  have : x ≠ b := fun e => h (e ▸ hx)
  simp [fset, this]

theorem maxHdrs_append (A B : List G) : maxHdrs (A ++ B) = max (maxHdrs A) (maxHdrs B) := by
  induction A with
  | nil => simp [maxHdrs]
  | cons a A ih => simp only [List.cons_append, maxHdrs, ih]; omega

/-- The walk up to the record `g`, on a device that is damaged in blocks of `g` only. -/
theorem check_upto {c : Cfg} (hbs : 0 < c.bs) {s : St} {u : Sub} {d : Disk} {A B : List G} {g : G}
    (hi : Inv c s d (A ++ g :: B)) (hck : ∀ a ∈ A, cookieOk s u a.m = true) {b : Nat} (hb : b ∈ g.blocks)
    (v : Blk) {fuel : Nat} (hf : max (A ++ g :: B).length (maxHdrs (A ++ g :: B)) < fuel) {w : Verdict}
    (hw : ∀ f n cl, 0 < f → checkRecs c s u (fset d b v) fuel f (lastBid s.ssb A) (some g.m.bid) n cl = .error w) :
    check c fuel s u (fset d b v) = w := by
  obtain ⟨first, h1, h2, h3⟩ := hi.disk
  obtain ⟨k, hA, hk, -⟩ := Seg.append.1 h3
  have nd := hi.nd
  rw [blocksOf_append, blocksOf_cons, List.nodup_cons, List.nodup_append, List.nodup_append] at nd
  obtain ⟨n1, -, -, n2⟩ := nd
  have hbA : b ∉ blocksOf A := fun hx => n2 b hx b (by simp [hb]) rfl
  have hbs' : s.ssb ≠ b := by
    intro e
    apply n1
    simp [e, hb]
  have hA' : Seg c (fset d b v) True s.ssb first A k := hA.frame hbs (fset_frame hbA)
  rw [maxHdrs_append] at hf
  simp only [List.length_append, List.length_cons] at hf
  have hwk := checkRecs_seg (s := s) (u := u) hA' hck fuel (fuel - A.length) 0 [] (by omega)
  have e : A.length + (fuel - A.length) = fuel := by omega
  rw [e, hk, hw _ _ _ (by omega)] at hwk
  have hs : fset d b v s.ssb = .ssb s.ssb first := by simp [fset, hbs', h1]
  simp only [check, hs, if_true, h2, hwk]

/-- **C120, third part.** If the block of an overflow header of any record is damaged (it is no header any
more, or one of another block, or one without data ids), the check comes to an end and rejects the
store. -/
theorem C120_broken_overflow {c : Cfg} (hc : c.Ok) {ssb : Nat} {s : St} {d : Disk} {es : List Entry} {u : Sub}
    (h : SReach c ssb s d es u) {o : OHdr} (ho : o ∈ s.ohdrs) {v : Blk}
    (hv : ∀ x, v = .ovf x → ¬ (x.bid = o.bid ∧ x.pieces ≠ [])) :
    Verifies c s u (fset d o.bid v) .no := by
  have hu := h.sub hc
  obtain ⟨-, L, hi, rfl⟩ := h.good hc
  obtain ⟨g, hg, hog⟩ := List.mem_flatMap.1 (hi.hdrs.subset ho)
  obtain ⟨x, hx, rfl⟩ := List.mem_map.1 hog
  have hcks := fun a ha => cookie_of hi hu (g := a) ha
  obtain ⟨A, B, rfl⟩ := List.append_of_mem hg
  obtain ⟨X, Y, hxy⟩ := List.append_of_mem hx
  have hbg : x.1.bid ∈ g.blocks := by
    simp only [G.blocks, hxy, xblocks, List.mem_cons, List.mem_flatMap]
    right
    exact ⟨x.1, by simp, by simp [OHdr.blocks]⟩
  refine ⟨max (A ++ g :: B).length (maxHdrs (A ++ g :: B)) + 1, fun fuel hf => ?_⟩
  refine check_upto hc.bs hi (fun a ha => hcks a (by simp [ha])) hbg v (by omega) ?_
  intro f n cl hf0
  obtain ⟨f, rfl⟩ : ∃ f', f = f' + 1 := ⟨f - 1, by omega⟩
  obtain ⟨first, -, -, h3⟩ := hi.disk
  obtain ⟨k, -, -, hd, hrec, hprev, -⟩ := Seg.append.1 h3
  have nd := (List.nodup_cons.1 hi.nd).2
  rw [blocksOf_append, blocksOf_cons, List.nodup_append, List.nodup_append] at nd
  have ndg := nd.2.1.1
  have ndx := (List.nodup_cons.1 ndg)
  have hne : g.m.bid ≠ x.1.bid := by
    intro e
    apply ndx.1
    rw [e]
    simp only [hxy, xblocks, List.mem_flatMap]
    exact ⟨x.1, by simp, by simp [OHdr.blocks]⟩
  have hd' : fset d x.1.bid v g.m.bid = .mblk g.m := by simp [fset, hne, hd]
  have hbids : ((X ++ x :: Y).map (fun y => y.1.bid)).Nodup := by
    have hsub : (g.xs.map (fun y => y.1.bid)).Sublist (xblocks g.xs) := by
      generalize g.xs = l
      induction l with
      | nil => simp [xblocks]
      | cons y l ih =>
        simp only [xblocks, List.map_cons, List.flatMap_cons, OHdr.blocks, List.cons_append] at ih ⊢
        exact List.Sublist.cons_cons _ (ih.trans (List.sublist_append_right _ _))
    rw [← hxy]
    exact hsub.nodup ndx.2
  have hlen : g.xs.length ≤ fuel := by
    rw [maxHdrs_append] at hf
    simp only [maxHdrs] at hf
    omega
  have hbody : checkBody c (fset d x.1.bid v) fuel g.m = .no := by
    have hsz : ¬ g.m.ctxsz ≤ c.inlineMax := by
      intro hs
      have := hrec.inl hs
      rw [this] at hx
      cases hx
    have hno : checkOvf (fset d x.1.bid v) fuel g.m.ovf = .no :=
      checkOvf_broken d X Y x v (hxy ▸ hrec.has) (hxy ▸ hrec.hok) hbids hv g.m.ovf (hxy ▸ hrec.chain) fuel
        (by rw [hxy] at hlen; simp at hlen; omega)
    unfold checkBody
    rw [if_neg hsz]
    split
    · rfl
    · exact hno
  rw [checkRecs]
  simp only [hd', hcks g hg, if_true, hprev trivial, and_self, hbody]

/-! ## Damage that ends the process -/

/-- **C120 fails**: if the block of any record is damaged (it is no record any more), the check does not
reject the store: a release assertion ends the process, although the check "should not do release
assert, but return failure to caller" (meta_blk_service.cpp 1341). -/
theorem C120_broken_record_violated {c : Cfg} (hc : c.Ok) {ssb : Nat} {s : St} {d : Disk} {es : List Entry}
    {u : Sub} (h : SReach c ssb s d es u) {e : Entry} (he : e ∈ es) {v : Blk} (hv : ∀ m, v ≠ .mblk m) :
    Verifies c s u (fset d e.bid v) .stop := by
  have hu := h.sub hc
  obtain ⟨-, L, hi, rfl⟩ := h.good hc
  obtain ⟨g, hg, rfl⟩ := List.mem_map.1 he
  have hcks := fun a ha => cookie_of hi hu (g := a) ha
  obtain ⟨A, B, rfl⟩ := List.append_of_mem hg
  refine ⟨max (A ++ g :: B).length (maxHdrs (A ++ g :: B)) + 1, fun fuel hf => ?_⟩
  refine check_upto hc.bs hi (fun a ha => hcks a (by simp [ha])) (bid_mem_blocks g) v (by omega) ?_
  intro f n cl hf0
  obtain ⟨f, rfl⟩ : ∃ f', f = f' + 1 := ⟨f - 1, by omega⟩
  rw [checkRecs]
  · cases v with
    | mblk m => exact absurd rfl (hv m)
    | _ => simp [fset]

/-- **C120 fails**: once a type that has records is deregistered, the check ends the process, on a store
that is as the service wrote it. -/
theorem C120_deregister_violated {c : Cfg} (hc : c.Ok) {ssb : Nat} {s : St} {d : Disk} {es : List Entry}
    {u : Sub} (h : SReach c ssb s d es u) {e : Entry} (he : e ∈ es) :
    Verifies c s (u.dereg e.typ) d .stop := by
  have hu := h.sub hc
  obtain ⟨-, L, hi, rfl⟩ := h.good hc
  -- the first record of the type
  have key : ∀ L : List G, (∃ g ∈ L, g.m.typ = e.typ) →
      ∃ A g B, L = A ++ g :: B ∧ g.m.typ = e.typ ∧ ∀ a ∈ A, a.m.typ ≠ e.typ := by
    intro L
    induction L with
    | nil => rintro ⟨g, hg, -⟩; cases hg
    | cons g L ih =>
      rintro ⟨g', hg', ht⟩
      by_cases hgt : g.m.typ = e.typ
      · exact ⟨[], g, L, rfl, hgt, by simp⟩
      · rcases List.mem_cons.1 hg' with rfl | hg'
        · exact absurd ht hgt
        · obtain ⟨A, g2, B, rfl, h1, h2⟩ := ih ⟨g', hg', ht⟩
          refine ⟨g :: A, g2, B, rfl, h1, ?_⟩
          intro a ha
          rcases List.mem_cons.1 ha with rfl | ha
          · exact hgt
          · exact h2 a ha
  obtain ⟨g0, hg0, rfl⟩ := List.mem_map.1 he
  obtain ⟨A, g, B, rfl, ht, hA⟩ := key L ⟨g0, hg0, rfl⟩
  refine ⟨max (A ++ g :: B).length (maxHdrs (A ++ g :: B)) + 1, fun fuel hf => ?_⟩
  have hck : ∀ a ∈ A, cookieOk s (u.dereg g0.entry.typ) a.m = true := by
    intro a ha
    have h0 := cookie_of hi hu (g := a) (by simp [ha])
    have hne := hA a ha
    simp only [cookieOk, Bool.and_eq_true, decide_eq_true_eq] at h0 ⊢
    refine ⟨⟨?_, ?_⟩, h0.2⟩
    · exact List.mem_filter.2 ⟨h0.1.1, by simpa using hne⟩
    · exact List.mem_filter.2 ⟨h0.1.2, by simpa using hne⟩
  have hself : fset d g.m.bid (.mblk g.m) = d := by
    obtain ⟨first, -, -, h3⟩ := hi.disk
    obtain ⟨k, -, -, hd, -⟩ := Seg.append.1 h3
    funext x
    simp only [fset]
    split
    · rename_i hx; rw [hx, hd]
    · rfl
  rw [← hself]
  refine check_upto hc.bs hi hck (bid_mem_blocks g) (.mblk g.m) (by omega) ?_
  intro f n cl hf0
  obtain ⟨f, rfl⟩ : ∃ f', f = f' + 1 := ⟨f - 1, by omega⟩
  have hno : cookieOk s (u.dereg g0.entry.typ) g.m = false := by
    have : g.m.typ ∉ (u.dereg g0.entry.typ).types := by
      simp [Sub.dereg, ht]
    simp [cookieOk, this]
  rw [checkRecs]
  simp [fset, hno]

/-! ## What it accepts need not start again -/

/-- **C120 fails**: the check looks at links only.  It accepts a store whatever has become of the contents
of the records (inline or in data blocks), of the checksums, of the sizes and data ids in the overflow
headers, and of the first link of the super block on the device. -/
theorem C120_links_only_violated {c : Cfg} (hc : c.Ok) {ssb : Nat} {s : St} {d d' : Disk} {es : List Entry}
    {u : Sub} (h : SReach c ssb s d es u) (hs : SameLinks ssb d d') : Verifies c s u d' .yes := by
  obtain ⟨n, hn⟩ := C120_accepts hc h
  obtain ⟨rfl, -⟩ := h.good hc
  exact ⟨n, fun fuel hf => check_same hs (hn fuel hf)⟩

/-- **C120 fails**: in every execution, if the first link on the device is lost, the check accepts the
store, and no start succeeds. -/
theorem C120_first_link_violated {c : Cfg} (hc : c.Ok) {ssb : Nat} {s : St} {d : Disk} {es : List Entry}
    {u : Sub} (h : SReach c ssb s d es u) :
    Verifies c s u (fset d ssb (.ssb ssb none)) .yes ∧
      ∀ fuel, restart c fuel ssb (fset d ssb (.ssb ssb none)) = none := by
  refine ⟨C120_links_only_violated hc h ⟨⟨none, by simp [fset]⟩, ?_, ?_⟩, ?_⟩
  · intro b m hm
    obtain ⟨rfl, L, hi, -⟩ := h.good hc
    obtain ⟨first, h1, -⟩ := hi.disk
    refine ⟨m.inl, m.compressed, m.crc, ?_⟩
    have : b ≠ s.ssb := by rintro rfl; rw [h1] at hm; cases hm
    simp [fset, this, hm]
  · intro b o hm
    obtain ⟨rfl, L, hi, -⟩ := h.good hc
    obtain ⟨first, h1, -⟩ := hi.disk
    refine ⟨o.ctxsz, o.pieces, id, ?_⟩
    have : b ≠ s.ssb := by rintro rfl; rw [h1] at hm; cases hm
    simp [fset, this, hm]
  · intro fuel
    simp [restart, fset]

/-- **C120 fails**: in every execution, once the only record is removed, the check accepts the store, and
no start succeeds. -/
theorem C120_empty_violated {c : Cfg} (hc : c.Ok) {ssb : Nat} {s s' : St} {d : Disk} {e : Entry} {u : Sub}
    (h : SReach c ssb s d [e] u) {ws : List Write} (hp : prog c s (.rem e.bid) = some (ws, s')) :
    Verifies c s' (subOp u s (.rem e.bid)) (exec d ws) .yes ∧
      ∀ fuel, restart c fuel ssb (exec d ws) = none := by
  have hu := h.sub hc
  obtain ⟨rfl, L, hi, hL⟩ := h.good hc
  match L, hL with
  | [g], hL =>
    simp only [List.map_cons, List.map_nil, List.cons.injEq, and_true] at hL
    subst hL
    obtain ⟨first, h1, h2, h3⟩ := hi.disk
    obtain ⟨-, hd, -, hprev, hnext⟩ := h3
    have hprev := hprev trivial
    have hnext : g.m.next = none := hnext
    have hcg : s.cache g.entry.bid = some g.m := (hi.cache _ _).2 ⟨g, by simp, rfl, rfl⟩
    simp only [prog, remOp, hcg, unlinkPrev, hprev, if_true, unlinkNext, hnext] at hp
    cases hf : freeChain s.ohdrs.length s.ohdrs g.m.ovf with
    | none => rw [hf] at hp; cases hp
    | some r =>
      rw [hf] at hp
      simp only [Option.some.injEq, Prod.mk.injEq] at hp
      obtain ⟨rfl, rfl⟩ := hp
      have hrecs : (u.del g.m.typ g.entry.bid).recs = [] := by
        simp only [Sub.del, List.filter_eq_nil_iff, decide_eq_true_eq, not_not]
        intro p hpm
        have := (hu.recs p).1 hpm
        simpa [key, G.entry] using this
      refine ⟨⟨0, fun fuel _ => ?_⟩, fun fuel => ?_⟩
      · have hend : ∀ x y z w, checkRecs c x y z fuel fuel w none 0 [] = .ok (0, []) := by
          intro x y z w; cases fuel <;> rfl
        simp only [check, subOp, hcg, List.append_nil, exec, List.foldl_cons, List.foldl_nil, fset, if_true,
          hend, hrecs, List.length_nil, Nat.zero_le, and_self]
      · simp [restart, exec, fset]

/-! ## Concrete cases -/

/-- The store of `HS.Meta.exRun`: an inline record in block 2 and an overflowing one in block 3. -/
def exD : Disk := exec (exec (fun _ => .junk) (format 1).1)
  (((prog ex (format 1).2 (.add 7 [9, 9] 2 ⟨[], []⟩)).map Prod.fst).getD [])
def exS2 : St := ((prog ex exS1 (.add 8 exBytes 3 exSp)).map Prod.snd).getD exS1
def exD2 : Disk := exec exD (((prog ex exS1 (.add 8 exBytes 3 exSp)).map Prod.fst).getD [])
def exU2 : Sub := ((Sub.scan [7, 8] []).add 7 2).add 8 3

theorem ex_reach1 : SReach ex 1 exS1 exD [⟨2, 7, [9, 9]⟩] ((Sub.scan [7, 8] []).add 7 2) :=
  SReach.boot (fun _ => .junk) [7, 8] 7 [9, 9] 2 ⟨[], []⟩ _ _
    ⟨⟨by decide, by decide⟩, by intro h; exact absurd h (by decide)⟩ rfl (by decide)

theorem some_of_isSome {x : Option (List Write × St)} {s : St} (h : x.isSome = true) :
    x = some ((x.map Prod.fst).getD [], (x.map Prod.snd).getD s) := by
  cases x with
  | none => cases h
  | some r => rfl

/-- It is reachable, so all of the above applies to it. -/
theorem ex_reach2 : SReach ex 1 exS2 exD2 [⟨2, 7, [9, 9]⟩, ⟨3, 8, exBytes⟩] exU2 := by
  refine SReach.op ex_reach1 (.add 8 exBytes 3 exSp) _ _ ⟨⟨by decide, by decide +kernel⟩, ?_⟩
    (some_of_isSome (by decide +kernel)) ?_
  · intro _
    exact ⟨by decide, by decide, Or.inr (by decide)⟩
  · intro t x b sp h
    cases h
    decide

example : check ex 9 exS2 exU2 exD2 = .yes := by decide +kernel
/-- With the hypotheses of `C120_broken_overflow`, and its conclusion. -/
example : exS2.ohdrs.map OHdr.bid = [20, 30] ∧ check ex 9 exS2 exU2 (fset exD2 30 .junk) = .no := by decide +kernel
example : check ex 9 exS2 exU2 (fset exD2 3 .junk) = .stop := by decide +kernel
/-- A back link that names another record: not accepted, the process ends. -/
example : check ex 9 exS2 exU2 (fset exD2 2 (.mblk ⟨2, 5, some 3, none, 7, 2, [9, 9], false, 0⟩)) = .stop := by
  decide +kernel
example : check ex 9 exS2 (exU2.dereg 8) exD2 = .stop := by decide +kernel
/-- `C120_empty_violated` on the store with one record. -/
example : (prog ex exS1 (.rem 2)).isSome = true := by decide +kernel

/-- The record in block 2 with another content and checksum. -/
def exM2 : MBlk := ⟨2, 1, some 3, none, 7, 2, [0, 0], false, 0⟩

/-- `C120_sound` on a device that is not the one the service wrote: the inline content is another. -/
example : check ex 9 exS2 exU2 (fset exD2 2 (.mblk exM2)) = .yes := by decide +kernel

/-- Damages confined to a content, to a checksum, to the size in an overflow header. -/
def exDamaged : List Disk :=
  [fset exD2 21 (.data [0, 0]),
   fset exD2 2 (.mblk exM2),
   fset exD2 30 (.ovf { bid := 30, next := none, ctxsz := 4, pieces := [(31, 2), (35, 1)] })]

/-- **C120 fails**: damage to a content, to a checksum or to the size in an overflow header is accepted by
the check, and the store does not start. -/
theorem C120_content_violated :
    (restart ex 9 1 exD2).map (·.1) = some [⟨2, 7, [9, 9]⟩, ⟨3, 8, exBytes⟩] ∧
    exDamaged.map (fun d => (check ex 9 exS2 exU2 d, (restart ex 9 1 d).map (·.1))) =
      [(.yes, none), (.yes, none), (.yes, none)] := by decide +kernel

end HS.MetaCheck
