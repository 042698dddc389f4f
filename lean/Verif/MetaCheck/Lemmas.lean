import Verif.MetaCheck.Spec
import Verif.Meta.Props

/-!
# Lemmas: the walk of the check, the map of types
-/
namespace HS.MetaCheck
open HS.Meta

/-! ## Executions with and without the map -/

theorem SReach.reach {c : Cfg} {ssb : Nat} {s : St} {d : Disk} {es : List Entry} {u : Sub}
    (h : SReach c ssb s d es u) : Reach c ssb (.run s d es) := by
  induction h with
  | boot d0 regs t x b sp ws s ho hp ht => exact Reach.boot d0 t x b sp ws s ho hp
  | op _ op ws s' ho hp ht ih => exact Reach.op ih op ws s' ho hp
  | reg _ t ih => exact ih
  | restart h hr regs => exact Reach.restart h hr

/-- Type and id. -/
def key (e : Entry) : Nat × Nat := (e.typ, e.bid)

theorem bids_nodup {L : List G} (h : (blocksOf L).Nodup) : ((L.map G.entry).map Entry.bid).Nodup := by
  induction L with
  | nil => simp
  | cons g L ih =>
    rw [blocksOf_cons, List.nodup_append] at h
    obtain ⟨-, h2, h3⟩ := h
    simp only [List.map_cons, List.nodup_cons]
    refine ⟨?_, ih h2⟩
    intro hm
    simp only [List.mem_map] at hm
    obtain ⟨e, ⟨g', hg', rfl⟩, he⟩ := hm
    exact h3 _ (bid_mem_blocks g) _ (bid_mem_blocksOf hg') (by simpa [G.entry] using he.symm)

theorem keys_nodup {es : List Entry} (h : (es.map Entry.bid).Nodup) : (es.map key).Nodup := by
  have : (es.map key).map Prod.snd = es.map Entry.bid := by simp [key, Function.comp_def]
  rw [← this] at h
  exact List.Nodup.of_map _ h

/-- The map holds exactly the records. -/
structure SubOk (u : Sub) (es : List Entry) : Prop where
  tnd : u.types.Nodup
  rnd : u.recs.Nodup
  recs : ∀ p, p ∈ u.recs ↔ p ∈ es.map key
  types : ∀ e ∈ es, e.typ ∈ u.types

theorem SubOk.len {u : Sub} {es : List Entry} (h : SubOk u es) (nd : (es.map Entry.bid).Nodup) :
    u.recs.length = es.length := by
  have := ((List.perm_ext_iff_of_nodup h.rnd (keys_nodup nd)).2 h.recs).length_eq
  simpa using this

theorem regs_types (regs : List Nat) (u : Sub) (h : u.types.Nodup) :
    (regs.foldl Sub.reg u).types.Nodup ∧ (∀ t, t ∈ (regs.foldl Sub.reg u).types ↔ t ∈ regs ∨ t ∈ u.types) ∧
      (regs.foldl Sub.reg u).recs = u.recs := by
  induction regs generalizing u with
  | nil => simp [h]
  | cons t regs ih =>
    obtain ⟨h1, h2, h3⟩ := ih (u.reg t) (h.insert)
    refine ⟨h1, ?_, h3⟩
    intro x
    rw [List.foldl_cons, h2, List.mem_cons]
    simp only [Sub.reg, List.mem_insert_iff]
    tauto

theorem scan_ok (l : List (Nat × Nat)) (u : Sub) (h : u.types.Nodup) (h' : u.recs.Nodup) :
    let v := l.foldl (fun u x => u.add x.1 x.2) u
    v.types.Nodup ∧ v.recs.Nodup ∧ (∀ p, p ∈ v.recs ↔ p ∈ l ∨ p ∈ u.recs) ∧
      (∀ t, t ∈ v.types ↔ t ∈ l.map Prod.fst ∨ t ∈ u.types) := by
  induction l generalizing u with
  | nil => simp [h, h']
  | cons x l ih =>
    obtain ⟨h1, h2, h3, h4⟩ := ih (u.add x.1 x.2) h.insert h'.insert
    refine ⟨h1, h2, ?_, ?_⟩
    · intro p
      have := h3 p
      simp only [List.foldl_cons] at this ⊢
      rw [this, List.mem_cons]
      simp only [Sub.add, List.mem_insert_iff]
      tauto
    · intro t
      have := h4 t
      simp only [List.foldl_cons] at this ⊢
      rw [this, List.map_cons, List.mem_cons]
      simp only [Sub.add, List.mem_insert_iff]
      tauto

theorem scan_sub {regs : List Nat} (es : List Entry) : SubOk (Sub.scan regs (es.map key)) es ∧
    ∀ t ∈ regs, t ∈ (Sub.scan regs (es.map key)).types := by
  obtain ⟨a1, a2, a3⟩ := regs_types regs { types := [], recs := [] } (by simp)
  obtain ⟨b1, b2, b3, b4⟩ := scan_ok (es.map key) _ a1 (by rw [a3]; simp)
  refine ⟨⟨b1, b2, ?_, ?_⟩, ?_⟩
  · intro p
    unfold Sub.scan
    rw [b3, a3]; simp
  · intro e he
    unfold Sub.scan
    rw [b4]
    left
    simp only [List.map_map, List.mem_map, Function.comp_apply, key]
    exact ⟨e, he, rfl⟩
  · intro t ht
    unfold Sub.scan
    rw [b4, a2]
    exact Or.inr (Or.inl ht)

theorem SubOk.add {u : Sub} {es : List Entry} (h : SubOk u es) (t b : Nat) (x : List Byte) :
    SubOk (u.add t b) (es ++ [⟨b, t, x⟩]) := by
  refine ⟨h.tnd.insert, h.rnd.insert, ?_, ?_⟩
  · intro p
    simp only [Sub.add, List.mem_insert_iff, h.recs, List.map_append, List.mem_append, List.map_cons,
      List.map_nil, List.mem_singleton, key]
    tauto
  · intro e he
    simp only [Sub.add, List.mem_insert_iff]
    rcases List.mem_append.1 he with he | he
    · exact Or.inr (h.types e he)
    · simp only [List.mem_singleton] at he
      subst he; exact Or.inl rfl

theorem mem_bid_inj {es : List Entry} (nd : (es.map Entry.bid).Nodup) {a b : Entry} (ha : a ∈ es) (hb : b ∈ es)
    (e : a.bid = b.bid) : a = b := List.inj_on_of_nodup_map nd ha hb e

theorem SubOk.del {u : Sub} {es : List Entry} (h : SubOk u es) (nd : (es.map Entry.bid).Nodup) {e : Entry}
    (he : e ∈ es) : SubOk (u.del e.typ e.bid) (es.filter (fun x => x.bid ≠ e.bid)) := by
  refine ⟨h.tnd.insert, h.rnd.filter _, ?_, ?_⟩
  · intro p
    simp only [Sub.del, List.mem_filter, h.recs, List.mem_map, decide_eq_true_eq]
    constructor
    · rintro ⟨⟨a, ha, rfl⟩, hne⟩
      refine ⟨a, ⟨ha, ?_⟩, rfl⟩
      intro hb
      have := mem_bid_inj nd ha he hb
      subst this
      exact hne rfl
    · rintro ⟨a, ⟨ha, hne⟩, rfl⟩
      refine ⟨⟨a, ha, rfl⟩, ?_⟩
      intro hk
      exact hne (congrArg Prod.snd hk)
  · intro a ha
    simp only [Sub.del, List.mem_insert_iff]
    exact Or.inr (h.types a (List.mem_filter.1 ha).1)

theorem SubOk.upd {u : Sub} {es : List Entry} (h : SubOk u es) (b : Nat) (x : List Byte) :
    SubOk u (es.map (fun e => if e.bid = b then { e with content := x } else e)) := by
  have hk : (es.map (fun e => if e.bid = b then { e with content := x } else e)).map key = es.map key := by
    rw [List.map_map]
    apply List.map_congr_left
    intro e _
    simp only [Function.comp_apply, key]
    split <;> rfl
  refine ⟨h.tnd, h.rnd, ?_, ?_⟩
  · intro p; rw [hk]; exact h.recs p
  · intro e he
    obtain ⟨a, ha, rfl⟩ := List.mem_map.1 he
    have := h.types a ha
    split <;> exact this

/-- What holds in every execution. -/
theorem SReach.good {c : Cfg} (hc : c.Ok) {ssb : Nat} {s : St} {d : Disk} {es : List Entry} {u : Sub}
    (h : SReach c ssb s d es u) : s.ssb = ssb ∧ ∃ L, Inv c s d L ∧ L.map G.entry = es := by
  exact reach_good hc h.reach

theorem SReach.nodup {c : Cfg} (hc : c.Ok) {ssb : Nat} {s : St} {d : Disk} {es : List Entry} {u : Sub}
    (h : SReach c ssb s d es u) : (es.map Entry.bid).Nodup := by
  obtain ⟨-, L, hi, rfl⟩ := h.good hc
  exact bids_nodup (List.nodup_cons.1 hi.nd).2

theorem SReach.sub {c : Cfg} (hc : c.Ok) {ssb : Nat} {s : St} {d : Disk} {es : List Entry} {u : Sub}
    (h : SReach c ssb s d es u) : SubOk u es := by
  induction h with
  | boot d0 regs t x b sp ws s ho hp ht =>
    have := (scan_sub (regs := regs) []).1.add t b x
    simpa using this
  | @op s d es u h op ws s' ho hp ht ih =>
    cases op with
    | add t x b sp => exact ih.add t b x
    | upd b x sp => exact ih.upd b x
    | rem b =>
      obtain ⟨-, L, hi, rfl⟩ := h.good hc
      have nd := h.nodup hc
      obtain ⟨e, he, rfl⟩ := List.mem_map.1 ho.1
      obtain ⟨g, hg, rfl⟩ := List.mem_map.1 he
      have hcg : s.cache g.entry.bid = some g.m := (hi.cache _ _).2 ⟨g, hg, rfl, rfl⟩
      simp only [subOp, hcg, specOp]
      exact ih.del nd he
  | reg _ t ih =>
    refine ⟨ih.tnd.insert, ih.rnd, ih.recs, ?_⟩
    intro e he
    simp only [Sub.reg, List.mem_insert_iff]
    exact Or.inr (ih.types e he)
  | restart h hr regs => exact (scan_sub _).1

/-! ## The walk over what the service wrote -/

theorem checkOvf_ok {c : Cfg} (d : Disk) (xs : List (OHdr × List Byte)) (hd : Has d (ovfWrites c xs))
    (hok : ∀ x ∈ xs, HdrOk c x) (o : Option Nat) (hc : Chain o (xs.map Prod.fst)) (f : Nat) (hf : xs.length ≤ f) :
    checkOvf d f o = .yes := by
  induction xs generalizing o f with
  | nil =>
    cases o with
    | none => simp [checkOvf]
    | some b => exact hc.elim
  | cons x xs ih =>
    cases o with
    | none => exact hc.elim
    | some b =>
      obtain ⟨hb, hc⟩ := hc
      have hd' : Has d ((x.1.bid, .ovf x.1) :: dataWrites c.bs x.1.pieces x.2) ∧ Has d (ovfWrites c xs) := by
        rw [← Has.append]; simpa [ovfWrites] using hd
      cases f with
      | zero => simp at hf
      | succ f =>
        have e1 : d b = .ovf x.1 := by
          rw [← hb]; exact hd'.1 (x.1.bid, .ovf x.1) (by simp)
        have hp : x.1.pieces ≠ [] := (hok x (by simp)).fit.ne
        simp only [checkOvf, e1, hb, hp, ne_eq, not_false_eq_true, and_self, if_true]
        exact ih hd'.2 (fun y hy => hok y (by simp [hy])) x.1.next hc f (by simp at hf; omega)

theorem checkBody_ok {c : Cfg} {d : Disk} {m : MBlk} {xs : List (OHdr × List Byte)} {content : List Byte}
    (h : RecOk c d m xs content) {of : Nat} (ho : xs.length ≤ of) : checkBody c d of m = .yes := by
  unfold checkBody
  by_cases hs : m.ctxsz ≤ c.inlineMax
  · have hx := h.inl hs
    have hc := h.chain
    rw [hx] at hc
    cases hm : m.ovf with
    | none => simp [hs]
    | some b => rw [hm] at hc; exact hc.elim
  · have hl := h.len
    cases hm : m.ovf with
    | none =>
      have hc := h.chain
      rw [hm] at hc
      cases xs with
      | nil => simp only [bodyData, hs, if_false, List.flatMap_nil, List.length_nil] at hl; omega
      | cons x xs => exact hc.elim
    | some b =>
      simp only [hs, if_false, reduceCtorEq]
      exact checkOvf_ok d xs h.has h.hok _ (by rw [← hm]; exact h.chain) of ho

/-- The types seen after a stretch of records. -/
def seen (cl : List Nat) : List G → List Nat
  | [] => cl
  | g :: L => seen (cl.insert g.m.typ) L

theorem seen_ok {ts : List Nat} (L : List G) (cl : List Nat) (nd : cl.Nodup) (hs : ∀ t ∈ cl, t ∈ ts)
    (hL : ∀ g ∈ L, g.m.typ ∈ ts) : (seen cl L).Nodup ∧ ∀ t ∈ seen cl L, t ∈ ts := by
  induction L generalizing cl with
  | nil => exact ⟨nd, hs⟩
  | cons g L ih =>
    refine ih (cl.insert g.m.typ) nd.insert ?_ (fun g' h' => hL g' (by simp [h']))
    intro t ht
    rcases List.mem_insert_iff.1 ht with rfl | ht
    · exact hL g (by simp)
    · exact hs t ht

/-- A stretch of the list that is as the service wrote it is walked. -/
theorem checkRecs_seg {c : Cfg} {s : St} {u : Sub} {d : Disk} {p : Nat} {st k : Option Nat} {A : List G}
    (h : Seg c d True p st A k) (hck : ∀ g ∈ A, cookieOk s u g.m = true) (of f n : Nat) (cl : List Nat)
    (ho : maxHdrs A ≤ of) :
    checkRecs c s u d of (A.length + f) p st n cl
      = checkRecs c s u d of f (lastBid p A) k (n + A.length) (seen cl A) := by
  induction A generalizing p st n cl with
  | nil =>
    have : st = k := h
    subst this
    simp [lastBid, seen]
  | cons g A ih =>
    obtain ⟨h1, h2, h3, h4, h5⟩ := h
    subst h1
    have ho' : g.xs.length ≤ of ∧ maxHdrs A ≤ of := by simpa [maxHdrs] using ho
    have e : (g :: A).length + f = (A.length + f) + 1 := by simp; omega
    rw [e, checkRecs]
    simp only [h2, hck g (by simp), if_true, h4 trivial, and_self, checkBody_ok h3 ho'.1]
    rw [ih h5 (fun g' h' => hck g' (by simp [h'])) (n + 1) _ ho'.2]
    simp only [lastBid, seen, List.length_cons]
    congr 1
    omega

theorem cookie_of {c : Cfg} {s : St} {u : Sub} {d : Disk} {L : List G} (hi : Inv c s d L)
    (hu : SubOk u (L.map G.entry)) {g : G} (hg : g ∈ L) : cookieOk s u g.m = true := by
  have hcg : s.cache g.m.bid = some g.m := (hi.cache _ _).2 ⟨g, hg, rfl, rfl⟩
  have h1 : g.m.typ ∈ u.types := hu.types g.entry (List.mem_map.2 ⟨g, hg, rfl⟩)
  have h2 : (g.m.typ, g.m.bid) ∈ u.recs :=
    (hu.recs _).2 (List.mem_map.2 ⟨g.entry, List.mem_map.2 ⟨g, hg, rfl⟩, rfl⟩)
  simp [cookieOk, hcg, h1, h2]

theorem check_inv {c : Cfg} {s : St} {u : Sub} {d : Disk} {L : List G} (hi : Inv c s d L)
    (hu : SubOk u (L.map G.entry)) (fuel : Nat) (hf : max L.length (maxHdrs L) ≤ fuel) :
    check c fuel s u d = .yes := by
  obtain ⟨first, h1, h2, h3⟩ := hi.disk
  have hw := checkRecs_seg (s := s) (u := u) h3 (fun g hg => cookie_of hi hu hg) fuel (fuel - L.length) 0 []
    (by omega)
  have e : L.length + (fuel - L.length) = fuel := by omega
  rw [e] at hw
  have hend : ∀ f p n cl, checkRecs c s u d fuel f p none n cl = .ok (n, cl) := by
    intro f p n cl; cases f <;> rfl
  rw [hend] at hw
  have hs := seen_ok L [] (by simp) (by simp) (ts := u.types)
    (fun g hg => hu.types g.entry (List.mem_map.2 ⟨g, hg, rfl⟩))
  have hlen : (seen [] L).length ≤ u.types.length := (List.subperm_of_subset hs.1 hs.2).length_le
  have hn := hu.len (bids_nodup (List.nodup_cons.1 hi.nd).2)
  simp only [check, h1, if_true, h2, hw, Nat.zero_add]
  rw [if_pos ⟨by simpa using hn, hlen⟩]

/-! ## What the walk finds -/

theorem checkOvf_headed {d : Disk} {f : Nat} {o : Option Nat} (h : checkOvf d f o = .yes) : Headed d o := by
  induction f generalizing o with
  | zero => cases o with
    | none => exact .done
    | some b => simp [checkOvf] at h
  | succ f ih => cases o with
    | none => exact .done
    | some b =>
      rw [checkOvf] at h
      cases hd : d b with
      | ovf x =>
        simp only [hd] at h
        by_cases hx : x.bid = b ∧ x.pieces ≠ []
        · rw [if_pos hx] at h
          exact .step hd hx.1 hx.2 (ih h)
        · simp [hx] at h
      | junk => simp [hd] at h
      | ssb _ _ => simp [hd] at h
      | mblk _ => simp [hd] at h
      | data _ => simp [hd] at h

theorem checkBody_headed {c : Cfg} {d : Disk} {of : Nat} {m : MBlk} (h : checkBody c d of m = .yes) :
    (m.ctxsz ≤ c.inlineMax → m.ovf = none) ∧ (c.inlineMax < m.ctxsz → m.ovf ≠ none ∧ Headed d m.ovf) := by
  unfold checkBody at h
  by_cases hs : m.ctxsz ≤ c.inlineMax
  · rw [if_pos hs] at h
    refine ⟨fun _ => ?_, fun h' => by omega⟩
    by_contra hm
    simp [hm] at h
  · rw [if_neg hs] at h
    refine ⟨fun h' => absurd h' hs, fun _ => ?_⟩
    by_cases hm : m.ovf = none
    · simp [hm] at h
    · rw [if_neg hm] at h
      exact ⟨hm, checkOvf_headed h⟩

/-- One step of a walk that comes to its end. -/
theorem checkRecs_step {c : Cfg} {s : St} {u : Sub} {d : Disk} {of f p b n : Nat} {cl : List Nat}
    {r : Nat × List Nat} (h : checkRecs c s u d of f p (some b) n cl = .ok r) :
    ∃ m f', f = f' + 1 ∧ d b = .mblk m ∧ cookieOk s u m = true ∧ m.bid = b ∧ m.prev = p ∧
      checkBody c d of m = .yes ∧ checkRecs c s u d of f' b m.next (n + 1) (cl.insert m.typ) = .ok r := by
  cases f with
  | zero => simp [checkRecs] at h
  | succ f =>
    rw [checkRecs] at h
    cases hd : d b with
    | mblk m =>
      simp only [hd] at h
      by_cases hk : cookieOk s u m = true
      · rw [if_pos hk] at h
        by_cases hl : m.bid = b ∧ m.prev = p
        · rw [if_pos hl] at h
          cases hb : checkBody c d of m with
          | yes =>
            simp only [hb] at h
            exact ⟨m, f, rfl, rfl, hk, hl.1, hl.2, hb, h⟩
          | no => simp [hb] at h
          | stop => simp [hb] at h
          | loop => simp [hb] at h
        · simp [hl] at h
      · simp [hk] at h
    | junk => simp [hd] at h
    | ssb _ _ => simp [hd] at h
    | ovf _ => simp [hd] at h
    | data _ => simp [hd] at h

/-- A walk over any device that comes to its end has followed the list in memory. -/
theorem checkRecs_listed {c : Cfg} {s : St} {u : Sub} {d d' : Disk} {L : List G} (hi : Inv c s d L)
    (hu : SubOk u (L.map G.entry)) {A : List G} (hA : ∀ g ∈ A, g ∈ L) {p : Nat} {st : Option Nat} {q : Nat}
    (hseg : Seg c d True q st A none) {of f n : Nat} {cl : List Nat} {r : Nat × List Nat}
    (h : checkRecs c s u d' of f p st n cl = .ok r) :
    Listed c d' p st ((A.map G.entry).map key) := by
  have nd := bids_nodup (List.nodup_cons.1 hi.nd).2
  induction A generalizing p q st n cl f with
  | nil =>
    have : st = none := hseg
    subst this
    exact .nil p
  | cons g A ih =>
    obtain ⟨h1, -, -, -, h5⟩ := hseg
    subst h1
    obtain ⟨m, f', -, hd, hk, hb, hp, hbody, hrest⟩ := checkRecs_step h
    have hg := hA g (by simp)
    have hcg : s.cache g.m.bid = some g.m := (hi.cache _ _).2 ⟨g, hg, rfl, rfl⟩
    simp only [cookieOk, hb, hcg, Bool.and_eq_true, decide_eq_true_eq] at hk
    obtain ⟨⟨-, hrec⟩, ⟨-, hnext⟩, -⟩ := hk
    obtain ⟨e, he, hke⟩ := List.mem_map.1 ((hu.recs _).1 hrec)
    have hge : g.entry ∈ L.map G.entry := List.mem_map.2 ⟨g, hg, rfl⟩
    have hbe : e.bid = g.entry.bid := congrArg Prod.snd hke
    have := mem_bid_inj nd he hge hbe
    subst this
    have ht : m.typ = g.m.typ := (congrArg Prod.fst hke).symm
    obtain ⟨hb1, hb2⟩ := checkBody_headed hbody
    have hl := ih (fun g' h' => hA g' (by simp [h'])) (hnext ▸ h5) hrest
    have := Listed.cons hd hb hp hb1 hb2 hl
    rw [ht] at this
    exact this

/-! ## What the walk does not look at -/

theorem checkOvf_same {ssb : Nat} {d d' : Disk} (hs : SameLinks ssb d d') {f : Nat} {o : Option Nat}
    (h : checkOvf d f o = .yes) : checkOvf d' f o = .yes := by
  induction f generalizing o with
  | zero => cases o with
    | none => rfl
    | some b => simp [checkOvf] at h
  | succ f ih => cases o with
    | none => rfl
    | some b =>
      rw [checkOvf] at h ⊢
      cases hd : d b with
      | ovf x =>
        simp only [hd] at h
        obtain ⟨n, ps, hps, e⟩ := hs.ovf b x hd
        by_cases hx : x.bid = b ∧ x.pieces ≠ []
        · rw [if_pos hx] at h
          simp only [e, hx.1, hps hx.2, ne_eq, not_false_eq_true, and_self, if_true]
          exact ih h
        · simp [hx] at h
      | junk => simp [hd] at h
      | ssb _ _ => simp [hd] at h
      | mblk _ => simp [hd] at h
      | data _ => simp [hd] at h

theorem checkBody_same {c : Cfg} {ssb : Nat} {d d' : Disk} (hs : SameLinks ssb d d') {of : Nat} {m m' : MBlk}
    (h1 : m'.ctxsz = m.ctxsz) (h2 : m'.ovf = m.ovf) (h : checkBody c d of m = .yes) :
    checkBody c d' of m' = .yes := by
  unfold checkBody at h ⊢
  rw [h1, h2]
  split
  · rename_i hz; rw [if_pos hz] at h; exact h
  · rename_i hz
    rw [if_neg hz] at h
    split
    · rename_i hm; simp [hm] at h
    · rename_i hm; rw [if_neg hm] at h; exact checkOvf_same hs h

theorem checkRecs_same {c : Cfg} {s : St} {u : Sub} {ssb : Nat} {d d' : Disk} (hs : SameLinks ssb d d')
    {of f p n : Nat} {st : Option Nat} {cl : List Nat} {r : Nat × List Nat}
    (h : checkRecs c s u d of f p st n cl = .ok r) : checkRecs c s u d' of f p st n cl = .ok r := by
  induction f generalizing p st n cl with
  | zero => cases st with
    | none => exact h
    | some b => simp [checkRecs] at h
  | succ f ih => cases st with
    | none => exact h
    | some b =>
      obtain ⟨m, f', hf, hd, hk, hb, hp, hbody, hrest⟩ := checkRecs_step h
      cases hf
      obtain ⟨i, z, k, e⟩ := hs.recs b m hd
      have hk' : cookieOk s u { m with inl := i, compressed := z, crc := k } = true := hk
      have hb' := checkBody_same (m' := { m with inl := i, compressed := z, crc := k }) hs rfl rfl hbody
      subst hb hp
      rw [checkRecs]
      simp only [e, hk', if_true, and_self, hb']
      exact ih hrest

theorem checkRecs_not_yes {c : Cfg} {s : St} {u : Sub} {d : Disk} {of f p n : Nat} {st : Option Nat}
    {cl : List Nat} : checkRecs c s u d of f p st n cl ≠ .error .yes := by
  induction f generalizing p st n cl with
  | zero => cases st <;> simp [checkRecs]
  | succ f ih => cases st with
    | none => simp [checkRecs]
    | some b =>
      rw [checkRecs]
      cases hd : d b with
      | mblk m =>
        simp only
        split
        · split
          · cases hb : checkBody c d of m with
            | yes => exact ih
            | _ => simp
          · simp
        · simp
      | _ => simp

theorem check_same {c : Cfg} {fuel : Nat} {s : St} {u : Sub} {d d' : Disk} (hs : SameLinks s.ssb d d')
    (h : check c fuel s u d = .yes) : check c fuel s u d' = .yes := by
  obtain ⟨x, hx⟩ := hs.ssb
  unfold check at h ⊢
  simp only [hx, if_true]
  cases hd : d s.ssb with
  | ssb b y =>
    rw [hd] at h
    by_cases hb : b = s.ssb
    · simp only [hb, if_true] at h
      cases hr : checkRecs c s u d fuel fuel s.ssb s.ssbNext 0 [] with
      | error v => rw [hr] at h; subst h; exact absurd hr checkRecs_not_yes
      | ok r =>
        rw [hr] at h
        rw [checkRecs_same hs hr]
        exact h
    · simp [hb] at h
  | junk => simp [hd] at h
  | mblk _ => simp [hd] at h
  | ovf _ => simp [hd] at h
  | data _ => simp [hd] at h

end HS.MetaCheck
