import Verif.Meta.Ops

/-!
# Properties of the superblock store: C20, C21, C23, C49
-/
namespace HS.Meta

/-- The first record of a formatted store. -/
theorem add_first_ok {c : Cfg} (hc : c.Ok) {ssb : Nat} {d0 : Disk} {s' : St}
    {typ : Nat} {content : List Byte} {bid : Nat} {sp : Space} {ws : List Write}
    (hop : addOp c (format ssb).2 typ content bid sp = some (ws, s'))
    (ho : AllocOk c (format ssb).2 content [bid] sp) :
    s'.ssb = ssb ∧ ∃ L', Inv c s' (exec (exec d0 (format ssb).1) ws) L' ∧
      L'.map G.entry = [⟨bid, typ, content⟩] := by
  obtain ⟨hfr, hsp⟩ := ho
  unfold addOp at hop
  cases hb : writeBody c content sp with
  | none => simp [hb] at hop
  | some b =>
    simp only [hb] at hop
    obtain ⟨xs, hhs, hws, hhok, ⟨l, hperm, hsub⟩, hrec⟩ := writeBody_ok hc hb hsp
    simp only [format, Option.some.injEq, Prod.mk.injEq] at hop
    obtain ⟨rfl, rfl⟩ := hop
    have hnd := hfr.nd
    rw [List.singleton_append, List.nodup_cons] at hnd
    have hxsub : ∀ x ∈ xblocks xs, x ∈ sp.blocks := fun x hx => hsub.subset (hperm.subset hx)
    have hxnd : (xblocks xs).Nodup := hperm.nodup_iff.2 (hsub.nodup hnd.2)
    have hbx : bid ∉ xblocks xs := fun hx => hnd.1 (hxsub _ hx)
    have hwsub : ((ovfWrites c xs).map Prod.fst).Sublist (xblocks xs) := ovfWrites_sub hc.bs xs hhok
    have hfree : ∀ x ∈ bid :: sp.blocks, x ≠ ssb := by
      intro x hx he
      have := hfr.free x hx
      simp [format, he] at this
    have hsx : ssb ∉ xblocks xs := fun hx => hfree ssb (List.mem_cons_of_mem _ (hxsub _ hx)) rfl
    have hbs : bid ≠ ssb := hfree bid (by simp)
    let m := mkMBlk bid ssb none typ b
    have hnd1 : ((b.ws ++ [(bid, Blk.mblk m), (ssb, Blk.ssb ssb (some bid))]).map Prod.fst).Nodup := by
      rw [hws, List.map_append, List.nodup_append]
      refine ⟨hwsub.nodup hxnd, by simp [hbs], ?_⟩
      intro x hx y hy he
      subst he
      simp only [List.map_cons, List.map_nil, List.mem_cons, List.not_mem_nil, or_false] at hy
      rcases hy with hy | hy
      · exact hbx (hy ▸ hwsub.subset hx)
      · exact hsx (hy ▸ hwsub.subset hx)
    have hhas := exec_has _ (exec d0 (format ssb).1) hnd1
    rw [Has.append] at hhas
    let gn : G := { m := m, xs := xs, content := content }
    refine ⟨rfl, [gn], ⟨⟨some bid, ?_, rfl, ?_⟩, ?_, by simp, ?_, ?_, ?_, ?_⟩, ?_⟩
    · exact hhas.2 (ssb, Blk.ssb ssb (some bid)) (by simp)
    · exact ⟨rfl, hhas.2 (bid, Blk.mblk m) (by simp), hrec _ _ _ _ _ hhas.1, fun _ => rfl, rfl⟩
    · simp only [blocksOf_cons, blocksOf_nil, List.append_nil, G.blocks, gn, m, mkMBlk]
      rw [List.nodup_cons, List.nodup_cons, List.mem_cons]
      exact ⟨fun h => h.elim (fun e => hbs e.symm) hsx, hbx, hxnd⟩
    · rfl
    · intro x mm
      simp only [fset]
      by_cases hx : x = bid
      · subst hx
        simp only [if_true, Option.some.injEq, List.mem_singleton]
        constructor
        · intro e; exact ⟨gn, rfl, e, by rw [← e]; rfl⟩
        · rintro ⟨g, rfl, e, -⟩; exact e
      · simp only [hx, if_false, List.mem_singleton]
        constructor
        · intro e; cases e
        · rintro ⟨g, rfl, e, e'⟩
          rw [← e] at e'; exact absurd e'.symm hx
    · simp only [List.nil_append, hhs]
      simp [hdrsOf, gn, G.hdrs]
    · intro x
      simp only [mark_true, List.mem_singleton, blocksOf_cons, blocksOf_nil, List.append_nil, G.blocks, gn, m, mkMBlk,
        List.mem_cons, decide_eq_true_eq]
      have : b.blocks = xblocks xs := by simp [Body.blocks, hhs, xblocks]
      rw [this]
      tauto
    · simp [gn, G.entry, m, mkMBlk]

/-- What holds in every reachable situation. -/
def Good (c : Cfg) (ssb : Nat) : World → Prop
  | .run s d es => s.ssb = ssb ∧ ∃ L, Inv c s d L ∧ L.map G.entry = es
  | .down d => ∃ L, L ≠ [] ∧ DiskOk c ssb False d L

theorem restarts_of {c : Cfg} (hc : c.Ok) {ssb : Nat} {d : Disk} {L : List G} (ne : L ≠ [])
    (h : DiskOk c ssb False d L) : ∃ s, Restarts c ssb d (L.map G.entry, s, fixW ssb L) ∧ s.ssb = ssb ∧
      Inv c s (exec d (fixW ssb L)) (fixL ssb L) := by
  obtain ⟨s, h1, h2, h3⟩ := restart_ok hc.bs h ne _ (Nat.le_refl _)
  refine ⟨s, ⟨max L.length (maxHdrs L), fun fuel hf => ?_⟩, h2, h3⟩
  obtain ⟨s', h1', -, -⟩ := restart_ok hc.bs h ne fuel hf
  -- the state does not depend on the fuel
  obtain ⟨⟨first, e1, e2⟩, -⟩ := h
  have a1 := scanMeta_ok e2 fuel fuel (by omega) (by omega)
  have a2 := scanMeta_ok e2 (max L.length (maxHdrs L)) (max L.length (maxHdrs L)) (by omega) (by omega)
  cases first with
  | none =>
    cases L with
    | nil => exact absurd rfl ne
    | cons g L => exact absurd e2.1 (by simp)
  | some b =>
    unfold restart at h1 ⊢
    simp only [e1, if_true, a1, a2] at h1 ⊢
    exact h1

theorem Restarts.unique {c : Cfg} {ssb : Nat} {d : Disk} {r r' : List Entry × St × List Write}
    (h : Restarts c ssb d r) (h' : Restarts c ssb d r') : r = r' := by
  obtain ⟨n, hn⟩ := h
  obtain ⟨n', hn'⟩ := h'
  have a := hn (max n n') (by omega)
  have b := hn' (max n n') (by omega)
  rw [a] at b
  exact Option.some.inj b

/-- One operation from a good running state. -/
theorem op_ok {c : Cfg} (hc : c.Ok) {s s' : St} {d : Disk} {L : List G} (h : Inv c s d L)
    {op : Op} {ws : List Write} (ho : OpOk c s (L.map G.entry) op) (hp : prog c s op = some (ws, s')) :
    (∀ k, ∃ L', DiskOk c s.ssb False (exec d (ws.take k)) L' ∧ L' ≠ [] ∧
      (L'.map G.entry = L.map G.entry ∨ L'.map G.entry = specOp op (L.map G.entry))) ∧
    s'.ssb = s.ssb ∧ ∃ L', Inv c s' (exec d ws) L' ∧ L'.map G.entry = specOp op (L.map G.entry) := by
  have key : (∀ k, k < ws.length → DiskOk c s.ssb True (exec d (ws.take k)) L) → s'.ssb = s.ssb →
      (∃ L', Inv c s' (exec d ws) L' ∧ L'.map G.entry = specOp op (L.map G.entry)) →
      (∀ k, ∃ L', DiskOk c s.ssb False (exec d (ws.take k)) L' ∧ L' ≠ [] ∧
        (L'.map G.entry = L.map G.entry ∨ L'.map G.entry = specOp op (L.map G.entry))) := by
    rintro h1 h2 ⟨L', h3, h4⟩ k
    by_cases hk : k < ws.length
    · exact ⟨L, (h1 k hk).weaken, h.ne, Or.inl rfl⟩
    · rw [List.take_of_length_le (by omega)]
      exact ⟨L', h2 ▸ h3.diskOk.weaken, h3.ne, Or.inr h4⟩
  cases op with
  | add t x b sp =>
    obtain ⟨hfr, hsp⟩ := ho
    obtain ⟨h1, h2, h3⟩ := add_ok hc h hp hfr hsp
    exact ⟨key h1 h2 h3, h2, h3⟩
  | upd b x sp =>
    obtain ⟨-, hfr, hsp⟩ := ho
    obtain ⟨h1, h2, h3⟩ := upd_ok hc h hp hfr hsp
    exact ⟨key h1 h2 h3, h2, h3⟩
  | rem b =>
    obtain ⟨-, h2⟩ := ho
    exact rem_ok hc h hp (by simpa using h2)

theorem reach_good {c : Cfg} (hc : c.Ok) {ssb : Nat} {w : World} (h : Reach c ssb w) : Good c ssb w := by
  induction h with
  | boot d0 t x b sp ws s ho hp => exact add_first_ok hc hp ho
  | op _ op ws s' ho hp ih =>
    obtain ⟨h1, L, h2, rfl⟩ := ih
    obtain ⟨-, h3, L', h4, h5⟩ := op_ok hc h2 ho hp
    exact ⟨h3.trans h1, L', h4, h5⟩
  | crash _ op ws s' k ho hp ih =>
    obtain ⟨rfl, L, h2, rfl⟩ := ih
    obtain ⟨h3, -, -⟩ := op_ok hc h2 ho hp
    obtain ⟨L', h4, h5, -⟩ := h3 k
    exact ⟨L', h5, h4⟩
  | idleCrash _ ih =>
    obtain ⟨rfl, L, h2, rfl⟩ := ih
    exact ⟨L, h2.ne, h2.diskOk.weaken⟩
  | crashAgain _ k hr ih =>
    obtain ⟨L, ne, h2⟩ := ih
    obtain ⟨s, hr', -, -⟩ := restarts_of hc ne h2
    rw [hr.unique hr']
    obtain ⟨L', h3, h4⟩ := restart_prefix_ok hc.bs h2 k
    refine ⟨L', ?_, h3⟩
    intro he
    subst he
    exact ne (List.map_eq_nil_iff.1 h4.symm)
  | restart _ hr ih =>
    obtain ⟨L, ne, h2⟩ := ih
    obtain ⟨s, hr', h3, h4⟩ := restarts_of hc ne h2
    rw [hr.unique hr']
    exact ⟨h3, _, h4, fixL_entry _ _⟩

/-- **C20.** In every execution (any history of operations, crashes at any block write, and
interrupted restarts), when an operation is under way on a store that holds the records `es`, and the
machine crashes after any number `k` of its block writes, the restart succeeds and delivers either
exactly `es` or exactly the records after the operation; with no block written it is `es`, and with all
of them written it is the latter.  Partial: `OpOk` excludes removing the only record and
overflow chains whose number of data ids is one more than a multiple of the ids per header; for
these the property fails (`C23_reuse_violated`, `C21_violated`). -/
theorem C20_crash_atomic_partial {c : Cfg} (hc : c.Ok) {ssb : Nat} {s s' : St} {d : Disk} {es : List Entry}
    (h : Reach c ssb (.run s d es)) {op : Op} (ho : OpOk c s es op) {ws : List Write}
    (hp : prog c s op = some (ws, s')) (k : Nat) :
    ∃ es' s'' rw, Restarts c ssb (exec d (ws.take k)) (es', s'', rw) ∧
      (es' = es ∨ es' = specOp op es) ∧ (k = 0 → es' = es) ∧ (ws.length ≤ k → es' = specOp op es) := by
  obtain ⟨rfl, L, h2, rfl⟩ := reach_good hc h
  obtain ⟨h3, h4, L1, h5, h6⟩ := op_ok hc h2 ho hp
  by_cases hk : ws.length ≤ k
  · rw [List.take_of_length_le hk]
    obtain ⟨s'', hr, -⟩ := restarts_of hc h5.ne (h4 ▸ h5.diskOk.weaken)
    refine ⟨_, _, _, hr, Or.inr h6, ?_, fun _ => h6⟩
    intro hk0
    subst hk0
    have hws : ws = [] := List.length_eq_zero_iff.1 (by omega)
    subst hws
    obtain ⟨s3, hr3, -⟩ := restarts_of hc h2.ne h2.diskOk.weaken
    exact congrArg (·.1) (hr.unique hr3)
  · by_cases hk0 : k = 0
    · subst hk0
      obtain ⟨s3, hr3, -⟩ := restarts_of hc h2.ne h2.diskOk.weaken
      exact ⟨_, _, _, hr3, Or.inl rfl, fun _ => rfl, fun h => absurd h hk⟩
    · obtain ⟨L', h7, h8, h9⟩ := h3 k
      obtain ⟨s'', hr, -⟩ := restarts_of hc h8 h7
      exact ⟨_, _, _, hr, h9, fun h => absurd h hk0, fun h => absurd h hk⟩

/-- **C20**, restart.  From every crashed state the restart succeeds, and a crash after any number of
the restart's own block writes does not change what the next restart delivers. -/
theorem C20_restart_idempotent {c : Cfg} (hc : c.Ok) {ssb : Nat} {d : Disk} (h : Reach c ssb (.down d)) :
    ∃ es s rw, Restarts c ssb d (es, s, rw) ∧
      ∀ k, ∃ s' rw', Restarts c ssb (exec d (rw.take k)) (es, s', rw') := by
  obtain ⟨L, ne, h2⟩ := reach_good hc h
  obtain ⟨s, hr, -⟩ := restarts_of hc ne h2
  refine ⟨_, _, _, hr, fun k => ?_⟩
  obtain ⟨L', h3, h4⟩ := restart_prefix_ok hc.bs h2 k
  have ne' : L' ≠ [] := by
    intro he
    subst he
    exact ne (List.map_eq_nil_iff.1 h4.symm)
  obtain ⟨s', hr', -⟩ := restarts_of hc ne' h3
  exact ⟨s', _, by rw [h4] at hr'; exact hr'⟩

/-- **C49.** While the service runs, the blocks marked allocated are exactly those a restart would
find in use from the device alone: nothing is leaked, and no block in use is considered free. -/
theorem C49_space_exact_partial {c : Cfg} (hc : c.Ok) {ssb : Nat} {s : St} {d : Disk} {es : List Entry}
    (h : Reach c ssb (.run s d es)) :
    ∃ s', Restarts c ssb d (es, s', []) ∧ s'.used = s.used := by
  obtain ⟨rfl, L, h2, rfl⟩ := reach_good hc h
  obtain ⟨s', hr, h3, h4⟩ := restarts_of hc h2.ne h2.diskOk.weaken
  have hfix : ∀ (p : Nat) (st : Option Nat) (L : List G), Seg c d True p st L none → fixW p L = [] := by
    intro p st L hL
    induction L generalizing p st with
    | nil => rfl
    | cons g L ih =>
      obtain ⟨-, -, -, a, b⟩ := hL
      simp [fixW, a trivial, ih _ _ b]
  obtain ⟨first, -, -, hseg⟩ := h2.disk
  have e := hfix _ _ _ hseg
  rw [e] at hr
  refine ⟨s', hr, ?_⟩
  funext b
  have a1 := h4.used b
  have a2 := h2.used b
  rw [fixL_blocks, h3] at a1
  rw [Bool.eq_iff_iff, a1, a2]

/-- **C23**, the part that holds: as long as one record remains, every operation the allocator has
space for goes through without an abort. -/
theorem C23_no_abort_partial {c : Cfg} (hc : c.Ok) {ssb : Nat} {s : St} {d : Disk} {es : List Entry}
    (h : Reach c ssb (.run s d es)) (op : Op) (ho : OpOk c s es op)
    (hw : match op with
      | .add _ x _ sp => (writeBody c x sp).isSome
      | .upd _ x sp => (writeBody c x sp).isSome
      | .rem _ => True) : (prog c s op).isSome := by
  obtain ⟨rfl, L, h2, rfl⟩ := reach_good hc h
  cases op with
  | add t x b sp =>
    obtain ⟨body, hb⟩ := Option.isSome_iff_exists.1 hw
    obtain ⟨A, g, rfl⟩ : ∃ A g, L = A ++ [g] :=
      ⟨L.dropLast, L.getLast h2.ne, (List.dropLast_append_getLast h2.ne).symm⟩
    have hlast : s.last = some g.m.bid := by rw [h2.last]; simp
    have hcg : s.cache g.m.bid = some g.m := CacheOk.get h2.cache (by simp)
    simp [prog, addOp, hb, hlast, hcg]
  | upd b x sp =>
    obtain ⟨hmem, hfr, hsp⟩ := ho
    obtain ⟨body, hb⟩ := Option.isSome_iff_exists.1 hw
    rw [List.map_map] at hmem
    obtain ⟨g, hg, rfl⟩ := List.mem_map.1 hmem
    have hcg : s.cache g.m.bid = some g.m := CacheOk.get h2.cache hg
    obtain ⟨xs, hhs, hws, hhok, ⟨l, hperm, hsub⟩, hrec⟩ := writeBody_ok hc hb hsp
    obtain ⟨A, B, rfl⟩ := List.append_of_mem hg
    obtain ⟨first, q1, q2, q3⟩ := h2.disk
    rw [Seg.append] at q3
    obtain ⟨kk, q3, q4, q5, q6, q7, q8⟩ := q3
    have hndL := h2.nd
    rw [List.nodup_cons] at hndL
    have hxsub : ∀ x ∈ xblocks xs, x ∈ sp.blocks := fun x hx => hsub.subset (hperm.subset hx)
    have hxnd : (xblocks xs).Nodup := hperm.nodup_iff.2 (hsub.nodup hfr.nd)
    have hnm := Fresh.not_mem h2 hfr
    have hohd : (s.ohdrs ++ body.hs).Perm (g.hdrs ++ (hdrsOf (A ++ B) ++ xs.map Prod.fst)) := by
      rw [hhs, ← List.append_assoc]
      refine List.Perm.append_right _ (h2.hdrs.trans ?_)
      rw [hdrsOf_append, hdrsOf_append, hdrsOf_cons]
      exact List.perm_append_comm_assoc _ _ _
    have hhbid : ((s.ohdrs ++ body.hs).map OHdr.bid).Nodup := by
      have e1 : ((s.ohdrs ++ body.hs).map OHdr.bid).Perm
          ((hdrsOf (A ++ g :: B)).map OHdr.bid ++ (xs.map Prod.fst).map OHdr.bid) := by
        rw [← List.map_append, hhs]
        exact (List.Perm.append_right _ h2.hdrs).map _
      rw [e1.nodup_iff, List.nodup_append]
      have s1 := hdrs_bids_sub (A ++ g :: B)
      have s2 : ((xs.map Prod.fst).map OHdr.bid).Sublist (xblocks xs) := by
        unfold xblocks
        generalize xs.map Prod.fst = hs
        induction hs with
        | nil => simp
        | cons h hs ih =>
          simp only [List.map_cons, List.flatMap_cons, OHdr.blocks, List.cons_append]
          exact List.Sublist.cons_cons _ (ih.trans (List.sublist_append_right _ _))
      refine ⟨s1.nodup hndL.2, s2.nodup hxnd, ?_⟩
      intro x hx y hy he
      subst he
      exact hnm x (hxsub _ (s2.subset hy)) (List.mem_cons_of_mem _ (s1.subset hx))
    obtain ⟨hs', hfree, hperm'⟩ := freeChain_ok g.hdrs _ _ g.m.ovf (s.ohdrs ++ body.hs).length hohd hhbid q6.chain
      (by rw [hohd.length_eq]; simp)
    have hcg' : s.cache (G.entry g).bid = some g.m := hcg
    simp only [prog, updOp, Function.comp, hcg', hb, hfree, Option.isSome_some]
  | rem b =>
    obtain ⟨hmem, h3⟩ := ho
    rw [List.map_map] at hmem
    obtain ⟨g, hg, rfl⟩ := List.mem_map.1 hmem
    have hcg : s.cache (G.entry g).bid = some g.m := CacheOk.get h2.cache hg
    obtain ⟨A, B, rfl⟩ := List.append_of_mem hg
    obtain ⟨w, s1, A1, first, e0, eE, eBl, eH, eBi, eLa, eS, eN, eO, eU, eL, eC, f1, f2, f3⟩ := unlinkPrev_ok hc.bs h2
    obtain ⟨f0, -, -, q3⟩ := h2.disk
    rw [Seg.append] at q3
    obtain ⟨kk, -, q4, q5, q6, q7, q8⟩ := q3
    have hndL := h2.nd
    rw [List.nodup_cons] at hndL
    have hp : s.ohdrs.Perm (g.hdrs ++ hdrsOf (A ++ B)) := by
      refine h2.hdrs.trans ?_
      rw [hdrsOf_append, hdrsOf_append, hdrsOf_cons]
      exact List.perm_append_comm_assoc _ _ _
    obtain ⟨m', hf1, -⟩ := freeChain_ok g.hdrs _ _ g.m.ovf s.ohdrs.length hp (by
        rw [(h2.hdrs.map _).nodup_iff]
        exact (hdrs_bids_sub _).nodup hndL.2) q6.chain (by rw [hp.length_eq]; simp)
    cases B with
    | nil =>
      have hnx : g.m.next = none := q8
      simp only [prog, remOp, Function.comp, hcg, e0, unlinkNext, hnx, eO, hf1, Option.isSome_some]
    | cons n B' =>
      obtain ⟨t1, -⟩ := f3
      have hcn : s1.cache n.m.bid = some n.m := CacheOk.get eC (by simp)
      simp only [prog, remOp, Function.comp, hcg, e0, unlinkNext, t1, hcn, eO, hf1, Option.isSome_some]

/-! ## C23: the cases where it fails -/

/-- **C23 fails**: format, add one record, remove it, add another: the second add dereferences a null
pointer (for every content, type, and choice of blocks). -/
theorem C23_reuse_violated (c : Cfg) (ssb : Nat) (t1 t2 : Nat) (x1 x2 : List Byte) (b1 b2 : Nat) (sp1 sp2 : Space)
    (hb : b1 ≠ ssb) (ws1 ws2 : List Write) (s1 s2 : St)
    (h1 : prog c (format ssb).2 (.add t1 x1 b1 sp1) = some (ws1, s1))
    (h2 : prog c s1 (.rem b1) = some (ws2, s2)) :
    prog c s2 (.add t2 x2 b2 sp2) = none := by
  simp only [prog, addOp, format] at h1
  cases hw : writeBody c x1 sp1 with
  | none => simp [hw] at h1
  | some b =>
    simp only [hw, Option.some.injEq, Prod.mk.injEq] at h1
    obtain ⟨-, rfl⟩ := h1
    simp only [prog, remOp, fset, if_true, unlinkPrev, mkMBlk, unlinkNext, List.nil_append] at h2
    cases hf : freeChain b.hs.length b.hs b.ovf with
    | none => rw [hf] at h2; cases h2
    | some r =>
      rw [hf] at h2
      simp only [Option.some.injEq, Prod.mk.injEq] at h2
      obtain ⟨-, rfl⟩ := h2
      simp only [prog, addOp, fset, Ne.symm hb, if_false]
      cases writeBody c x2 sp2 <;> rfl

/-- **C23 fails**: after a format (or after the removal of the last record) a restart aborts, for every
device content. -/
theorem C23_empty_restart_violated (c : Cfg) (ssb : Nat) (d0 : Disk) (fuel : Nat) :
    restart c fuel ssb (exec d0 (format ssb).1) = none := by
  simp [restart, format, exec, fset]

/-! ## C21 -/

/-- **C21.** Whatever the content (inline, overflowing, compressed), once it is written, recovery
delivers exactly it, and only blocks handed out for it are written.  Partial: `SpaceOk.count`
excludes the numbers of data ids of `C21_violated`. -/
theorem C21_roundtrip_partial {c : Cfg} (hc : c.Ok) {content : List Byte} {sp : Space} {b : Body}
    (h : writeBody c content sp = some b) (nd : sp.blocks.Nodup)
    (hs : c.inlineMax < (stored c content).length → SpaceOk c (stored c content).length sp)
    (d : Disk) (bid prev : Nat) (next : Option Nat) (typ : Nat) :
    deliver c (exec d b.ws) b.hs (mkMBlk bid prev next typ b) = some content ∧
    ∀ w ∈ b.ws, w.1 ∈ sp.blocks := by
  obtain ⟨xs, hhs, hws, hhok, ⟨l, hperm, hsub⟩, hrec⟩ := writeBody_ok hc h hs
  have hxnd : (xblocks xs).Nodup := hperm.nodup_iff.2 (hsub.nodup nd)
  have hwsub : ((ovfWrites c xs).map Prod.fst).Sublist (xblocks xs) := ovfWrites_sub hc.bs xs hhok
  have hhas : Has (exec d b.ws) b.ws := exec_has _ _ (by rw [hws]; exact hwsub.nodup hxnd)
  have hr := hrec _ bid prev next typ hhas
  have hnd : ((xs.map Prod.fst).map OHdr.bid).Nodup := by
    refine List.Sublist.nodup ?_ hxnd
    unfold xblocks
    generalize xs.map Prod.fst = hs
    induction hs with
    | nil => simp
    | cons h hs ih =>
      simp only [List.map_cons, List.flatMap_cons, OHdr.blocks, List.cons_append]
      exact List.Sublist.cons_cons _ (ih.trans (List.sublist_append_right _ _))
  refine ⟨(hr.deliver hc.bs (hs := b.hs) ?_ (by rw [hhs]; simp)).2, ?_⟩
  · intro x hx
    rw [hhs]
    exact find_of_mem hnd (List.mem_map_of_mem hx)
  · intro w hw
    have : w.1 ∈ (ovfWrites c xs).map Prod.fst := by rw [← hws]; exact List.mem_map_of_mem hw
    exact hsub.subset (hperm.subset (hwsub.subset this))

theorem dataWrites_overrun {bs : Nat} (hbs : 0 < bs) (ps : List Piece) (l : List Byte) (ne : ps ≠ [])
    (h1 : ∀ p ∈ ps, p.2 = 1) (hl : l.length = (ps.length + 1) * bs) :
    (ps.getLast ne).1 + 1 ∈ (dataWrites bs ps l).map Prod.fst := by
  induction ps generalizing l with
  | nil => exact absurd rfl ne
  | cons p ps ih =>
    cases ps with
    | nil =>
      simp only [dataWrites, List.getLast_singleton]
      have hl : l.length = bs + bs := by rw [hl]; simp; ring
      rw [pieceWrites]
      have hne : l ≠ [] := by intro h; rw [h] at hl; simp at hl; omega
      rw [dif_neg (by simp [hne]; omega), pieceWrites]
      have hne2 : l.drop bs ≠ [] := by
        intro h; have := congrArg List.length h; rw [List.length_drop] at this; simp at this; omega
      rw [dif_neg (by simp only [not_or]; exact ⟨hne2, by omega⟩)]
      simp
    | cons q ps =>
      simp only [dataWrites, List.map_append]
      rw [List.getLast_cons (by simp)]
      refine List.mem_append_right _ (ih (l.drop (p.2 * bs)) (by simp) (fun x hx => h1 x (List.mem_cons_of_mem _ hx)) ?_)
      rw [List.length_drop, hl, h1 p (by simp)]
      simp only [List.length_cons, Nat.one_mul]
      rw [Nat.add_mul (ps.length + 1 + 1) 1 bs]; omega

/-- **C21 fails** for every configuration: a content that needs one data id more than fit a header
(all ids one block long, the store being fragmented) is written under a single header, past the end of
that header's last data block, into a block that was not allocated for it.  (In the code: 449 ids
with 4 KiB blocks, a content of 1.8 MiB.) -/
theorem C21_violated (c : Cfg) (hbs : 0 < c.bs) (hM : 0 < c.maxIds) (content : List Byte) (h : Nat)
    (pieces : List Piece)
    (henc : c.enc content = none) (hlen : content.length = (c.maxIds + 1) * c.bs)
    (hin : c.inlineMax < content.length) (hp : pieces.length = c.maxIds + 1) (h1 : ∀ p ∈ pieces, p.2 = 1)
    (hlast : (pieces.take c.maxIds) ≠ [])
    (hout : ((pieces.take c.maxIds).getLast hlast).1 + 1 ∉ (⟨[h], pieces⟩ : Space).blocks) :
    ∃ b, writeBody c content ⟨[h], pieces⟩ = some b ∧ ∃ w ∈ b.ws, w.1 ∉ (⟨[h], pieces⟩ : Space).blocks := by
  have hst : stored c content = content := by simp [stored, henc]
  have htl : (pieces.take c.maxIds).length = c.maxIds := by rw [List.length_take]; omega
  have hloop : ovfLoop c h [] pieces content =
      some [({ bid := h, next := none, ctxsz := content.length, pieces := pieces.take c.maxIds }, content)] := by
    rw [ovfLoop.eq_def]
    cases pieces with
    | nil => simp at hp
    | cons p ps =>
      simp only
      rw [htl, hp, if_neg (show ¬ (c.maxIds + 1 < c.maxIds + 1) by omega), if_neg (lt_irrefl _),
        if_pos (by omega), if_pos rfl, List.take_length]
  unfold writeBody
  simp only [hst]
  rw [if_neg (by omega), hloop]
  refine ⟨_, rfl, ?_⟩
  simp only
  have := dataWrites_overrun hbs (pieces.take c.maxIds) content hlast
    (fun p hp => h1 p (List.mem_of_mem_take hp)) (by rw [htl, hlen])
  obtain ⟨w, hw, hwe⟩ := List.mem_map.1 this
  exact ⟨w, by simp [ovfWrites, hw], by rw [hwe]; exact hout⟩

/-! ## Examples -/

/-- Small parameters: 2-byte blocks, 2 ids per header, 3 bytes inline, no compression. -/
def ex : Cfg := { bs := 2, maxIds := 2, inlineMax := 3, enc := fun _ => none, dec := id,
                  crc := fun l => l.foldl (fun a b => 31 * a + b.toNat) 7 }

theorem ex_ok : ex.Ok := ⟨by decide, by decide, by intro x e h; cases h⟩

/-- Space for 11 bytes: four ids of 1, 2, 2 and 1 blocks, in two headers. -/
def exSp : Space := { hdrs := [20, 30], pieces := [(21, 1), (23, 2), (31, 2), (35, 1)] }
def exBytes : List Byte := [1, 2, 3, 4, 5, 6, 7, 8, 9, 10, 11]

/-- A store with one inline and one overflowing record, the latter added second. -/
def exRun : Option (List Write × St) :=
  match prog ex (format 1).2 (.add 7 [9, 9] 2 ⟨[], []⟩) with
  | none => none
  | some (_, s) => prog ex s (.add 8 exBytes 3 exSp)

example : (exRun.map (fun r => (r.1.map Prod.fst))) = some [20, 21, 23, 24, 30, 31, 32, 35, 3, 2] := by decide +kernel

example : OpOk ex (format 1).2 [] (.add 7 [9, 9] 2 ⟨[], []⟩) :=
  ⟨⟨by decide, by decide⟩, by intro h; exact absurd h (by decide)⟩

/-- The state after the first add, and the hypotheses of C20, C23 and C49 for a second one. -/
def exS1 : St := ((prog ex (format 1).2 (.add 7 [9, 9] 2 ⟨[], []⟩)).map Prod.snd).getD (format 1).2

example : ∃ d, Reach ex 1 (.run exS1 d [⟨2, 7, [9, 9]⟩]) ∧ OpOk ex exS1 [⟨2, 7, [9, 9]⟩] (.add 8 exBytes 3 exSp) ∧
    ((prog ex exS1 (.add 8 exBytes 3 exSp)).map (fun r => r.1.length)) = some 10 ∧ (writeBody ex exBytes exSp).isSome := by
  refine ⟨_, Reach.boot (fun _ => .junk) 7 [9, 9] 2 ⟨[], []⟩ _ _
    ⟨⟨by decide, by decide⟩, by intro h; exact absurd h (by decide)⟩ rfl, ⟨⟨by decide, by decide +kernel⟩, ?_⟩, by decide +kernel, by decide +kernel⟩
  intro _
  exact ⟨by decide, by decide, Or.inr (by decide)⟩

/-- `C21_roundtrip_partial` on the overflowing content. -/
example : (writeBody ex exBytes exSp).isSome ∧ exSp.blocks.Nodup ∧ SpaceOk ex (stored ex exBytes).length exSp :=
  ⟨by decide +kernel, by decide, ⟨by decide, by decide, Or.inr (by decide)⟩⟩

/-- The situation of `C21_violated`, with a record in the block that gets overwritten: after the
add the restart aborts although only an unrelated record was added. -/
def exBad : Space := { hdrs := [20], pieces := [(10, 1), (12, 1), (16, 1)] }
def exBadRun : Option (Option (List Entry) × Option (List Entry)) :=
  match prog ex (format 1).2 (.add 7 [9, 9] 13 ⟨[], []⟩) with
  | none => none
  | some (ws, s) =>
    let d := exec (exec (fun _ => .junk) (format 1).1) ws
    match prog ex s (.add 8 [1, 2, 3, 4, 5, 6] 3 exBad) with
    | none => none
    | some (ws', _) => some ((restart ex 9 1 d).map (·.1), (restart ex 9 1 (exec d ws')).map (·.1))

/-- **C20 and C21 fail** together: adding a record whose content takes three data ids (with two per
header) destroys another record, and the store cannot be restarted. -/
theorem C20_overrun_violated :
    exBadRun = some (some [⟨13, 7, [9, 9]⟩], none) := by decide +kernel

/-- `C21_violated` applies to it. -/
example : ∃ b, writeBody ex [1, 2, 3, 4, 5, 6] exBad = some b ∧ ∃ w ∈ b.ws, w.1 ∉ exBad.blocks :=
  C21_violated ex (by decide) (by decide) _ _ _ rfl (by decide) (by decide) (by decide) (by decide) (by decide) (by decide)

/-- A (toy) compressor: a content of 4 equal bytes is stored as one byte. -/
def exC : Cfg := { ex with
  enc := fun l => match l with
    | [a, b, c, d] => if a = b ∧ b = c ∧ c = d then some [a] else none
    | _ => none
  dec := fun l => match l with
    | [a] => [a, a, a, a]
    | _ => l }

theorem exC_ok : exC.Ok := by
  refine ⟨by decide, by decide, ?_⟩
  intro x e h
  simp only [exC] at h
  split at h
  · split at h
    · next hh => obtain ⟨rfl, rfl, rfl⟩ := hh; cases h; rfl
    · cases h
  · cases h

/-- **C21 fails** for `read_sub_sb`: reading a record whose content was compressed hands out the
compressed bytes. -/
theorem C21_read_api_violated :
    exC.Ok ∧ (writeBody exC [5, 5, 5, 5] ⟨[], []⟩).map
      (fun b => (readApi exC (fun _ => .junk) b.hs (mkMBlk 2 1 none 7 b),
                 deliver exC (fun _ => .junk) b.hs (mkMBlk 2 1 none 7 b)))
      = some (some [5], some [5, 5, 5, 5]) := ⟨exC_ok, by decide +kernel⟩

end HS.Meta
