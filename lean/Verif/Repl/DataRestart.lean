import Verif.Repl.DataLemmas
/-! The invariants over a restart. -/
namespace HS.Repl.Data

theorem pending_get (s : St) (i : Nat) :
    s.pending[i]? = if s.upto + i < s.dur then s.log[s.upto + i]? else none := by
  simp only [St.pending, List.getElem?_drop, List.getElem?_take]

theorem pending_len (s : St) (h : Inv s) : s.pending.length = s.dur - s.upto := by
  have := h.dle
  simp only [St.pending, List.length_drop, List.length_take]; omega

/-- An entry on disk that is not committed and the request it belongs to. -/
theorem pending_req {s : St} (h : Inv s) {i : Nat} {e : Key × Nat} (he : s.pending[i]? = some e) :
    s.upto + i + 1 ≤ s.dur ∧ ∃ r q, s.lmap (s.upto + i + 1) = some r ∧ s.reqs[r]? = some q ∧ q.lsn = some (s.upto + i + 1) ∧
      q.blk = some e.2 ∧ q.key = e.1 ∧ s.kmap q.key = some r ∧ q.written = true := by
  rw [pending_get] at he
  by_cases hc : s.upto + i < s.dur
  · rw [if_pos hc] at he
    have hd := h.dle
    obtain ⟨r, hr⟩ := h.linked (s.upto + i + 1) (by omega) (by omega)
    obtain ⟨_, _, q, b, h3, h4, h5, h6, h7⟩ := h.link _ r hr
    have hw := h.durw _ r q (by omega) hr h3
    rw [Nat.add_sub_cancel] at h6
    have e0 : e = (q.key, b) := by
      have := he.symm.trans h6
      exact Option.some.inj this
    subst e0
    exact ⟨by omega, r, q, hr, h3, h4, h5, rfl, h7 hw.2, hw.1⟩
  · rw [if_neg hc] at he; cases he

theorem pending_key {s : St} (h : Inv s) {i j : Nat} {e f : Key × Nat} (he : s.pending[i]? = some e)
    (hf : s.pending[j]? = some f) (hk : e.1 = f.1) : i = j := by
  obtain ⟨_, r, q, _, a1, a2, _, a3, a4, _⟩ := pending_req h he
  obtain ⟨_, r', q', _, b1, b2, _, b3, b4, _⟩ := pending_req h hf
  rw [a3, hk, ← b3, b4] at a4; cases a4
  rw [b1] at a1; cases a1
  rw [a2] at b2; have := Option.some.inj b2; omega

theorem pending_blk {s : St} (h : Inv s) {i j : Nat} {e f : Key × Nat} (he : s.pending[i]? = some e)
    (hf : s.pending[j]? = some f) (hb : e.2 = f.2) (hn : ∀ o, (o, e.2) ∉ s.app) : i = j := by
  obtain ⟨_, r, q, _, a1, a2, a3, _, a4, _⟩ := pending_req h he
  obtain ⟨_, r', q', _, b1, b2, b3, _, b4, _⟩ := pending_req h hf
  have := h.excl r q r' q' e.2 a1 a4 b1 b4 a3 (hb ▸ b3) hn
  subst this
  rw [b1] at a1; cases a1
  rw [a2] at b2; have := Option.some.inj b2; omega

theorem restart_reqs (s : St) (i : Nat) :
    s.restart.reqs[i]? = s.pending[i]?.map (fun e => Req.replayed e (s.upto + i + 1)) := by
  simp [St.restart, List.getElem?_zipIdx]
  cases s.pending[i]? <;> simp

theorem restart_req {s : St} {i : Nat} {q : Req} (h : s.restart.reqs[i]? = some q) :
    ∃ e, s.pending[i]? = some e ∧ q = Req.replayed e (s.upto + i + 1) := by
  rw [restart_reqs] at h
  cases he : s.pending[i]? with
  | none => rw [he] at h; cases h
  | some e => rw [he] at h; exact ⟨e, rfl, (Option.some.inj h).symm⟩

theorem restart_kmap {s : St} (h : Inv s) (k : Key) (i : Nat) :
    s.restart.kmap k = some i ↔ ∃ e, s.pending[i]? = some e ∧ e.1 = k := by
  simp only [St.restart, List.findIdx?_eq_some_iff_getElem, decide_eq_true_eq]
  constructor
  · rintro ⟨hl, hk, _⟩
    exact ⟨_, List.getElem?_eq_getElem hl, hk⟩
  · rintro ⟨e, he, hk⟩
    obtain ⟨hl, hg⟩ := List.getElem?_eq_some_iff.1 he
    refine ⟨hl, by rw [hg]; exact hk, fun j hj hjk => ?_⟩
    have := pending_key h he (List.getElem?_eq_getElem (show j < s.pending.length by omega)) (by rw [hk, hjk])
    omega

theorem inv_restart {s : St} (h : Inv s) : Inv s.restart := by
  have hlen := pending_len s h
  have hdl := h.dle
  have hul := h.ule
  have hlm : ∀ l r, s.restart.lmap l = some r → s.upto < l ∧ l ≤ s.dur ∧ r = l - s.upto - 1 := fun l r hl => by
    simp only [St.restart] at hl
    by_cases hc : s.upto < l ∧ l ≤ s.upto + s.pending.length
    · rw [if_pos hc] at hl; cases hl; exact ⟨hc.1, by omega, rfl⟩
    · rw [if_neg hc] at hl; cases hl
  have hlm' : ∀ l, s.upto < l → l ≤ s.dur → s.restart.lmap l = some (l - s.upto - 1) := fun l h1 h2 => by
    simp only [St.restart]; rw [if_pos ⟨h1, by omega⟩]
  have hget : ∀ i, i < s.dur - s.upto → ∃ e, s.pending[i]? = some e := fun i hi =>
    ⟨_, List.getElem?_eq_getElem (by omega)⟩
  have hreq : ∀ (i : Nat) (e : Key × Nat), s.pending[i]? = some e → s.restart.reqs[i]? = some (Req.replayed e (s.upto + i + 1)) := fun i e he => by
    rw [restart_reqs, he]; rfl
  have hkm : ∀ (i : Nat) (e : Key × Nat), s.pending[i]? = some e → s.restart.kmap e.1 = some i := fun i e he =>
    (restart_kmap h e.1 i).2 ⟨e, he, rfl⟩
  have hob : ∀ (i : Nat) (e : Key × Nat), s.pending[i]? = some e → s.disk e.2 = some e.1.obj ∧
      ∀ o, (o, e.2) ∈ s.app → (e.1.obj, e.2) ∈ s.app := fun i e he => by
    obtain ⟨_, r, q, _, a1, a2, a3, a5, a4, a6⟩ := pending_req h he
    refine ⟨a5 ▸ h.data r q e.2 a1 a4 a3 a6, fun o ho => a5 ▸ (h.share r q o e.2 a1 a4 a3 ho).1⟩
  refine
  { tab := fun k r hr => ?_
    link := fun l r hl => ?_
    linked := fun l h1 h2 => ?_
    durw := fun l r q h1 h2 h3 => ?_
    volq := fun l r q h1 h2 h3 => ?_
    flyok := fun r hr => by cases hr
    wr := fun r q h1 h2 => ?_
    lsnw := fun r q l h1 h2 h3 => ?_
    data := fun r q b h1 h2 h3 h4 => ?_
    alloc := fun r q b h1 h2 h3 => ?_
    excl := fun r q r' q' b h1 h2 h3 h4 h5 h6 h7 => ?_
    appok := fun o b hm => ?_
    share := fun r q o b h1 h2 h3 h4 => ?_
    leak := fun b hb => ?_
    vol0 := fun r q h1 h2 => ?_
    tlsn := fun r q l h1 h2 h3 => ?_
    pb := fun r q h1 h2 h3 => ?_
    ph := fun r q b h1 h2 h3 => ?_
    errw := fun l r q h1 h2 h3 => ?_
    dle := by simp [St.restart]; omega
    ule := hul
    nd := List.nodup_nil }
  · obtain ⟨e, he, hk⟩ := (restart_kmap h k r).1 hr
    exact ⟨_, hreq r e he, hk, rfl⟩
  · obtain ⟨h1, h2, rfl⟩ := hlm l r hl
    obtain ⟨e, he⟩ := hget (l - s.upto - 1) (by omega)
    refine ⟨h1, by simp [St.restart]; omega, _, e.2, hreq _ e he, ?_, rfl, ?_, fun _ => hkm _ e he⟩
    · show some (s.upto + (l - s.upto - 1) + 1) = some l
      congr 1; omega
    · have := he
      rw [pending_get, if_pos (by omega)] at this
      show (s.log.take s.dur)[l - 1]? = some e
      rw [List.getElem?_take, if_pos (by omega), ← this]
      congr 1; omega
  · exact ⟨_, hlm' l h1 (by simp [St.restart] at h2; omega)⟩
  · obtain ⟨e, _, rfl⟩ := restart_req h3
    exact ⟨rfl, rfl⟩
  · obtain ⟨e, _, rfl⟩ := restart_req h3
    rfl
  · obtain ⟨e, _, rfl⟩ := restart_req h1
    exact ⟨.inl rfl, by simp [Req.replayed]⟩
  · obtain ⟨e, _, rfl⟩ := restart_req h1
    rfl
  · obtain ⟨e, he, rfl⟩ := restart_req h1
    cases h3; exact (hob r e he).1
  · obtain ⟨e, he, rfl⟩ := restart_req h1
    cases h3
    have : e.2 ∈ s.pending.map (·.2) := List.mem_map.2 ⟨e, List.mem_of_getElem? he, rfl⟩
    simp only [St.restart, Bool.or_eq_true, decide_eq_true_eq]
    exact .inl this
  · obtain ⟨e, he, rfl⟩ := restart_req h1
    obtain ⟨f, hf, rfl⟩ := restart_req h3
    cases h5
    exact pending_blk h he hf (Option.some.inj h6).symm h7
  · refine ⟨?_, (h.appok o b hm).2⟩
    have : b ∈ s.app.map (·.2) := List.mem_map.2 ⟨(o, b), hm, rfl⟩
    simp only [St.restart, Bool.or_eq_true, decide_eq_true_eq]
    exact .inr this
  · obtain ⟨e, he, rfl⟩ := restart_req h1
    cases h3
    exact ⟨(hob r e he).2 o h4, rfl⟩
  · simp only [St.restart, Bool.or_eq_true, decide_eq_true_eq] at hb
    rcases hb with hb | hb
    · obtain ⟨e, he, rfl⟩ := List.mem_map.1 hb
      obtain ⟨i, hi⟩ := List.mem_iff_getElem?.1 he
      exact .inr ⟨i, _, hreq i e hi, hkm i e hi, rfl⟩
    · obtain ⟨⟨o, c⟩, ho, rfl⟩ := List.mem_map.1 hb
      exact .inl ⟨o, ho⟩
  · obtain ⟨e, _, rfl⟩ := restart_req h1
    cases h2
  · obtain ⟨e, he, rfl⟩ := restart_req h1
    cases h3
    have := (pending_req h he).1
    rw [hlm' _ (by omega) this]
    congr 1; omega
  · obtain ⟨e, _, rfl⟩ := restart_req h1
    cases h3
  · obtain ⟨e, _, rfl⟩ := restart_req h1
    cases h3
  · obtain ⟨e, _, rfl⟩ := restart_req h2
    cases h3

end HS.Repl.Data
