import Verif.Meta.Spec
import Mathlib.Data.List.Basic
import Mathlib.Data.List.Perm.Basic
import Mathlib.Data.List.Nodup
import Mathlib.Tactic.Ring

/-!
# Lemmas: content of a record through the overflow chain
-/
namespace HS.Meta

/-- The disk shows every write of `ws`. -/
def Has (d : Disk) (ws : List Write) : Prop := ∀ w ∈ ws, d w.1 = w.2

theorem exec_append (d : Disk) (a b : List Write) : exec d (a ++ b) = exec (exec d a) b := by
  simp [exec, List.foldl_append]

@[simp] theorem exec_nil (d : Disk) : exec d [] = d := rfl

theorem exec_cons (d : Disk) (w : Write) (ws : List Write) :
    exec d (w :: ws) = exec (fset d w.1 w.2) ws := rfl

theorem exec_frame (ws : List Write) (d : Disk) (b : Nat) (h : b ∉ ws.map Prod.fst) :
    exec d ws b = d b := by
  induction ws generalizing d with
  | nil => rfl
  | cons w ws ih =>
    simp only [List.map_cons, List.mem_cons, not_or] at h
    rw [exec_cons, ih _ h.2]
    simp [fset, h.1]

theorem exec_has (ws : List Write) (d : Disk) (h : (ws.map Prod.fst).Nodup) : Has (exec d ws) ws := by
  induction ws generalizing d with
  | nil => intro w hw; cases hw
  | cons w ws ih =>
    simp only [List.map_cons, List.nodup_cons] at h
    intro x hx
    rcases List.mem_cons.1 hx with rfl | hx
    · rw [exec_cons, exec_frame _ _ _ h.1]; simp [fset]
    · exact ih _ h.2 x hx

theorem Has.append {d : Disk} {a b : List Write} : Has d (a ++ b) ↔ Has d a ∧ Has d b := by
  constructor
  · intro h; exact ⟨fun w hw => h w (by simp [hw]), fun w hw => h w (by simp [hw])⟩
  · rintro ⟨h1, h2⟩ w hw
    rcases List.mem_append.1 hw with h | h
    · exact h1 w h
    · exact h2 w h

theorem Has.congr {d d' : Disk} {a : List Write} (h : Has d a)
    (e : ∀ b ∈ a.map Prod.fst, d' b = d b) : Has d' a := by
  intro w hw
  rw [e w.1 (List.mem_map_of_mem hw)]
  exact h w hw

/-! ## One piece -/

theorem pieceWrites_sub {bs : Nat} (hbs : 0 < bs) (b n : Nat) (l : List Byte)
    (h : l.length ≤ n * bs) :
    ((pieceWrites bs b l).map Prod.fst).Sublist (List.range' b n) := by
  induction n generalizing b l with
  | zero =>
    have : l = [] := List.length_eq_zero_iff.1 (by omega)
    subst this
    rw [pieceWrites]; simp
  | succ n ih =>
    rw [pieceWrites]
    split
    · simp
    · simp only [List.map_cons, List.range'_succ]
      refine List.Sublist.cons_cons _ (ih _ _ ?_)
      simp only [List.length_drop]
      rw [Nat.succ_mul] at h; omega

theorem readAt_has {bs : Nat} (hbs : 0 < bs) (d : Disk) (b : Nat) (l : List Byte)
    (h : Has d (pieceWrites bs b l)) : readAt bs d b l.length = some l := by
  induction hn : l.length using Nat.strongRecOn generalizing b l with
  | _ n ih =>
    subst hn
    rw [readAt]
    by_cases h0 : l = []
    · subst h0; simp
    · have hl := List.length_pos_iff.2 h0
      rw [pieceWrites] at h
      simp only [h0, false_or, Nat.ne_of_gt hbs, dite_false] at h
      rw [dif_neg (by omega)]
      have h1 : d b = .data (l.take bs) := h (b, .data (l.take bs)) (by simp)
      have h2 : Has d (pieceWrites bs (b + 1) (l.drop bs)) :=
        fun w hw => h w (List.mem_cons_of_mem _ hw)
      have h3 := ih (l.drop bs).length (by simp only [List.length_drop]; omega) (b + 1) (l.drop bs) h2 rfl
      simp only [List.length_drop] at h3
      simp only [h1, h3, Option.map_some]
      congr 1
      rw [List.take_take, show min l.length bs = min bs l.length from Nat.min_comm _ _,
        ← List.take_take, List.take_length]
      exact List.take_append_drop _ _

/-! ## The pieces of one header -/

@[simp] theorem room_nil (bs : Nat) : room bs [] = 0 := rfl
@[simp] theorem room_cons (bs : Nat) (p : Piece) (ps : List Piece) :
    room bs (p :: ps) = p.2 * bs + room bs ps := by simp [room]
theorem room_append (bs : Nat) (a b : List Piece) : room bs (a ++ b) = room bs a + room bs b := by
  simp [room]

/-- `n` bytes fill the pieces up to less than a block. -/
structure Fit (bs : Nat) (ps : List Piece) (n : Nat) : Prop where
  ne : ps ≠ []
  pos : ∀ p ∈ ps, 1 ≤ p.2
  hi : n ≤ room bs ps
  lo : room bs ps < n + bs

theorem room_ge {bs : Nat} {ps : List Piece} (ne : ps ≠ []) (pos : ∀ p ∈ ps, 1 ≤ p.2) :
    bs ≤ room bs ps := by
  match ps, ne with
  | p :: ps, _ =>
    have := pos p (by simp)
    have : 1 * bs ≤ p.2 * bs := Nat.mul_le_mul_right _ this
    simp; omega

theorem Fit.tail {bs : Nat} {p q : Piece} {ps : List Piece} {n : Nat} (h : Fit bs (p :: q :: ps) n) :
    p.2 * bs ≤ n ∧ Fit bs (q :: ps) (n - p.2 * bs) := by
  have h1 := h.hi; have h2 := h.lo
  have h3 : bs ≤ room bs (q :: ps) := room_ge (by simp) (fun x hx => h.pos x (by simp only [List.mem_cons] at hx ⊢; tauto))
  rw [room_cons] at h1 h2
  refine ⟨by omega, ⟨by simp, fun x hx => h.pos x (by simp only [List.mem_cons] at hx ⊢; tauto), by omega, by omega⟩⟩

theorem dataWrites_sub {bs : Nat} (hbs : 0 < bs) (ps : List Piece) (l : List Byte)
    (h : Fit bs ps l.length) :
    ((dataWrites bs ps l).map Prod.fst).Sublist (ps.flatMap Piece.blocks) := by
  induction ps generalizing l with
  | nil => exact absurd rfl h.ne
  | cons p ps ih =>
    cases ps with
    | nil =>
      have := h.hi
      simp only [room_cons, room_nil, Nat.add_zero] at this
      simpa [dataWrites, Piece.blocks] using pieceWrites_sub hbs p.1 p.2 l this
    | cons q ps =>
      have ⟨h1, h2⟩ := h.tail
      simp only [dataWrites, List.map_append, List.flatMap_cons]
      refine List.Sublist.append ?_ ?_
      · exact pieceWrites_sub hbs p.1 p.2 _ (by simp [List.length_take])
      · have := ih (l.drop (p.2 * bs)) (by simpa [List.length_drop] using h2)
        simpa using this

theorem readPieces_has {bs : Nat} (hbs : 0 < bs) (d : Disk) (ps : List Piece) (l : List Byte)
    (h : Fit bs ps l.length) (hd : Has d (dataWrites bs ps l)) :
    readPieces bs d ps l.length = some l := by
  induction ps generalizing l with
  | nil => exact absurd rfl h.ne
  | cons p ps ih =>
    cases ps with
    | nil => exact readAt_has hbs d p.1 l hd
    | cons q ps =>
      have ⟨h1, h2⟩ := h.tail
      simp only [dataWrites] at hd
      rw [Has.append] at hd
      have e1 := readAt_has hbs d p.1 _ hd.1
      rw [List.length_take, Nat.min_eq_left h1] at e1
      have e2 := ih (l.drop (p.2 * bs)) (by simpa [List.length_drop] using h2) hd.2
      rw [List.length_drop] at e2
      simp only [readPieces, e1, e2, List.take_append_drop]

/-! ## The chain of headers -/

/-- `hs` is the chain of headers that starts at `o`. -/
def Chain : Option Nat → List OHdr → Prop
  | none, [] => True
  | some b, h :: t => h.bid = b ∧ Chain h.next t
  | _, _ => False

/-- A header accounts for the bytes stored under it. -/
structure HdrOk (c : Cfg) (x : OHdr × List Byte) : Prop where
  sz : x.1.ctxsz = x.2.length
  pos : 0 < x.2.length
  fit : Fit c.bs x.1.pieces x.2.length

theorem ovfWrites_sub {c : Cfg} (hbs : 0 < c.bs) (xs : List (OHdr × List Byte))
    (h : ∀ x ∈ xs, HdrOk c x) :
    ((ovfWrites c xs).map Prod.fst).Sublist ((xs.map Prod.fst).flatMap OHdr.blocks) := by
  induction xs with
  | nil => simp [ovfWrites]
  | cons x xs ih =>
    have := ih (fun y hy => h y (by simp [hy]))
    simp only [ovfWrites, List.flatMap_cons, List.map_append, List.map_cons, OHdr.blocks] at this ⊢
    refine List.Sublist.append (List.Sublist.cons_cons _ ?_) this
    exact dataWrites_sub hbs _ _ (h x (by simp)).fit

theorem readChain_ok {c : Cfg} (hbs : 0 < c.bs) (d : Disk) (m : List OHdr)
    (xs : List (OHdr × List Byte)) (h : ∀ x ∈ xs, HdrOk c x) (hd : Has d (ovfWrites c xs))
    (hm : ∀ x ∈ xs, m.find? (fun o => o.bid = x.1.bid) = some x.1)
    (o : Option Nat) (hc : Chain o (xs.map Prod.fst)) (f : Nat) (hf : xs.length ≤ f) :
    readChain c.bs d m f o (xs.flatMap Prod.snd).length = some (xs.flatMap Prod.snd) := by
  induction xs generalizing o f with
  | nil => simp [readChain]
  | cons x xs ih =>
    cases o with
    | none => exact hc.elim
    | some b =>
      obtain ⟨hb, hc⟩ := hc
      have hx := h x (by simp)
      have hd' : Has d ((x.1.bid, .ovf x.1) :: dataWrites c.bs x.1.pieces x.2) ∧ Has d (ovfWrites c xs) := by
        rw [← Has.append]; simpa [ovfWrites] using hd
      cases f with
      | zero => simp at hf
      | succ f =>
        have hlen : (List.flatMap Prod.snd (x :: xs)).length = (x.2.length + (xs.flatMap Prod.snd).length - 1) + 1 := by
          have := hx.pos
          simp only [List.flatMap_cons, List.length_append]; omega
        rw [hlen, readChain]
        have hfind := hm x (by simp)
        rw [hb] at hfind
        rw [hfind]
        have e1 := readPieces_has hbs d x.1.pieces x.2 hx.fit (fun w hw => hd'.1 w (List.mem_cons_of_mem _ hw))
        have e2 := ih (fun y hy => h y (by simp [hy])) hd'.2 (fun y hy => hm y (by simp [hy])) x.1.next hc f
          (by simp at hf; omega)
        have hp := hx.pos
        have e3 : (x.2.length + (xs.flatMap Prod.snd).length - 1) + 1 - x.1.ctxsz
            = (xs.flatMap Prod.snd).length := by rw [hx.sz]; omega
        have e4 : x.1.ctxsz ≤ (x.2.length + (xs.flatMap Prod.snd).length - 1) + 1 := by rw [hx.sz]; omega
        simp only [e3, e4, if_true, e2]
        rw [hx.sz, e1]
        simp

theorem scanOvf_ok {c : Cfg} (d : Disk) (xs : List (OHdr × List Byte)) (hd : Has d (ovfWrites c xs))
    (o : Option Nat) (hc : Chain o (xs.map Prod.fst)) (f : Nat) (hf : xs.length ≤ f) :
    scanOvf d f o = some (xs.map Prod.fst) := by
  induction xs generalizing o f with
  | nil =>
    cases o with
    | none => simp [scanOvf]
    | some b => exact hc.elim
  | cons x xs ih =>
    cases o with
    | none => exact hc.elim
    | some b =>
      obtain ⟨hb, hc⟩ := hc
      have hd' : Has d ((x.1.bid, .ovf x.1) :: dataWrites c.bs x.1.pieces x.2) ∧ Has d (ovfWrites c xs) := by
        rw [← Has.append]; simpa [ovfWrites] using hd
      cases f with
      | zero => simp at hf
      | succ f =>
        have e1 : d b = .ovf x.1 := by
          rw [← hb]; exact hd'.1 (x.1.bid, .ovf x.1) (by simp)
        simp only [scanOvf, e1, hb, if_true, ih hd'.2 x.1.next hc f (by simp at hf; omega)]
        simp

theorem ovfLoop_last {c : Cfg} {hdrs : List Nat} {cur : Nat}
    {pieces : List Piece} {content : List Byte} {xs : List (OHdr × List Byte)}
    (h : ovfLoop c cur hdrs pieces content = some xs) (hne : pieces ≠ [])
    (hle : pieces.length ≤ c.maxIds) :
    xs = [({ bid := cur, next := none, ctxsz := content.length, pieces := pieces }, content)] := by
  match pieces, hne with
  | p :: ps, _ =>
    have htk : (p :: ps).take c.maxIds = p :: ps := List.take_of_length_le hle
    rw [ovfLoop.eq_def] at h
    simp only [htk] at h
    rw [if_neg (show ¬ ((p :: ps).length + 1 < (p :: ps).length) by omega), if_neg (by omega),
      if_pos (by omega), if_pos rfl, List.take_length] at h
    simpa using h.symm

theorem ovfLoop_more {c : Cfg} {hdrs : List Nat} {cur : Nat}
    {pieces : List Piece} {content : List Byte} {xs : List (OHdr × List Byte)}
    (h : ovfLoop c cur hdrs pieces content = some xs) (hne : pieces ≠ [])
    (hlt : c.maxIds + 1 < pieces.length) :
    ∃ r hd hds ys, r = room c.bs (pieces.take c.maxIds) ∧ hdrs = hd :: hds ∧ r ≤ content.length ∧
      ovfLoop c hd hds (pieces.drop c.maxIds) (content.drop r) = some ys ∧
      xs = ({ bid := cur, next := some hd, ctxsz := r, pieces := pieces.take c.maxIds }, content.take r) :: ys := by
  match pieces, hne with
  | p :: ps, _ =>
    rw [ovfLoop.eq_def] at h
    simp only at h
    generalize hq : p :: ps = q at *
    have htl : (q.take c.maxIds).length = c.maxIds := by rw [List.length_take]; omega
    rw [htl, if_pos hlt] at h
    change (if content.length < room c.bs (q.take c.maxIds) then none else _) = _ at h
    by_cases h0 : content.length < room c.bs (q.take c.maxIds)
    · rw [if_pos h0] at h; cases h
    · rw [if_neg h0, if_neg (by omega)] at h
      cases hdrs with
      | nil => cases h
      | cons hd hds =>
        obtain ⟨ys, hys, hxs⟩ := Option.map_eq_some_iff.1 h
        exact ⟨_, hd, hds, ys, rfl, rfl, by omega, hys, hxs.symm⟩

theorem ovfLoop_ok {c : Cfg} (hM : 0 < c.maxIds) (hdrs : List Nat) (cur : Nat)
    (pieces : List Piece) (content : List Byte) (xs : List (OHdr × List Byte))
    (h : ovfLoop c cur hdrs pieces content = some xs) (hg : GoodCount c.maxIds pieces.length)
    (hfit : Fit c.bs pieces content.length) :
    (∀ x ∈ xs, HdrOk c x) ∧ Chain (some cur) (xs.map Prod.fst) ∧ xs.flatMap Prod.snd = content ∧
    (xs.map (fun x => x.1.bid)).Sublist (cur :: hdrs) ∧ xs.flatMap (fun x => x.1.pieces) = pieces := by
  induction hdrs generalizing cur pieces content xs with
  | nil =>
    by_cases hle : pieces.length ≤ c.maxIds
    · have := ovfLoop_last h hfit.ne hle
      subst this
      have hlo := hfit.lo; have hge := room_ge (bs := c.bs) hfit.ne hfit.pos
      refine ⟨?_, ⟨rfl, by simp [Chain]⟩, by simp, by simp, by simp⟩
      intro x hx
      simp only [List.mem_singleton] at hx
      subst hx
      exact ⟨rfl, by simp only; omega, hfit⟩
    · have hlt : c.maxIds + 1 < pieces.length := by
        rcases hg with hg | hg
        · omega
        · by_contra hc
          apply hg
          have : pieces.length - 1 = c.maxIds := by omega
          rw [this]
      obtain ⟨r, hd, hds, ys, hr, hh, _⟩ := ovfLoop_more h hfit.ne hlt
      cases hh
  | cons hd hdrs ih =>
    by_cases hle : pieces.length ≤ c.maxIds
    · have := ovfLoop_last h hfit.ne hle
      subst this
      have hlo := hfit.lo; have hge := room_ge (bs := c.bs) hfit.ne hfit.pos
      refine ⟨?_, ⟨rfl, by simp [Chain]⟩, by simp, by simp, by simp⟩
      intro x hx
      simp only [List.mem_singleton] at hx
      subst hx
      exact ⟨rfl, by simp only; omega, hfit⟩
    · have hlt : c.maxIds + 1 < pieces.length := by
        rcases hg with hg | hg
        · omega
        · by_contra hc
          apply hg
          have : pieces.length - 1 = c.maxIds := by omega
          rw [this]
      obtain ⟨r, hd', hds, ys, hr, hh, h0, hys, hxs⟩ := ovfLoop_more h hfit.ne hlt
      cases hh
      have htl : (pieces.take c.maxIds).length = c.maxIds := by rw [List.length_take]; omega
      have hroom : room c.bs (pieces.take c.maxIds) + room c.bs (pieces.drop c.maxIds) = room c.bs pieces := by
        rw [← room_append, List.take_append_drop]
      rw [← hr] at hroom
      have hposT : ∀ p ∈ pieces.take c.maxIds, 1 ≤ p.2 := fun p hp => hfit.pos p (List.mem_of_mem_take hp)
      have hneT : pieces.take c.maxIds ≠ [] := by
        intro hc; rw [hc] at htl; simp at htl; omega
      have hgeT : c.bs ≤ r := by rw [hr]; exact room_ge hneT hposT
      have hi := hfit.hi; have hlo := hfit.lo
      have hneD : pieces.drop c.maxIds ≠ [] := by
        intro hc
        have := congrArg List.length hc
        simp only [List.length_drop, List.length_nil] at this; omega
      have hposD : ∀ p ∈ pieces.drop c.maxIds, 1 ≤ p.2 := fun p hp => hfit.pos p (List.mem_of_mem_drop hp)
      have hgeD : c.bs ≤ room c.bs (pieces.drop c.maxIds) := room_ge hneD hposD
      have hfit' : Fit c.bs (pieces.drop c.maxIds) (content.drop r).length := by
        refine ⟨hneD, hposD, ?_, ?_⟩
        · rw [List.length_drop]; omega
        · rw [List.length_drop]; omega
      have hg' : GoodCount c.maxIds (pieces.drop c.maxIds).length := by
        rcases hg with hg | hg
        · omega
        · right
          intro hdv
          apply hg
          rw [List.length_drop] at hdv
          have : pieces.length - 1 = (pieces.length - c.maxIds - 1) + c.maxIds := by omega
          rw [this]
          exact Nat.dvd_add hdv (Nat.dvd_refl _)
      obtain ⟨i1, i2, i3, i4, i5⟩ := ih hd _ _ ys hys hg' hfit'
      subst hxs
      have hlen : (content.take r).length = r := by rw [List.length_take]; omega
      have hrpos : 0 < r := by
        match hp : pieces.take c.maxIds, hneT with
        | [], hne => exact absurd rfl hne
        | p :: ps, _ =>
          have h1 := hposT p (by rw [hp]; simp)
          by_contra hz
          have hr0 : r = 0 := by omega
          have : c.bs = 0 := by omega
          omega
      refine ⟨?_, ⟨rfl, i2⟩, ?_, ?_, ?_⟩
      · intro x hx
        rcases List.mem_cons.1 hx with rfl | hx
        · refine ⟨hlen.symm, by simp only [hlen]; omega, ?_⟩
          simp only [hlen]
          exact ⟨hneT, hposT, by rw [hr], by rw [← hr]; omega⟩
        · exact i1 x hx
      · simp only [List.flatMap_cons, i3, List.take_append_drop]
      · simpa using i4.cons_cons cur
      · simp only [List.flatMap_cons, i5, List.take_append_drop]

/-! ## A record on disk -/

/-- The bytes stored for the record `m` whose overflow chain holds `xs`. -/
def bodyData (c : Cfg) (m : MBlk) (xs : List (OHdr × List Byte)) : List Byte :=
  if m.ctxsz ≤ c.inlineMax then m.inl else xs.flatMap Prod.snd

/-- On disk `d`, the record `m` with overflow chain `xs` holds `content`. -/
structure RecOk (c : Cfg) (d : Disk) (m : MBlk) (xs : List (OHdr × List Byte)) (content : List Byte) : Prop where
  chain : Chain m.ovf (xs.map Prod.fst)
  hok : ∀ x ∈ xs, HdrOk c x
  has : Has d (ovfWrites c xs)
  inl : m.ctxsz ≤ c.inlineMax → xs = []
  len : (bodyData c m xs).length = m.ctxsz
  crc : c.crc (bodyData c m xs) = m.crc
  dec : (if m.compressed then c.dec (bodyData c m xs) else bodyData c m xs) = content

/-- Blocks of the overflow chain. -/
def xblocks (xs : List (OHdr × List Byte)) : List Nat := (xs.map Prod.fst).flatMap OHdr.blocks

theorem RecOk.frame {c : Cfg} (hbs : 0 < c.bs) {d d' : Disk} {m : MBlk} {xs : List (OHdr × List Byte)}
    {content : List Byte} (h : RecOk c d m xs content) (e : ∀ b ∈ xblocks xs, d' b = d b) :
    RecOk c d' m xs content :=
  { h with has := h.has.congr (fun b hb => e b ((ovfWrites_sub hbs xs h.hok).subset hb)) }

theorem RecOk.relink {c : Cfg} {d : Disk} {m : MBlk} {xs : List (OHdr × List Byte)}
    {content : List Byte} (h : RecOk c d m xs content) (p : Nat) (n : Option Nat) :
    RecOk c d { m with prev := p, next := n } xs content :=
  ⟨h.chain, h.hok, h.has, h.inl, h.len, h.crc, h.dec⟩

theorem RecOk.deliver {c : Cfg} (hbs : 0 < c.bs) {d : Disk} {m : MBlk} {xs : List (OHdr × List Byte)}
    {content : List Byte} (h : RecOk c d m xs content) {hs : List OHdr}
    (hm : ∀ x ∈ xs, hs.find? (fun o => o.bid = x.1.bid) = some x.1) (hl : xs.length ≤ hs.length) :
    readBody c d hs m = some (bodyData c m xs) ∧ HS.Meta.deliver c d hs m = some content := by
  have e : readBody c d hs m = some (bodyData c m xs) := by
    have hlen := h.len
    unfold readBody
    by_cases hi : m.ctxsz ≤ c.inlineMax
    · simp only [bodyData, if_pos hi] at hlen ⊢
      rw [← hlen, List.take_length]
    · simp only [bodyData, if_neg hi] at hlen ⊢
      rw [← hlen]
      exact readChain_ok hbs d hs xs h.hok h.has hm _ h.chain _ hl
  refine ⟨e, ?_⟩
  simp only [HS.Meta.deliver, e, h.crc, if_true, h.dec]

theorem RecOk.size {c : Cfg} {d : Disk} {m : MBlk} {xs : List (OHdr × List Byte)}
    {content : List Byte} (h : RecOk c d m xs content) :
    (if m.ctxsz > c.inlineMax then 0 else m.ctxsz) + ((xs.map Prod.fst).map OHdr.ctxsz).sum = m.ctxsz := by
  have e : ((xs.map Prod.fst).map OHdr.ctxsz).sum = (xs.flatMap Prod.snd).length := by
    have := h.hok
    clear h
    induction xs with
    | nil => rfl
    | cons x xs ih =>
      simp only [List.map_cons, List.sum_cons, List.flatMap_cons, List.length_append]
      rw [ih (fun y hy => this y (by simp [hy])), (this x (by simp)).sz]
  have hlen := h.len
  rw [e]
  unfold bodyData at hlen
  by_cases hi : m.ctxsz ≤ c.inlineMax
  · rw [if_neg (by omega), h.inl hi]; simp
  · rw [if_neg hi] at hlen
    rw [if_pos (by omega)]; omega

/-! ## Writing a body -/

theorem blocks_perm (hs : List OHdr) :
    (hs.flatMap OHdr.blocks).Perm (hs.map OHdr.bid ++ (hs.flatMap OHdr.pieces).flatMap Piece.blocks) := by
  induction hs with
  | nil => simp
  | cons h hs ih =>
    simp only [List.flatMap_cons, OHdr.blocks, List.map_cons, List.flatMap_append, List.cons_append]
    refine List.Perm.cons _ ?_
    refine (List.Perm.append_left _ ih).trans ?_
    rw [← List.append_assoc, ← List.append_assoc]
    exact List.Perm.append_right _ List.perm_append_comm

theorem writeBody_ok {c : Cfg} (hc : c.Ok) {content : List Byte} {sp : Space} {b : Body}
    (h : writeBody c content sp = some b)
    (hs : c.inlineMax < (stored c content).length → SpaceOk c (stored c content).length sp) :
    ∃ xs, b.hs = xs.map Prod.fst ∧ b.ws = ovfWrites c xs ∧ (∀ x ∈ xs, HdrOk c x) ∧
      (∃ l : List Nat, (xblocks xs).Perm l ∧ l.Sublist sp.blocks) ∧
      ∀ d bid prev next typ, Has d b.ws → RecOk c d (mkMBlk bid prev next typ b) xs content := by
  have hdec : (if (c.enc content).isSome then c.dec (stored c content) else stored c content) = content := by
    unfold stored
    cases he : c.enc content with
    | none => simp
    | some e => simpa using hc.enc_dec _ _ he
  unfold writeBody at h
  simp only at h
  split at h
  · next hle =>
    simp only [Option.some.injEq] at h
    subst h
    refine ⟨[], rfl, rfl, by simp, ⟨[], by simp [xblocks], by simp⟩, ?_⟩
    intro d bid prev next typ _
    have : bodyData c (mkMBlk bid prev next typ
        { ovf := none, ctxsz := (stored c content).length, inl := stored c content,
          compressed := (c.enc content).isSome, crc := c.crc (stored c content), hs := [], ws := [] }) []
        = stored c content := by simp [bodyData, mkMBlk, hle]
    refine ⟨trivial, by simp, by intro w hw; simp [ovfWrites] at hw, fun _ => rfl, ?_, ?_, ?_⟩
    · rw [this]; rfl
    · rw [this]; rfl
    · rw [this]; exact hdec
  · next hle =>
    have hsp := hs (by omega)
    split at h
    · cases h
    · next hd hds hh =>
      obtain ⟨xs, hxs, rfl⟩ := Option.map_eq_some_iff.1 h
      have hn : 0 < (stored c content).length := by omega
      have hfit : Fit c.bs sp.pieces (stored c content).length := by
        have hb := hc.bs
        have h1 := Nat.div_add_mod ((stored c content).length + c.bs - 1) c.bs
        have h2 := Nat.mod_lt ((stored c content).length + c.bs - 1) hb
        have h3 := hsp.total
        rw [Nat.mul_comm] at h1
        refine ⟨?_, hsp.pos, by omega, by omega⟩
        intro he
        rw [he, room_nil] at h3
        omega
      obtain ⟨i1, i2, i3, i4, i5⟩ := ovfLoop_ok hc.maxIds hds hd sp.pieces _ xs hxs hsp.count hfit
      refine ⟨xs, rfl, rfl, i1, ⟨_, blocks_perm _, ?_⟩, ?_⟩
      · simp only [Space.blocks, hh]
        refine List.Sublist.append ?_ ?_
        · rw [List.map_map]; exact i4
        · rw [List.flatMap_map, i5]
      · intro d bid prev next typ hd'
        have : bodyData c (mkMBlk bid prev next typ
          { ovf := some hd, ctxsz := (stored c content).length, inl := [],
            compressed := (c.enc content).isSome, crc := c.crc (stored c content), hs := xs.map Prod.fst,
            ws := ovfWrites c xs }) xs = stored c content := by
          simp only [bodyData, mkMBlk, if_neg hle, i3]
        refine ⟨i2, i1, hd', fun hcon => absurd hcon hle, ?_, ?_, ?_⟩
        · rw [this]; rfl
        · rw [this]; rfl
        · rw [this]; exact hdec

end HS.Meta
