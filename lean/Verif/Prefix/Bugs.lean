import Verif.Prefix.Props
/-!
# C77: where prefix nodes do not do what a list would
-/
namespace HS.Prefix

/-- Node 0 after a history that starts with new nodes. -/
def node0 (P : Params) (ops : List Op) : Option PN := (run P (fun _ => PN.fresh (fun _ => ⟨7, 7, 7⟩)) ops).map (fun r => r.2 0)

/-- Put of one key again and again. -/
def again (n : Nat) : List Op := List.replicate n (.put 0 3 100 .upsert none)

/-- A put over a key that is there takes a new prefix slot and never gives the old one back
(prefix_node.hpp 507-530): after 27 puts of one key the node, with one entry in it, has no room, not
even after a compaction.  The split that follows moves the only entry out and leaves the left node
empty, where its last key is asked for next (btree_mutate_impl.ipp 278). -/
theorem C77_update_leaks_violated :
    Along (Used exP) exP (fun _ => PN.fresh (fun _ => ⟨7, 7, 7⟩)) (again 27) ∧
    (node0 exP (again 27)).map (fun s => (s.ents exP, s.used, s.hasRoom exP 1, s.hasRoomC exP 1)) = some ([(3, 100)], 27, false, false) ∧
    ((node0 exP (again 27)).bind (fun s => s.moveOut exP (PN.fresh (fun _ => ⟨0, 0, 0⟩)) true ((exP.data - s.availSize exP) / 2))).map
      (fun r => (r.1, r.2.1.ents exP, r.2.2.ents exP)) = some (1, [], [(3, 100)]) :=
  ⟨alongB_sound (usedB_sound exP) _ _ (by decide +kernel), by decide +kernel, by decide +kernel⟩

/-- Removing a range of indexes goes up by one while the entries move down by one, and leaves out the
last index (554-558); the other nodes remove the entries from the first to the last index
(simple_node.hpp 86). -/
theorem C77_remove_range_violated :
    (node0 exP [.put 0 1 10 .insert none, .put 0 2 20 .insert none, .put 0 3 30 .insert none, .put 0 4 40 .insert none]).bind
      (fun s => (s.removeRange 0 2).map (fun t => (s.ents exP, t.ents exP))) =
    some ([(1, 10), (2, 20), (3, 30), (4, 40)], [(2, 20), (4, 40)]) := by decide +kernel

/-- A range update of keys 1 to 3 in a node with keys 2 and 3: for the key that is not there the index
goes on all the same (226-272), the keys that are there are not met and keep their values, and success
is reported. -/
theorem C77_range_update_skips_violated :
    ((node0 exP [.put 0 2 20 .insert none, .put 0 3 30 .insert none]).bind
      (fun s => s.multiPut exP ⟨1, true, 3, true, 1, 99, .update, none⟩)).map (fun r => (r.1, r.2.ents exP)) =
    some (.done, [(2, 20), (3, 30)]) ∧
    putUpto exP.vsh ⟨1, true, 3, true, 1, 99, .update, none⟩ [(2, 20), (3, 30)] 4 = [(2, 100), (3, 101)] := by
  refine ⟨by decide +kernel, by decide⟩

/-- A range put that starts, for this node, behind the first key of the range: the prefix of the
unshifted value is written first, and another one for the value meant (254-263).  The first is never
given back; and room was made sure of for one only (209, 266): the second one runs into the suffixes, and
the node is destroyed. -/
theorem C77_shifted_put_violated :
    ((node0 exP []).bind (fun s => s.multiPut exP ⟨40, true, 40, true, 8, 15, .upsert, none⟩)).map
      (fun r => (r.1, r.2.ents exP, r.2.used)) = some (.done, [(40, 47)], 2) ∧
    ((node0 { exP with data := 12 + 10 + 6, bits := 64 } []).map (fun s => s.hasRoom { exP with data := 12 + 10 + 6, bits := 64 } 1) = some true ∧
     (node0 { exP with data := 12 + 10 + 6, bits := 64 } []).bind
       (fun s => s.multiPut { exP with data := 12 + 10 + 6, bits := 64 } ⟨40, true, 40, true, 8, 15, .upsert, none⟩) = none) := by
  refine ⟨by decide +kernel, by decide +kernel, by decide +kernel⟩

/-- Nodes of 912 bytes whose suffixes are as long as their prefixes. -/
def bigP : Params := { exP with data := 912, ss := 10, bits := 128 }

/-- 30 keys with prefixes of their own, of which the first 29 go: 29 holes. -/
def holey : List Op := (List.range 30).map (fun i => .put 0 (16 * i) (16 * i) .insert none) ++
  [.multiRemove 0 0 true 463 true (fun _ _ => true)] ++ [.multiPut 1 ⟨480, true, 545, true, 480, 0, .upsert, none⟩]

/-- A merge copies all entries of a node behind those of its left neighbour with
`copy_by_entries(…, UINT32_MAX)` (btree_remove_impl.ipp 529-532): the question whether a compaction makes
room is asked for 65535 entries, so there is none, and in the loop `has_room(1)` (630) does not see the
entries copied so far (668): they run into the prefixes.  Asked for the right number, the node is
compacted first and has room for all of them; `num_entries_by_size` says so too. -/
theorem C77_merge_destroys_violated :
    Along (Used bigP) bigP (fun _ => PN.fresh (fun _ => ⟨7, 7, 7⟩)) (holey ++ [.copyEntries 0 1 0 4294967295]) ∧
    (run bigP (fun _ => PN.fresh (fun _ => ⟨7, 7, 7⟩)) holey).map
      (fun r => ((r.2 0).ents bigP, (r.2 1).suf.length, (r.2 1).numBySize bigP 0 ((r.2 0).availSize bigP))) = some ([(464, 464)], 66, 66) ∧
    (run bigP (fun _ => PN.fresh (fun _ => ⟨7, 7, 7⟩)) (holey ++ [.copyEntries 0 1 0 4294967295])).isNone = true ∧
    (run bigP (fun _ => PN.fresh (fun _ => ⟨7, 7, 7⟩)) (holey ++ [.copyEntries 0 1 0 66])).map (fun r => (r.2 0).suf.length) = some 67 :=
  ⟨alongB_sound (usedB_sound bigP) _ _ (by decide +kernel), by decide +kernel, by decide +kernel, by decide +kernel⟩

/-- A new node cannot take over in full what a node of the same size holds: the loop asks for room for
a prefix for every entry (630), also for those that need none.  Of three entries two are copied. -/
theorem C77_copy_short_violated :
    ((run { exP with data := 12 + 2 * 10 + 3 * 4, ss := 4 } (fun _ => PN.fresh (fun _ => ⟨7, 7, 7⟩))
      [.multiPut 1 ⟨32, true, 33, true, 32, 32, .upsert, none⟩, .put 1 1 1 .insert none, .copyEntries 0 1 0 100]).map
        (fun r => ((r.2 1).ents exP, (r.2 0).ents exP))) = some ([(1, 1), (32, 32), (33, 33)], [(1, 1), (32, 32)]) := by decide +kernel

/-- The number of bits is that of whole bytes of prefix slots, rounded up to a multiple of 64
(854-858): for 71 slots there are 64 bits.  When they are all set there is room in the node still, and a
put that is allowed writes its prefix outside the node (`alloc_prefix` gives 65535, 720-734). -/
theorem C77_bits_violated :
    reqdBits 722 10 8 = 64 ∧ (722 - 4 - 8) / 10 = 71 ∧
    Along (Used { exP with data := 722, ss := 8, bits := reqdBits 722 10 8 })
      { exP with data := 722, ss := 8, bits := reqdBits 722 10 8 } (fun _ => PN.fresh (fun _ => ⟨7, 7, 7⟩)) (again 65) ∧
    (node0 { exP with data := 722, ss := 8, bits := reqdBits 722 10 8 } (again 64)).isSome = true ∧
    (node0 { exP with data := 722, ss := 8, bits := reqdBits 722 10 8 } (again 65)).isNone = true :=
  ⟨by decide, by decide, alongB_sound (usedB_sound _) _ _ (by decide +kernel), by decide +kernel, by decide +kernel⟩

end HS.Prefix
