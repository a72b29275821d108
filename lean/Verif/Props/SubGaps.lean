import Verif.Proof.SubGaps
import Verif.Props.SubFlaky
/-!
# Traversals of sub-databases in which reads fail (C108)
-/

namespace Hyperbee

/-! ## C108 -/

/-- A traversal of a sub-database need not survive a failed read: it yields the error, and panics when polled
again. -/
theorem sub_gaps_false : ∃ (s : St) (p : Prefixed) (b : TraverseConfigBuilder), Mixed s ∧ TwoKeys b ∧ ∃ fs,
    (execFlakyVia fs (some p, .traverse b (List.replicate 4 true)) s).1 = .items [.error (.buildIteratorInTraverse .core)] false ∧
    (execFlakyVia fs (some p, .traverse b (List.replicate 5 true)) s).1 =
      .error (.panic "traverse.rs:402 `async fn` resumed after completion") :=
  ⟨demoShared, ⟨[97], [0]⟩, { minValue := some (.finite [2]), maxValue := some (.finite [7]) }, demoShared_mixed, ⟨_, _, rfl, rfl⟩,
    List.replicate 9 none ++ [some .io], by decide +kernel, by decide +kernel⟩

/-- C108: reads fail as they please during a traversal of a sub-database.  Both bounds are keys; or bounds are
left open, and nothing else is stored that an open bound lets through.  The traversal cannot be created; or the
items account for what `get` on the sub-database finds in the range: each entry was yielded in its place, under
the key the sub-database knows it by, or an error in its place stands for it and its neighbours, or it is still to
come, and none is if the stream has ended; or it panics, having yielded as its last item that it could not find its
place in a node.  Without such an item, enough polls bring it to its end. -/
theorem sub_gaps_partial (before : List (Option Prefixed × Cmd)) (p : Prefixed) {b : TraverseConfigBuilder} {conf : TraverseConfig}
    (hb : b.build = .ok conf) (hfin : FiniteBounds b) :
    let d := Db.empty.after (before.map expandVia)
    let s := (runVia before St.init).2
    (TwoKeys b ∨ d.Clean p) → 2 ≤ d.version →
    ∃ full N, SubLists p s conf full ∧ ∀ sched fs,
      let r := (execFlakyVia fs (some p, .traverse b sched) s).1
      r.readError = true ∨
      (∃ xs fin rest, r = .items xs fin ∧ Account xs full rest ∧ (∀ e, .error e ∈ xs → GapErr e) ∧ (fin = true → rest = []) ∧
        (fin = false → N < sched.count true → EndsAtStart xs)) ∨
      (r = .error (.panic "traverse.rs:402 `async fn` resumed after completion") ∧ ∃ first xs, first <+: sched ∧
        (execFlakyVia fs (some p, .traverse b first) s).1 = .items xs false ∧ EndsAtStart xs) := by
  intro d s hcl h2
  have h : Holds s d := runVia_holds before init_holds
  rcases h.store with hbare | ⟨H, t, ht, hc, hcon⟩
  · have := hbare.1
    rw [← h.ver] at this
    omega
  · obtain ⟨hu, hr⟩ := page_bounds hb hfin hcl
    have hS := bounded_sound p hb hu
    obtain ⟨hl, hlong⟩ := sub_listing h p hS hr ht hcon
    refine ⟨_, t.cost, hl, fun sched fs => ?_⟩
    rcases sub_traverse_flakes ht h.wf hc hb p hS hlong sched fs with ⟨e, h1, h2⟩ | ⟨xs, fin, rest, h1, h2, h3, h4, h5⟩ |
      ⟨h1, first, xs, h2, h3, h4⟩
    · exact .inl (readError_iff.mpr ⟨e, h1, h2⟩)
    · refine .inr (.inl ⟨xs, fin, rest, h1, h2, fun e he => ?_, h4, fun hf hN => ?_⟩)
      · rcases h3 e he with h | ⟨e, h, rfl⟩
        · exact h.gapErr
        · exact .start h
      · rcases h5 hf with h | h
        · exact h.endsAtStart
        · omega
    · exact .inr (.inr ⟨h1, first, xs, h2, h3, h4.endsAtStart⟩)

/-- The entries that do come are entries of the sub-database, in order and each at most once, whatever fails. -/
theorem sub_gaps_sound_partial (before : List (Option Prefixed × Cmd)) (p : Prefixed) {b : TraverseConfigBuilder} {conf : TraverseConfig}
    (hb : b.build = .ok conf) (hfin : FiniteBounds b) :
    let d := Db.empty.after (before.map expandVia)
    let s := (runVia before St.init).2
    (TwoKeys b ∨ d.Clean p) → 2 ≤ d.version → ∀ sched fs xs fin,
      (execFlakyVia fs (some p, .traverse b sched) s).1 = .items xs fin →
      (∀ e, .ok e ∈ xs → (p.exec (.get e.key) s).1 = .got (some (e.seq, e.value)) ∧ InRange conf e.key) ∧
      (if conf.reversed then (xs.filterMap Except.toOption).reverse else xs.filterMap Except.toOption).Pairwise (fun x y => x.key < y.key) := by
  intro d s hcl h2 sched fs xs fin hx
  obtain ⟨full, N, hl, hall⟩ := sub_gaps_partial before p hb hfin hcl h2
  have hacc : ∃ rest, Account xs full rest := by
    rcases hall sched fs with h | ⟨xs', fin', rest, h, h', _⟩ | ⟨h, _⟩
    · rw [hx] at h; cases h
    · rw [hx] at h; cases h; exact ⟨rest, h'⟩
    · rw [hx] at h; cases h
  obtain ⟨rest, hacc⟩ := hacc
  refine ⟨fun e he => (hl.2 e).mp (hacc.ok_mem e he), ?_⟩
  have hs := hacc.sublist
  have ho := hl.1
  cases hc : conf.reversed with
  | true => rw [hc] at ho; exact ho.sublist hs.reverse
  | false => rw [hc] at ho; exact ho.sublist hs

/-- A child that cannot be read, which stands for three entries, and a key that cannot. -/
example :
    (execFlakyVia (List.replicate 14 none ++ [some .io]) (some ⟨[97], [0]⟩, .traverse { minValue := some (.finite [2]), maxValue := some (.finite [7]) }
      (List.replicate 30 true)) demoShared).1 =
      .items (.error (.getChildInTraverse .core) :: ([5, 6, 7].map fun k => .ok ⟨k.toNat, [k], none⟩)) true ∧
    (execFlakyVia (List.replicate 29 none ++ [some .io]) (some ⟨[97], [0]⟩, .traverse { minValue := some (.finite [2]), maxValue := some (.finite [7]) }
      (List.replicate 30 true)) demoShared).1 =
      .items [.ok ⟨2, [2], none⟩, .error .core, .ok ⟨4, [4], none⟩, .ok ⟨5, [5], none⟩, .ok ⟨6, [6], none⟩, .ok ⟨7, [7], none⟩] false := by
  decide +kernel

end Hyperbee
