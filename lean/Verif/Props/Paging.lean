import Verif.Proof.Paging
import Verif.Props.Demo
/-!
# Reading page by page
-/

namespace Hyperbee

/-! ## C94 -/

/-- Paging breaks when a bound was given as an infinity, though the builder takes the first page: the
second is refused, and entries are never seen. -/
theorem paging_false : ∃ b conf s, b.build = .ok conf ∧ Reachable s ∧ InRange conf [2] ∧
    paging b [([], List.replicate 6 true), ([], List.replicate 9 true)] s =
      [.items [.ok ⟨1, [1], none⟩] false, .error .traverseConfigBuilder] ∧
    (exec (.get [2]) s).1 = .got (some (2, none)) :=
  ⟨{ maxValue := some (.infinite .positive) }, _, runSt [.put [1] none, .put [2] none] St.init, rfl, ⟨_, rfl⟩,
    ⟨trivial, trivial⟩, by decide +kernel, by decide +kernel⟩

/-- C94: a range is read page by page, each page from behind the last key seen, while other calls are
made between pages; no bound was given as an infinity.  No page fails, but that the database may be
empty, or the configuration refused.  What a page yields is in the range and in the database when the
page is read.  Over all pages keys come in the order asked for, so none comes twice.  Once a page says
that there is nothing more, every key of the range that was there when each page was read has come. -/
theorem paging_partial (before : List Cmd) {b : TraverseConfigBuilder} {conf : TraverseConfig} (hb : b.build = .ok conf)
    (hfin : FiniteBounds b) (ps : List (List Cmd × List Bool)) :
    let rs := paging b ps (runSt before St.init)
    let vs := views (Db.empty.after before) ps
    (∀ (i : Nat) (r : Reply) (v : Db), rs[i]? = some r → vs[i]? = some v →
      (r = .error .traverseConfigBuilder ∨ r = .error .noRoot ∧ v.version ≤ 1 ∨
        ∃ (xs : List KeyValueData) (fin : Bool), r = .items (xs.map .ok) fin) ∧
      ∀ e ∈ r.entries, v.entry e.key = some e ∧ InRange conf e.key) ∧
    (rs.flatMap Reply.entries).Pairwise (fun x y => Behind conf x.key y.key) ∧
    ∀ (j : Nat) (r : Reply), rs[j]? = some r → r.lastPage → ∀ k, InRange conf k →
      (∀ (i : Nat) (v : Db), i ≤ j → vs[i]? = some v → v.map k ≠ none) →
      ∃ i r, i ≤ j ∧ rs[i]? = some r ∧ ∃ e ∈ r.entries, e.key = k := by
  intro rs vs
  obtain ⟨h1, h2, _, h3⟩ := paging_aux hb hfin ps (run_refines before Holds.init).2 .first
  exact ⟨h1, h2, fun j r hr hl k hk => h3 j r hr hl k hk fun l hl => (by cases hl)⟩

/-- Four keys read in pages, backwards and up to an inclusive bound; one is deleted and one put between
pages.  The last configuration is refused: nothing can be left. -/
def demoPages : List (List Cmd × List Bool) :=
  [([], List.replicate 6 true), ([.del [2], .put [0] none, .put [5] (some [1])], List.replicate 4 true),
    ([.put [4] none], List.replicate 9 true), ([], [true])]

example : FiniteBounds { minValue := some (.finite [1]), reversed := some true } ∧
    (∃ conf, ({ minValue := some (.finite [1]), reversed := some true } : TraverseConfigBuilder).build = .ok conf) ∧
    paging { minValue := some (.finite [1]), reversed := some true } demoPages
      (runSt ([1, 2, 3, 4].map fun k => .put [k] none) St.init) =
    [.items [.ok ⟨4, [4], none⟩] false, .items [] false, .items [.ok ⟨3, [3], none⟩, .ok ⟨1, [1], none⟩] false,
      .error .traverseConfigBuilder] :=
  ⟨fun x => ⟨by simp, by simp⟩, ⟨_, rfl⟩, by decide +kernel⟩

/-- The same forwards, to the end of the stream. -/
example : paging {} [([], List.replicate 6 true), ([.del [2], .put [0] none], List.replicate 30 true)]
      (runSt ([1, 2, 3, 4].map fun k => .put [k] none) St.init) =
    [.items [.ok ⟨1, [1], none⟩] false, .items [.ok ⟨3, [3], none⟩, .ok ⟨4, [4], none⟩] true] := by
  decide +kernel

end Hyperbee
