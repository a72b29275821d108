import Verif.Proof.Drop
import Verif.Proof.Prefix
/-!
# What is freed when the last handle is dropped (C87)

The first theorem says what the rule for shared values (`Freed`) comes to for the values behind a
handle, in any state.  The second says which histories end in a state where all is freed.  The last
refutes the claim that dropping a handle always frees what is behind it.
-/

namespace Hyperbee

/-- In any state: everything is freed if no block in the cache has a node.  Otherwise only the
`Tree` is: the `Blocks`, the core, every block in the cache and every node of such a block stay. -/
theorem drop_frees_iff (s : St) :
    ((∀ q e, s.cache q = some e → e.nodes = []) → ∀ x, Freed s x) ∧
    (∀ q e, s.cache q = some e → e.nodes ≠ [] →
      Freed s .tree ∧ ¬ Freed s .blocks ∧ ¬ Freed s .core ∧
      ∀ q' e', s.cache q' = some e' → ¬ Freed s (.entry q') ∧ ∀ a ∈ e'.nodes, ¬ Freed s (.node a)) := by
  refine ⟨fun h => freed_all ((freed_blocks_iff s).mpr h), fun q e he hn => ?_⟩
  have hb : ¬ Freed s .blocks := fun h => hn ((freed_blocks_iff s).mp h q e he)
  refine ⟨.free fun y hy => (nomatch hy), hb, fun h => hb ((freed_core_iff s).mp h), fun q' e' he' => ?_⟩
  exact ⟨fun h => hb (h.inv (.cache he')), fun a ha h => hb ((h.inv (.entry he' ha)).inv (.cache he'))⟩

/-- A handle is opened on a database and used for some calls, then dropped with all that came from
it.  The core is freed, and everything else with it, exactly if no call searched a tree: no call was
a lookup, a write, a deletion or a traversal of a database with a block in it.

Partial because the claim, that dropping the last handle frees what is behind it, is false of the
other histories (`drop_frees_false`). -/
theorem drop_frees_partial (past cs : List Cmd) (hcs : ∀ c ∈ cs, c ≠ .reopen) :
    (Freed (runSt cs (St.open (runSt past St.init).core)) .core ↔
      ∀ cs1 c cs2, cs = cs1 ++ c :: cs2 →
        2 ≤ (runSt cs1 (St.open (runSt past St.init).core)).core.length → c.searches = false) ∧
    (Freed (runSt cs (St.open (runSt past St.init).core)) .core →
      ∀ x, Freed (runSt cs (St.open (runSt past St.init).core)) x) := by
  refine ⟨?_, fun h x => freed_all ((freed_core_iff _).mp h) x⟩
  have h0 : Holds (St.open (runSt past St.init).core) ((Db.empty.after past).next .reopen) :=
    (exec_refines (run_holds past) .reopen).2
  have hl0 : ¬ Laden (St.open (runSt past St.init).core) := by rintro ⟨q, e, h, -⟩; cases h
  rw [freed_core_iff, laden_iff]
  generalize St.open (runSt past St.init).core = s at h0 hl0 ⊢
  generalize (Db.empty.after past).next .reopen = d at h0
  constructor
  · rintro h cs1 c cs2 rfl h2
    refine Bool.eq_false_iff.mpr fun hc => h ?_
    have h3 := exec_laden (run_refines cs1 h0).2 h2 hc
    rw [runSt_append]
    exact runSt_stays (cs := cs2) (fun c' h' => hcs c' (by simp [h'])) h3
  · intro h
    induction cs generalizing s d with
    | nil => exact hl0
    | cons c cs ih =>
      have h1 := exec_bare h0 (hcs c (List.mem_cons_self ..)) (h [] c cs rfl)
      refine ih (fun c' h' => hcs c' (List.mem_cons_of_mem _ h')) (exec c s).2 ?_ (d.next c) (exec_refines h0 c).2
        fun cs1 c' cs2 hc' h2 => h (c :: cs1) c' cs2 (by rw [hc']; rfl) h2
      rintro ⟨q, e, h2, h3⟩
      exact hl0 ⟨q, e, by rw [← h1]; exact h2, h3⟩

/-- Dropping the last handle does not always free the core: it stays, open, after a write and a
lookup. -/
theorem drop_frees_false : ¬ ∀ cs : List Cmd, Freed (runSt cs St.init) .core := by
  intro h
  have h1 := ((drop_frees_partial [] [.put [1] none, .get [1]] (by simp)).1).mp (h _)
  have h2 := h1 [.put [1] none] (.get [1]) [] rfl (by decide +kernel)
  cases h2

/-- It is freed when a handle has been opened on such a database and only asked for its version, and
when a handle has written the first pair of a database and nothing else. -/
example : (∀ x, Freed (runSt [.version] (St.open (runSt [.put [1] none, .get [1]] St.init).core)) x) ∧
    ∀ x, Freed (runSt [.createHeader none, .get [1], .put [1] none, .version] (St.open (runSt [] St.init).core)) x := by
  constructor
  · have h := drop_frees_partial [.put [1] none, .get [1]] [.version] (by simp)
    refine h.2 (h.1.mpr fun cs1 c cs2 hc h2 => ?_)
    rcases cs1 with _ | ⟨x, _ | _⟩ <;> simp at hc
    rw [← hc.1]; rfl
  · have h := drop_frees_partial [] [.createHeader none, .get [1], .put [1] none, .version] (by simp)
    refine h.2 (h.1.mpr fun cs1 c cs2 hc h2 => ?_)
    rcases cs1 with _ | ⟨x1, _ | ⟨x2, _ | ⟨x3, _ | ⟨x4, _⟩⟩⟩⟩ <;> simp at hc
    · rw [← hc.1]; rfl
    · obtain ⟨rfl, rfl, -⟩ := hc; exact absurd h2 (by decide +kernel)
    · obtain ⟨rfl, rfl, rfl, -⟩ := hc; exact absurd h2 (by decide +kernel)
    · rw [← hc.2.2.2.1]; rfl

end Hyperbee
