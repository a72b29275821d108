import Verif.Proof.Standstill
import Verif.Props.Concurrent
/-!
# Standstills when steps fail and futures are dropped
-/

namespace Hyperbee

/-! ## C98 -/

/-- Whatever calls are in flight, on the database itself and through sub-databases, whatever reads and
appends fail, and whichever futures are dropped: if every call is polled again and again, then all
reply but those that were dropped, or the calls come to a standstill.  Then no call takes a step any
more unless one is dropped, and to blame are the same as without failures (`standstill_exact`). -/
theorem standstill_troubled (s : St) (xs : List (Option Prefixed × Cmd)) (f : Nat → Nat × Option Trouble)
    (hf : ∀ i < xs.length, ∀ n, ∃ m, n ≤ m ∧ (f m).1 = i) :
    (∃ n, ∀ (i : Nat) p, ((Flight.start (xs.map Prog.execVia) s).runTroubled ((List.range n).map f)).calls[i]? = some p →
      (∃ r, p.result = some r) ∨ (i, some Trouble.dropped) ∈ (List.range n).map f) ∨
    ∃ n, (∀ more, (∀ x ∈ more, x.2 ≠ some Trouble.dropped) →
        ((Flight.start (xs.map Prog.execVia) s).runTroubled ((List.range n).map f ++ more)).calls =
        ((Flight.start (xs.map Prog.execVia) s).runTroubled ((List.range n).map f)).calls ∧
        ((Flight.start (xs.map Prog.execVia) s).runTroubled ((List.range n).map f ++ more)).st =
        ((Flight.start (xs.map Prog.execVia) s).runTroubled ((List.range n).map f)).st) ∧
      ∃ js, ((Flight.start (xs.map Prog.execVia) s).runTroubled ((List.range n).map f)).Jam (xs.map (·.2)) js := by
  obtain ⟨n, h | ⟨h, js, hj⟩⟩ := (suits_via xs s).settles f (fun p hp => by
    obtain ⟨x, _, rfl⟩ := List.mem_map.mp hp
    exact replies_execVia x) (by simpa [Flight.start] using hf)
  · exact .inl ⟨n, h⟩
  · refine .inr ⟨n, fun more hm => ?_, js, hj⟩
    rw [Flight.runTroubled_append]
    exact h.runTroubled more hm

/-- It suffices to give up on traversals and deletions: if every call is polled again and again, and each
traversal and each deletion that has not replied is dropped at some time, then all others reply, whatever
reads and appends fail, and whatever else is dropped. -/
theorem timeouts_suffice (s : St) (xs : List (Option Prefixed × Cmd)) (f : Nat → Nat × Option Trouble)
    (hf : ∀ i < xs.length, ∀ n, ∃ m, n ≤ m ∧ (f m).1 = i)
    (ht : ∀ (i : Nat) x, xs[i]? = some x → x.2.walks = true ∨ x.2.deletes = true → ∃ m, f m = (i, some Trouble.dropped)) :
    ∃ n, ∀ (i : Nat) p, ((Flight.start (xs.map Prog.execVia) s).runTroubled ((List.range n).map f)).calls[i]? = some p →
      (∃ r, p.result = some r) ∨ (i, some Trouble.dropped) ∈ (List.range n).map f :=
  (suits_via xs s).timeouts f (fun p hp => by
    obtain ⟨x, _, rfl⟩ := List.mem_map.mp hp
    exact replies_execVia x) (by simpa [Flight.start] using hf) (fun i c hc hk => by
      rw [List.getElem?_map] at hc
      obtain ⟨x, hx, rfl⟩ := Option.map_eq_some_iff.mp hc
      exact ht i x hx hk)

/-- The calls of `no_deadlock_false`, one of them through a sub-database. -/
def stuckCalls : List (Option Prefixed × Cmd) :=
  [(none, .traverse {} (List.replicate 10 true)), (some ⟨[97], [0]⟩, .put [2] (some [1]))]

/-- They come to a standstill here too, and no failure helps. -/
example : ((Flight.start (stuckCalls.map Prog.execVia) (runSt [.put [99] (some [3])] St.init)).runTroubled
      (List.replicate 5 (0, none) ++ List.replicate 11 (1, none) ++
        [(0, some (.read .io)), (1, some (.append .refused)), (1, some (.read .missing))])).calls.map Prog.result = [none, none] := by
  decide +kernel

/-- Dropping the traversal ends the standstill. -/
example : ((Flight.start (stuckCalls.map Prog.execVia) (runSt [.put [99] (some [3])] St.init)).runTroubled
      (List.replicate 5 (0, none) ++ List.replicate 11 (1, none) ++ [(0, some .dropped)] ++ List.replicate 11 (1, none))).calls.map
        Prog.result = [none, some (.put none 2)] := by
  decide +kernel

end Hyperbee
