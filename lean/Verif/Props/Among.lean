import Verif.Proof.SteadyRun
import Verif.Props.Demo
/-!
# One writer among readers

Property C68.
-/

namespace Hyperbee

/-! ## C68 -/

/-- Reading calls can undo a deletion they overlap: `del` of a key that is there replies that it is
deleted, the `get` overlapping it replies rightly, and the key is still there, and still there after
reopening.  Run alone, the deletion deletes. -/
theorem write_among_readers_false : ∃ s, Reachable s ∧
    runReplies [.del [1], .get [1]] s = [.del (some 1), .got none] ∧
    ∃ sched, ((Flight.start [Prog.exec (.del [1]), Prog.exec (.get [5])] s).run sched).calls.map Prog.result =
        [some (.del (some 1)), some (.got (some (5, none)))] ∧
      runReplies [.get [1], .reopen, .get [1]]
        ((Flight.start [Prog.exec (.del [1]), Prog.exec (.get [5])] s).run sched).st =
        [.got (some (1, none)), .opened, .got (some (1, none))] :=
  ⟨runSt (([1, 2, 3, 4, 5, 6, 7, 8, 9].map fun k => .put [k] none) ++ [.reopen]) St.init, ⟨_, rfl⟩, by decide +kernel,
    List.replicate 3 1 ++ List.replicate 14 0 ++ [1] ++ List.replicate 43 0 ++ List.replicate 9 1,
    by decide +kernel, by decide +kernel⟩

theorem pure_of_result {ps : List (Prog α)} {i : Nat} {r : α} (h : ps[i]?.bind Prog.result = some r) :
    ps[i]? = some (.pure r) := by
  obtain ⟨p, g1, g2⟩ := Option.bind_eq_some_iff.mp h
  cases p with
  | pure a => cases g2; exact g1
  | throw e => cases g2
  | step x k => cases g2

theorem readers_load {cs : List Cmd} {readers : List (List Cmd)} (hl : ∀ cs' ∈ readers, ∀ c' ∈ cs', c'.looks = true) :
    ∀ j p, j ≠ 0 → ((cs :: readers).map Prog.history)[j]? = some p → Loader _ p := by
  intro j p hj hp
  rw [List.getElem?_map] at hp
  obtain ⟨cs', g1, rfl⟩ := Option.map_eq_some_iff.mp hp
  cases j with
  | zero => exact absurd rfl hj
  | succ j => exact loader_history (hl cs' (List.mem_of_getElem? g1))

/-- C68 without deletions: a client makes puts, conditional puts, header creations and reads one after
the other while others, any number of them, read one call after the other through the same handle.
However the steps fall, it gets the replies it would have got alone, the core is the one it would have
left alone, and every later history of calls replies the same. -/
theorem put_among_readers {s : St} (h : Reachable s) (cs : List Cmd) (hc : ∀ c ∈ cs, c.inserts = true ∨ c.looks = true)
    (readers : List (List Cmd)) (hl : ∀ cs' ∈ readers, ∀ c' ∈ cs', c'.looks = true) (sched : List Nat) (rs : List Reply)
    (later : List Cmd) :
    let fin := Prog.interleave sched ((cs :: readers).map Prog.history) s
    fin.1[0]?.bind Prog.result = some rs →
    rs = runReplies cs s ∧ fin.2.core = (runSt cs s).core ∧ runReplies later fin.2 = runReplies later (runSt cs s) := by
  intro fin hr
  obtain ⟨d, hs⟩ := h.holds
  obtain ⟨h1, h2, d', h3⟩ := among_inserts (w := 0) hs hc sched _ rfl (readers_load hl) rs (pure_of_result hr)
  obtain ⟨d2, h4⟩ := holds_run cs hs
  exact ⟨h1, h2, (runs_same later h3 h4 h2.symm).1⟩

/-- A put, a get and another put, and two other readers stepping between, one of them all along, on a
handle that has loaded nothing yet; the readers put blocks into the cache that are there already. -/
example :
    let calls := [[.put (demoKey 40) none, .get (demoKey 4), .put (demoKey 41) none], [.get (demoKey 20), .get (demoKey 40)],
      [.get (demoKey 4)]].map Prog.history
    let sched := (List.range 400).map fun i => [0, 1, 2, 1, 2, 0].getD (i % 6) 0
    (Prog.interleave sched calls (runSt (demo ++ [.reopen]) St.init)).1.all (fun p => p.result.isSome) = true ∧
      Prog.overtaken 0 sched calls (runSt (demo ++ [.reopen]) St.init) = true := by
  decide +kernel

/-- C68 for all calls, deletions too, as long as no reader puts a block into the cache that is there
already before the writing client is done. -/
theorem write_among_readers_partial {s : St} (h : Reachable s) (cs : List Cmd) (hc : ∀ c ∈ cs, c ≠ .reopen)
    (readers : List (List Cmd)) (hl : ∀ cs' ∈ readers, ∀ c' ∈ cs', c'.looks = true) (sched : List Nat)
    (hov : Prog.overtaken 0 sched ((cs :: readers).map Prog.history) s = false) (rs : List Reply) (later : List Cmd) :
    let fin := Prog.interleave sched ((cs :: readers).map Prog.history) s
    fin.1[0]?.bind Prog.result = some rs →
    rs = runReplies cs s ∧ fin.2.core = (runSt cs s).core ∧ runReplies later fin.2 = runReplies later (runSt cs s) := by
  intro fin hr
  obtain ⟨d, hs⟩ := h.holds
  obtain ⟨h1, h2, d', h3⟩ := among_calls (w := 0) hs hc sched _ rfl (readers_load hl) hov rs (pure_of_result hr)
  obtain ⟨d2, h4⟩ := holds_run cs hs
  exact ⟨h1, h2, (runs_same later h3 h4 h2.symm).1⟩

/-- A deletion and a put, two gets overlapping them, nothing put into the cache late. -/
example :
    let calls := [[.del (demoKey 4), .put (demoKey 4) none], [.get (demoKey 20)], [.get (demoKey 4)]].map Prog.history
    let sched := (List.range 700).map fun i => [2, 2, 2, 2, 0, 0, 1, 1].getD (i % 8) 0
    (Prog.interleave sched calls (runSt (demo ++ [.reopen]) St.init)).1.all (fun p => p.result.isSome) = true ∧
      Prog.overtaken 0 sched calls (runSt (demo ++ [.reopen]) St.init) = false := by
  decide +kernel

end Hyperbee
