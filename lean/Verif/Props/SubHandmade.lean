import Verif.Proof.SubHandmade
import Verif.Props.Demo
/-!
# Traversals of a sub-database with a configuration made by hand (C105)
-/

namespace Hyperbee

/-! ## C105 -/

/-- Two ways a traversal of a sub-database leaves the interval it was given: going forwards from 5 to 3 it
yields the entry at 5; and an upper bound of minus infinity, which excludes every key, is taken for none. -/
theorem sub_handmade_false :
    let p : Prefixed := ⟨[97], defaultSeparator⟩
    let s := (p.exec (.put [5] none) (p.exec (.put [4] none) St.init).2).2
    Mixed s ∧
    (p.browse ⟨.finite [5], true, .finite [3], true, false⟩ (List.replicate 20 true) s).1 = .items [.ok ⟨2, [5], none⟩] true ∧
    ¬ InRange ⟨.finite [5], true, .finite [3], true, false⟩ [5] ∧
    (p.browse ⟨.infinite .negative, true, .infinite .negative, true, false⟩ (List.replicate 20 true) s).1 =
      .items [.ok ⟨1, [4], none⟩, .ok ⟨2, [5], none⟩] true ∧
    (browse ⟨.infinite .negative, true, .infinite .negative, true, false⟩ (List.replicate 20 true) s).1 = .items [] true ∧
    ∀ k, ¬ InRange ⟨.infinite .negative, true, .infinite .negative, true, false⟩ k := by
  refine ⟨⟨[(some ⟨[97], defaultSeparator⟩, .put [4] none), (some ⟨[97], defaultSeparator⟩, .put [5] none)], rfl⟩, by decide +kernel, ?_,
    by decide +kernel, by decide +kernel, fun k h => h.2⟩
  rintro ⟨_, h | ⟨_, h⟩⟩
  · exact absurd h (by decide)
  · exact absurd h (by decide)

/-- Exactly what a traversal of a sub-database does, whatever the configuration, the prefix and the separator,
after any history of calls and of traversals made by hand, on the database and through sub-databases: without a
root it fails with `NoRootError`; otherwise it goes through the stored entries it covers (`SubCovers`), in order,
and yields each under its key without the first bytes, as many as prefix and separator have; it panics when it
comes to a key with fewer bytes, and else ends behind the last. -/
theorem sub_handmade_exact (ds : List (Option Prefixed × Deed)) (p : Prefixed) (conf : TraverseConfig) :
    (doDeedsVia ds St.init).core.length ≤ 1 ∧ (∀ sched, (p.browse conf sched (doDeedsVia ds St.init)).1 = .error .noRoot) ∨
    2 ≤ (doDeedsVia ds St.init).core.length ∧
    ∃ (all : List KeyValueData) (N : Nat), ListsAt (doDeedsVia ds St.init) conf.reversed (SubCovers p conf) all ∧
      ∀ sched, ∃ xs rest, all = xs ++ rest ∧ (∀ e ∈ xs, p.pre.length + p.sep.length ≤ e.key.length) ∧
        ((∃ fin, (p.browse conf sched (doDeedsVia ds St.init)).1 =
            .items (xs.map fun e => .ok { e with key := e.key.drop (p.pre.length + p.sep.length) }) fin ∧
            (fin = true → rest = []) ∧ (N ≤ sched.count true → fin = true)) ∨
          (p.browse conf sched (doDeedsVia ds St.init)).1 = .error (.panic "prefixed.rs:171 key.drain(..len_drain)") ∧
            ∃ e rest', rest = e :: rest' ∧ e.key.length < p.pre.length + p.sep.length) := by
  obtain ⟨d, hd⟩ := deedsVia_holds ds init_holds
  generalize doDeedsVia ds St.init = s at hd
  rcases hd.store with hb | ⟨H, t, ht, _, _⟩
  · refine .inl ⟨hb.1, fun sched => ?_⟩
    unfold Prefixed.browse replyOf
    rw [p.collect_bare hb]
  · exact .inr ⟨ht.two, sub_handmade_aux hd ht.two p conf⟩

/-- The full statement, that a traversal of a sub-database yields exactly its entries in the interval, in order,
when both bounds are keys and it goes backwards or they are the right way round.

Missing from the full statement: bounds the wrong way round going forwards, and bounds left open or given as an
infinity, where it is false (`sub_handmade_false`, C25); what is yielded then says `sub_handmade_exact`. -/
theorem sub_handmade_partial (ds : List (Option Prefixed × Deed)) (p : Prefixed) {conf : TraverseConfig} {lo hi : Bytes}
    (h1 : conf.minValue = .finite lo) (h2 : conf.maxValue = .finite hi) (h : conf.reversed = true ∨ ¬ Crossed conf)
    (hl : 2 ≤ (doDeedsVia ds St.init).core.length) :
    ∃ full N, SubLists p (doDeedsVia ds St.init) conf full ∧
      ∀ sched, N ≤ sched.count true → (p.browse conf sched (doDeedsVia ds St.init)).1 = .items (full.map .ok) true := by
  obtain ⟨d, hd⟩ := deedsVia_holds ds init_holds
  exact sub_covers_lists hd hl p conf fun k _ => subCovers_two h1 h2 h k

/-- No traversal of a sub-database, whatever its configuration, changes a later reply or the core; not even one
that panics. -/
theorem sub_handmade_quiet (ds : List (Option Prefixed × Deed)) (p : Prefixed) (conf : TraverseConfig) (sched : List Bool) (cs : List Cmd) :
    (p.browse conf sched (doDeedsVia ds St.init)).2.core = (doDeedsVia ds St.init).core ∧
    runReplies cs (p.browse conf sched (doDeedsVia ds St.init)).2 = runReplies cs (doDeedsVia ds St.init) := by
  obtain ⟨d, hd⟩ := deedsVia_holds ds init_holds
  have hx := p.browse_ext hd conf sched
  exact ⟨hx.core, (runs_same cs hd (hx.holds hd) hx.core).1.symm⟩

/-- A sub-database beside another whose name continues its own and a key that is its name, after a traversal that
panicked; read backwards between two keys the builder would take, and between two the wrong way round. -/
def demoSubDeeds : List (Option Prefixed × Deed) :=
  [(some ⟨[97], [0]⟩, .inl (.put [1] none)), (some ⟨[97, 98], [0]⟩, .inl (.put [5] none)), (some ⟨[97], [0]⟩, .inl (.put [3] none)),
    (none, .inl (.put [97] none)), (some ⟨[97], [0]⟩, .inr (.default, [true, true, true, true, true, true]))]

example : 2 ≤ (doDeedsVia demoSubDeeds St.init).core.length ∧
    ¬ Crossed ⟨.finite [1], true, .finite [4], false, true⟩ ∧
    (Prefixed.browse ⟨[97], [0]⟩ ⟨.finite [1], true, .finite [4], false, true⟩ (List.replicate 20 true) (doDeedsVia demoSubDeeds St.init)).1 =
      .items [.ok ⟨3, [3], none⟩, .ok ⟨1, [1], none⟩] true ∧
    (Prefixed.browse ⟨[97], [0]⟩ ⟨.finite [3], true, .finite [1], false, false⟩ (List.replicate 20 true) (doDeedsVia demoSubDeeds St.init)).1 =
      .items [.ok ⟨3, [3], none⟩] true ∧
    (Prefixed.browse ⟨[97], [0]⟩ .default (List.replicate 20 true) (doDeedsVia demoSubDeeds St.init)).1 =
      .error (.panic "prefixed.rs:171 key.drain(..len_drain)") := by
  refine ⟨by decide +kernel, ?_, by decide +kernel, by decide +kernel, by decide +kernel⟩
  rintro ⟨lo, h, _, h'⟩
  cases h
  exact h' (.inl (by decide))

end Hyperbee
