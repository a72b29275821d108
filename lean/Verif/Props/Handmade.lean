import Verif.SpecCover
import Verif.Model.Handmade
import Verif.Proof.Alike
import Verif.Props.Traversal
/-!
# Traversals with a configuration made by hand (C83)

The fields of `TraverseConfig` are public, so a traversal may be asked for with bounds the builder
would have refused.
-/

namespace Hyperbee

/-- `xs` lists what `get` finds at the keys of `P`, each key once, in the order asked for. -/
def ListsAt (s : St) (reversed : Bool) (P : Bytes → Prop) (xs : List KeyValueData) : Prop :=
  (if reversed then xs.reverse else xs).Pairwise (fun a b => a.key < b.key) ∧
  ∀ e, e ∈ xs ↔ (exec (.get e.key) s).1 = .got (some (e.seq, e.value)) ∧ P e.key

theorem browse_holds {s : St} {d : Db} (h : Holds s d) (conf : TraverseConfig) (sched : List Bool) :
    Holds (browse conf sched s).2 d ∧ (browse conf sched s).2.core = s.core := by
  rcases h.store with hb | ⟨H, t, ht, hc, hcon⟩
  · unfold browse replyOf
    rw [collect_bare hb]
    exact ⟨h, rfl⟩
  · obtain ⟨conf', hA, hS, -, -⟩ := mended conf
    obtain ⟨xs, rest, fin, s', h1, e, -, -⟩ := collect_run ht h.wf hc hS sched
    have h2 := collect_alike hA ht h.wf hc sched
    rw [h1] at h2
    injection h2 with h2 h3
    have : (browse conf sched s).2 = (collect sched conf s).2 := by
      unfold browse replyOf
      generalize collect sched conf s = o
      obtain ⟨o1, o2⟩ := o
      cases o1 <;> rfl
    rw [this, ← h3]
    exact ⟨h.ext e, e.core⟩

theorem deeds_holds : ∀ (xs : List Deed) {s : St} {d : Db}, Holds s d → ∃ d', Holds (doDeeds xs s) d' := by
  intro xs
  induction xs with
  | nil => intro s d h; exact ⟨d, h⟩
  | cons x xs ih =>
    intro s d h
    cases x with
    | inl c => exact ih (exec_refines h c).2
    | inr p => exact ih (browse_holds h p.1 p.2).1

/-! ## C83 -/

/-- A traversal can yield an entry outside the interval it was given: the bounds here are 5 and 3,
both inclusive, and it yields the entry at 5. -/
theorem handmade_false : ∃ s conf sched xs, Reachable s ∧ (browse conf sched s).1 = .items xs true ∧
    ∃ e, .ok e ∈ xs ∧ ¬ InRange conf e.key := by
  refine ⟨runSt [.put [4] none, .put [5] none, .put [6] none] St.init, ⟨.finite [5], true, .finite [3], true, false⟩,
    List.replicate 9 true, [.ok ⟨2, [5], none⟩], ⟨_, rfl⟩, by decide +kernel, ⟨2, [5], none⟩, by simp, ?_⟩
  rintro ⟨_, h | ⟨_, h⟩⟩
  · exact absurd h (by decide)
  · exact absurd h (by decide)

/-- The same bounds the other way: nothing is yielded. -/
example : (browse ⟨.finite [5], true, .finite [3], true, true⟩ (List.replicate 9 true)
    (runSt [.put [4] none, .put [5] none, .put [6] none] St.init)).1 = .items [] true := by decide +kernel

/-- Exactly what a traversal yields, whatever its configuration, after any history of calls and of
traversals made by hand: without a root it fails with `NoRootError`; otherwise it yields the
stored entries it covers, in order and without errors, as far as it is polled, and then ends.  (What
it covers is the interval and, going forwards, an inclusive lower bound.)  It changes no later reply. -/
theorem handmade_exact (ds : List Deed) (conf : TraverseConfig) :
    (doDeeds ds St.init).core.length ≤ 1 ∧ (∀ sched, (browse conf sched (doDeeds ds St.init)).1 = .error .noRoot) ∨
    2 ≤ (doDeeds ds St.init).core.length ∧
      ∃ all full, ListsAt (doDeeds ds St.init) false (fun _ => True) all ∧
        ListsAt (doDeeds ds St.init) conf.reversed (Covers conf) full ∧ ∀ sched, ∃ xs fin,
        (browse conf sched (doDeeds ds St.init)).1 = .items (xs.map .ok) fin ∧ xs <+: full ∧ (fin = true → xs = full) ∧
        (5 + 4 * all.length ≤ sched.count true → fin = true) := by
  obtain ⟨d, hd⟩ := deeds_holds ds Holds.init
  generalize doDeeds ds St.init = s at hd
  rcases hd.store with hb | ⟨H, t, ht, hc, hcon⟩
  · refine .inl ⟨hb.1, fun sched => ?_⟩
    unfold browse replyOf
    rw [collect_bare hb]
  · refine .inr ⟨ht.two, ?_⟩
    obtain ⟨conf', hA, hS, hrev, hcov⟩ := mended conf
    have hl := hd.lists.mpr (listing_isListing ht hcon hS)
    have hl0 := hd.lists.mpr (listing_isListing ht hcon default_sound)
    have hlen : (listing s.core .default t).length = t.flat.length := by
      unfold listing
      rw [List.filter_eq_self.mpr (fun q _ => by
        rw [show TraverseConfig.default.inBounds (keyOf s.core q) = true from rfl])]
      rfl
    refine ⟨_, _, ⟨hl0.1, fun e => (hl0.2 e).trans ?_⟩, ⟨by rw [← hrev]; exact hl.1, fun e => (hl.2 e).trans ?_⟩,
      fun sched => ?_⟩
    · exact and_congr_right fun _ => ⟨fun _ => trivial, fun _ => default_range _⟩
    · exact and_congr_right fun _ => hcov _
    · obtain ⟨xs, rest, fin', s', h1, e1, ho, hfin⟩ := collect_run ht hd.wf hc hS sched
      have h2 := collect_alike hA ht hd.wf hc sched
      rw [h1] at h2
      injection h2 with h2 h3
      obtain ⟨fin, h4, h5⟩ : ∃ fin : Option (List Frame), (collect sched conf s).1 = .ok (xs.map fun q => .ok (kvOf s.core q), fin) ∧
          fin' = fin.map (List.map (Frame.withConf conf')) := by
        generalize (collect sched conf s).1 = o at h2
        cases o with
        | error e => cases h2
        | ok o =>
          obtain ⟨o1, o2⟩ := o
          injection h2 with h2
          injection h2 with h2 h3
          exact ⟨o2, by rw [h2], h3⟩
      have h6 : (browse conf sched s).1 = .items ((xs.map (kvOf s.core)).map .ok) fin'.isNone := by
        unfold browse replyOf
        generalize collect sched conf s = o at h4
        obtain ⟨o1, o2⟩ := o
        simp only at h4
        subst h4
        simp only [List.map_map, h5, Option.isNone_map]
        rfl
      refine ⟨xs.map (kvOf s.core), fin'.isNone, h6, ?_, ?_, ?_⟩
      · rw [ho, List.map_append]; exact List.prefix_append _ _
      · intro hf
        cases fin' with
        | some fs => cases hf
        | none => simp only at hfin; rw [ho, hfin, List.append_nil]
      · intro hcount
        cases fin' with
        | none => rfl
        | some fs =>
          obtain ⟨fuel', hst, hle⟩ := hfin
          have := hst.pos
          have := ht.good.cost_root
          rw [List.length_map, hlen] at hcount
          omega

/-- What a traversal covers is the interval it was given, unless it goes forwards and its bounds are
the wrong way round. -/
theorem covers_iff (conf : TraverseConfig) :
    (∀ k, Covers conf k ↔ InRange conf k) ↔ (conf.reversed = true ∨ ¬ Crossed conf) := by
  constructor
  · intro h
    cases hr : conf.reversed with
    | true => exact .inl rfl
    | false =>
      refine .inr ?_
      rintro ⟨lo, h1, h2, h3⟩
      exact h3 ((h lo).mp (.inr ⟨hr, h2, h1⟩)).2
  · intro h k
    refine ⟨?_, .inl⟩
    rintro (h1 | ⟨h1, h2, h3⟩)
    · exact h1
    · rcases h with h | h
      · rw [h1] at h; cases h
      · refine ⟨?_, Classical.byContradiction fun hb => h ⟨k, h3, h2, hb⟩⟩
        rw [h2, h3]
        exact .inr ⟨rfl, rfl⟩

/-- The full statement, that a traversal yields exactly the stored entries of its interval, in order,
for every configuration that goes backwards or has its bounds the right way round.

Missing from the full statement: traversals forwards with bounds the wrong way round, which yield the
entry at the lower bound (`handmade_false`, `handmade_exact`). -/
theorem handmade_partial (ds : List Deed) {conf : TraverseConfig} (h : conf.reversed = true ∨ ¬ Crossed conf)
    (h2 : 2 ≤ (doDeeds ds St.init).core.length) :
    ∃ full N, ListsAt (doDeeds ds St.init) conf.reversed (InRange conf) full ∧
      ∀ sched, N ≤ sched.count true → (browse conf sched (doDeeds ds St.init)).1 = .items (full.map .ok) true := by
  rcases handmade_exact ds conf with h1 | ⟨_, all, full, _, hf, hx⟩
  · omega
  · refine ⟨full, 5 + 4 * all.length, ⟨hf.1, fun e => (hf.2 e).trans (and_congr_right fun _ => (covers_iff conf).mpr h _)⟩,
      fun sched hs => ?_⟩
    obtain ⟨xs, fin, h3, _, h4, h5⟩ := hx sched
    have := h5 hs
    subst this
    rw [h3, h4 rfl]

/-- A range the builder refuses (an infinite lower and a finite upper bound), reversed, on a tree of
several levels, after a traversal with its bounds the wrong way round. -/
example : 2 ≤ (doDeeds (demo.map .inl ++ [.inr (⟨.finite (demoKey 5), true, .infinite .negative, true, false⟩, [true, true])]) St.init).core.length ∧
    (⟨some (.infinite .negative), none, some (.finite (demoKey 4)), some false, some true⟩ : TraverseConfigBuilder).build =
      .error .traverseConfigBuilder ∧
    (match (browse ⟨.infinite .negative, true, .finite (demoKey 4), false, true⟩ (List.replicate 60 true)
        (doDeeds (demo.map .inl ++ [.inr (⟨.finite (demoKey 5), true, .infinite .negative, true, false⟩, [true, true])]) St.init)).1 with
      | .items xs true => decide (xs.map (fun x => x.toOption.map (·.key)) =
          [some (demoKey 3), some (demoKey 2), some (demoKey 1), some (demoKey 0), some []])
      | _ => false) = true := by decide +kernel

/-- No traversal, whatever its configuration, changes a later reply or the core. -/
theorem handmade_quiet (ds : List Deed) (conf : TraverseConfig) (sched : List Bool) (cs : List Cmd) :
    (browse conf sched (doDeeds ds St.init)).2.core = (doDeeds ds St.init).core ∧
    runReplies cs (browse conf sched (doDeeds ds St.init)).2 = runReplies cs (doDeeds ds St.init) := by
  obtain ⟨d, hd⟩ := deeds_holds ds Holds.init
  obtain ⟨h1, h2⟩ := browse_holds hd conf sched
  exact ⟨h2, (runs_same cs hd h1 h2).1.symm⟩

end Hyperbee
