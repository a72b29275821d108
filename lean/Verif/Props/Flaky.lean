import Verif.Proof.FlakyStream
import Verif.Proof.FlakyLeaf
import Verif.Props.Demo
/-!
# Reads that fail

Properties C71 and C72.
-/

namespace Hyperbee

/-- Ten keys in two leaves, and nothing loaded yet. -/
def demoTen : St := runSt (([1, 2, 3, 4, 5, 6, 7, 8, 9, 10].map fun k => .put [k] none) ++ [.reopen]) St.init

theorem demoTen_reachable : Reachable demoTen := ⟨_, rfl⟩

/-! ## C71 -/

/-- A failed read can destroy keys: the deletion of one key returns an I/O error, another key is gone,
and after the next put it is gone for good. -/
theorem read_error_harmless_false : ∃ s, Reachable s ∧ ∃ fs,
    runReplies [.get [9], .put [0] none, .reopen, .get [9]] s =
      [.got (some (9, none)), .put none 11, .opened, .got (some (9, none))] ∧
    (runFlaky [(.del [5], fs), (.get [9], []), (.put [0] none, []), (.reopen, []), (.get [9], [])] s).1 =
      [.error .core, .got none, .put none 11, .opened, .got none] :=
  ⟨demoTen, demoTen_reachable, List.replicate 20 none ++ [some .io], by decide +kernel, by decide +kernel⟩

theorem ReadErr.readError {e : Err} (h : ReadErr e) : Reply.readError (.error e) = true := by cases h <;> rfl

theorem readError_iff {r : Reply} : r.readError = true ↔ ∃ e, ReadErr e ∧ r = .error e := by
  constructor
  · intro h
    cases r with
    | error e =>
      cases e <;> first | exact ⟨_, .io, rfl⟩ | exact ⟨_, .missing _, rfl⟩ | exact absurd h (by simp [Reply.readError])
    | _ => exact absurd h (by simp [Reply.readError])
  · rintro ⟨e, h, rfl⟩
    exact h.readError

theorem execFlaky_of {c : Cmd} (hc : c ≠ .reopen) (fs : List (Option Fault)) (s : St) {r : Reply}
    (h : ((Prog.exec c).flaky fs s).1 = .ok r) : execFlaky fs c s = (r, ((Prog.exec c).flaky fs s).2) := by
  unfold execFlaky
  split
  · exact absurd rfl hc
  · cases hx : (Prog.exec c).flaky fs s with
    | mk o t =>
      rw [hx] at h
      cases h
      rfl

/-- One call with failing reads that is no deletion, or deletes nothing, or deletes what can be spared. -/
theorem execFlaky_cases {s : St} {d : Db} (h : Holds s d) (c : Cmd) (fs : List (Option Fault))
    (hno : c.deletes = true → effect c (exec c s).1 = none ∨ c.Sparing s.core) :
    (∃ e, ReadErr e ∧ (execFlaky fs c s).1 = .error e ∧ Ext s (execFlaky fs c s).2) ∨
    ((execFlaky fs c s).1.readError = false ∧ (execFlaky fs c s).2.core = (exec c s).2.core ∧
      (∃ d', Holds (execFlaky fs c s).2 d') ∧ (c.walks = false → (execFlaky fs c s).1 = (exec c s).1)) := by
  have hread : ∀ {r}, d.Returns c r → r.readError = false := by
    intro r hr
    cases c with
    | traverse b sched =>
      simp only [Db.Returns] at hr
      cases hb : b.build with
      | error e =>
        have : e = .traverseConfigBuilder := by
          unfold TraverseConfigBuilder.build at hb
          split at hb <;> cases hb
          rfl
        rw [hb] at hr
        rw [hr, this]; rfl
      | ok conf =>
        rw [hb] at hr
        simp only [] at hr
        split at hr
        · rw [hr]; rfl
        · obtain ⟨_, _, _, _, hr, _⟩ := hr
          rw [hr]; rfl
    | createHeader m =>
      simp only [Db.Returns] at hr
      rw [hr]
      split <;> rfl
    | _ => rw [show r = _ from hr]; rfl
  have hex := exec_refines h c
  have same : execFlaky fs c s = exec c s → (∃ e, ReadErr e ∧ (execFlaky fs c s).1 = .error e ∧ Ext s (execFlaky fs c s).2) ∨
    ((execFlaky fs c s).1.readError = false ∧ (execFlaky fs c s).2.core = (exec c s).2.core ∧
      (∃ d', Holds (execFlaky fs c s).2 d') ∧ (c.walks = false → (execFlaky fs c s).1 = (exec c s).1)) := by
    intro he
    rw [he]
    exact .inr ⟨hread hex.1, rfl, ⟨_, hex.2⟩, fun _ => rfl⟩
  have conv : c ≠ .reopen → ((((Prog.exec c).flaky fs s).1 = .ok (exec c s).1 ∧ ((Prog.exec c).flaky fs s).2 = (exec c s).2) ∨
      ∃ e, ReadErr e ∧ ((Prog.exec c).flaky fs s).1 = .ok (.error e) ∧ Ext s ((Prog.exec c).flaky fs s).2) →
      (∃ e, ReadErr e ∧ (execFlaky fs c s).1 = .error e ∧ Ext s (execFlaky fs c s).2) ∨
    ((execFlaky fs c s).1.readError = false ∧ (execFlaky fs c s).2.core = (exec c s).2.core ∧
      (∃ d', Holds (execFlaky fs c s).2 d') ∧ (c.walks = false → (execFlaky fs c s).1 = (exec c s).1)) := by
    rintro hr (⟨g1, g2⟩ | ⟨e, g1, g2, g3⟩)
    · exact same (by rw [execFlaky_of hr fs s g1, g2])
    · left
      rw [execFlaky_of hr fs s g2]
      exact ⟨e, g1, rfl, g3⟩
  cases c with
  | reopen => exact same rfl
  | version =>
    refine same ?_
    have hv := (noFetch_version.flakes (flaky_flakes Prog.version fs s)).symm
    have hr := replyOf_flaky .version Prog.version fs s
    rw [show ((Prog.version.flaky fs s).1, (Prog.version.flaky fs s).2) = Prog.version.flaky fs s from rfl] at hv
    rw [hv] at hr
    exact execFlaky_of (c := .version) (by simp) fs s (congrArg Prod.fst hr) |>.trans (by rw [show (Prog.exec .version).flaky fs s = _ from hr]; rfl)
  | get k => exact conv (by simp) (flakes_exec h (.inr ⟨k, rfl⟩) (flaky_flakes _ fs s))
  | put k v => exact conv (by simp) (flakes_exec h (.inl rfl) (flaky_flakes _ fs s))
  | putCas k v cas => exact conv (by simp) (flakes_exec h (.inl rfl) (flaky_flakes _ fs s))
  | createHeader m => exact conv (by simp) (flakes_exec h (.inl rfl) (flaky_flakes _ fs s))
  | del k =>
    refine conv (by simp) ?_
    rcases hno rfl with hno | ⟨u, k', hu, hk, hcmd⟩
    · exact flakes_del_idle h (.inl ⟨k, rfl⟩) hno (flaky_flakes _ fs s)
    · rcases h.store with hb | ⟨H, t, ht, hc, _⟩
      · refine flakes_del_idle h (.inl ⟨k, rfl⟩) ?_ (flaky_flakes _ fs s)
        rw [show (exec (.del k) s).1 = _ from hex.1, hb.2]
        rfl
      · rw [hu.unique ht.stores] at hk
        exact flakes_del_spare ht h.wf hc hk hcmd (flaky_flakes _ fs s)
  | delCas k cas =>
    refine conv (by simp) ?_
    rcases hno rfl with hno | ⟨u, k', hu, hk, hcmd⟩
    · exact flakes_del_idle h (.inr ⟨k, cas, rfl⟩) hno (flaky_flakes _ fs s)
    · rcases h.store with hb | ⟨H, t, ht, hc, _⟩
      · refine flakes_del_idle h (.inr ⟨k, cas, rfl⟩) ?_ (flaky_flakes _ fs s)
        rw [show (exec (.delCas k cas) s).1 = _ from hex.1, hb.entry]
        rfl
      · rw [hu.unique ht.stores] at hk
        exact flakes_del_spare ht h.wf hc hk hcmd (flaky_flakes _ fs s)
  | traverse b sched =>
    rcases h.store with hb | ⟨H, t, ht, hc, hcon⟩
    · exact same (traverse_refused (.inl hb.1) sched fs)
    · cases hb : b.build with
      | error e => exact same (traverse_refused (.inr ⟨e, hb⟩) sched fs)
      | ok conf =>
        obtain ⟨e1, h1⟩ := traverse_flakes ht h.wf hc hb sched fs
        have hcore : (exec (.traverse b sched) s).2.core = s.core := by
          obtain ⟨xs, rest, fin, s', g1, g2, _⟩ := collect_run ht h.wf hc (build_sound hb) sched
          have : (exec (.traverse b sched) s).2 = s' := by
            simp only [exec, Hyperbee.replyOf, traverseSession, hb]
            rw [bind_ok g1]
            rfl
          rw [this, g2.core]
        rcases h1 with ⟨e, h1, h2⟩ | ⟨xs, fin, rest, h1, _⟩ | ⟨h1, _⟩
        · exact .inl ⟨e, h1, h2, e1⟩
        · refine .inr ⟨by rw [h1]; rfl, by rw [hcore, e1.core], ⟨d, h.ext e1⟩, fun h => by cases h⟩
        · refine .inr ⟨by rw [h1]; rfl, by rw [hcore, e1.core], ⟨d, h.ext e1⟩, fun h => by cases h⟩

/-- C71 for one call, other than a deletion that would delete something from a leaf that cannot spare it
or from a node above the leaves: if it returns the error of a failed read, it has had no effect, on the core or on anything asked through this handle ever after; and
otherwise it has had the effect it has when no read fails, and the reply too unless it is a traversal
(C72).  (For other deletions see `read_error_del_partial`.) -/
theorem read_error_harmless_partial {s : St} (hs : Reachable s) (c : Cmd) (fs : List (Option Fault))
    (hno : c.deletes = true → effect c (exec c s).1 = none ∨ c.Sparing s.core) (later : List Cmd) :
    ((execFlaky fs c s).1.readError = true ∧ (execFlaky fs c s).2.core = s.core ∧
      runReplies later (execFlaky fs c s).2 = runReplies later s) ∨
    ((c.walks = false → (execFlaky fs c s).1 = (exec c s).1) ∧ (execFlaky fs c s).2.core = (exec c s).2.core ∧
      runReplies later (execFlaky fs c s).2 = runReplies later (exec c s).2) := by
  obtain ⟨d, h⟩ := hs.holds
  rcases execFlaky_cases h c fs hno with ⟨e, h1, h2, h3⟩ | ⟨_, h2, ⟨d', h3⟩, h4⟩
  · refine .inl ⟨by rw [h2]; exact h1.readError, h3.core, ?_⟩
    exact (runs_same later (h.ext h3) h h3.core.symm).1
  · exact .inr ⟨h4, h2, (runs_same later h3 (exec_refines h c).2 h2.symm).1⟩

/-- A put and a refused deletion whose reads fail, and a put that meets with no failure. -/
example : (execFlaky (List.replicate 20 none ++ [some .io]) (.put [4] none) demoTen).1 = .error .core ∧
    (execFlaky (List.replicate 8 none ++ [some .missing]) (.delCas [5] fun _ => false) demoTen).1 = .error (.noBlockAtSeq 5) ∧
    effect (.delCas [5] fun _ => false) (exec (.delCas [5] fun _ => false) demoTen).1 = none ∧
    (execFlaky (List.replicate 30 none ++ [some .io]) (.put [10] none) demoTen).1 = .put (some 10) 11 := by
  decide +kernel

/-- The tree of `demoTen`: the second leaf can spare a key, the first cannot. -/
theorem demoTen_stores : StoresRoot demoTen.core (.node [(5, [5])] [.node ([1, 2, 3, 4].map fun k => (k.toNat, [k])) [],
    .node ([6, 7, 8, 9, 10].map fun k => (k.toNat, [k])) []]) := by
  have key : ∀ k : Fin 11, k ≠ 0 → (wireBlock demoTen.core k).map (·.1.key) = some [k.val.toUInt8] := by decide +kernel
  have bytes : ∀ k : Fin 11, k ≠ 0 → ∃ m' ls', wireBlock demoTen.core k = some (m', ls') ∧ m'.key = [k.val.toUInt8] := by
    intro k hk
    obtain ⟨x, h1, h2⟩ := Option.map_eq_some_iff.mp (key k hk)
    exact ⟨x.1, x.2, h1, h2⟩
  have nodes : (wireBlock demoTen.core 10).map (·.2) = some [⟨[5], [9, 1, 10, 1]⟩, ⟨[6, 7, 8, 9, 10], []⟩] ∧
      (wireBlock demoTen.core 9).map (·.2) = some [⟨[5], [9, 1, 9, 2]⟩, ⟨[1, 2, 3, 4], []⟩, ⟨[6, 7, 8, 9], []⟩] := by
    decide +kernel
  have len : demoTen.core.length - 1 = 10 := by decide +kernel
  unfold StoresRoot
  rw [len]
  clear key len
  generalize demoTen.core = c at *
  obtain ⟨x, h1, h2⟩ := Option.map_eq_some_iff.mp nodes.1
  obtain ⟨y, h3, h4⟩ := Option.map_eq_some_iff.mp nodes.2
  refine .mk (m := x.1) (ls := x.2) (l := ⟨[5], [9, 1, 10, 1]⟩) (refs := [(9, 1), (10, 1)]) h1 (by rw [h2]; rfl) rfl ?_ rfl rfl ?_
  · intro k hk
    rw [List.mem_singleton.mp hk]
    exact bytes 5 (by decide)
  · intro j r t hr ht
    match j with
    | 0 =>
      cases hr; cases ht
      refine .mk (m := y.1) (ls := y.2) (l := ⟨[1, 2, 3, 4], []⟩) (refs := []) h3 (by rw [h4]; rfl) rfl ?_ rfl rfl (by simp)
      intro k hk
      simp only [List.map_cons, List.map_nil, List.mem_cons, List.not_mem_nil, or_false] at hk
      rcases hk with rfl | rfl | rfl | rfl
      · exact bytes 1 (by decide)
      · exact bytes 2 (by decide)
      · exact bytes 3 (by decide)
      · exact bytes 4 (by decide)
    | 1 =>
      cases hr; cases ht
      refine .mk (m := x.1) (ls := x.2) (l := ⟨[6, 7, 8, 9, 10], []⟩) (refs := []) h1 (by rw [h2]; rfl) rfl ?_ rfl rfl (by simp)
      intro k hk
      simp only [List.map_cons, List.map_nil, List.mem_cons, List.not_mem_nil, or_false] at hk
      rcases hk with rfl | rfl | rfl | rfl | rfl
      · exact bytes 6 (by decide)
      · exact bytes 7 (by decide)
      · exact bytes 8 (by decide)
      · exact bytes 9 (by decide)
      · exact bytes 10 (by decide)
    | j + 2 => cases hr

theorem demoTen_spares : Cmd.Sparing demoTen.core (.del [9]) :=
  ⟨_, [9], demoTen_stores, ⟨_, by simp [STree.subtrees, STree.subtrees.below]; exact .inr (.inr rfl), rfl, by decide, .inl (by decide)⟩,
    .inl rfl⟩

/-- A deletion from it, whose last read fails. -/
example : Cmd.Sparing demoTen.core (.del [9]) ∧
    (execFlaky (List.replicate 22 none ++ [some .io]) (.del [9]) demoTen).1 = .error .core ∧
    (execFlaky (List.replicate 23 none ++ List.replicate 60 (some .io)) (.del [9]) demoTen).1 = .del (some 9) :=
  ⟨demoTen_spares, by decide +kernel, by decide +kernel⟩

/-- Two leaves of four keys, neither of which can spare any; the first is in the newest block. -/
def demoThin : St := runSt (([1, 2, 3, 4, 5, 6, 7, 8, 9, 1].map fun k => .put [k] none) ++ [.reopen]) St.init

/-- The condition on the leaf is needed: a deletion from a leaf of four keys returns an I/O error, and the
key is gone. -/
theorem spare_needed : ∃ s fs, Reachable s ∧
    (wireBlock s.core 10).map (·.2) = some [⟨[5], [10, 1, 9, 2]⟩, ⟨[10, 2, 3, 4], []⟩] ∧
    (execFlaky fs (.del [1]) s).1 = .error .core ∧ (exec (.get [1]) s).1 = .got (some (10, none)) ∧
    (exec (.get [1]) (execFlaky fs (.del [1]) s).2).1 = .got none :=
  ⟨demoThin, List.replicate 36 none ++ [some .io], ⟨_, rfl⟩, by decide +kernel, by decide +kernel, by decide +kernel, by decide +kernel⟩

/-- C71 for deletions: one that returns the error of a failed read has not changed the core, so every
handle opened later is as if it had not been made; and otherwise it did what it does when no read fails. -/
theorem read_error_del_partial {s : St} (c : Cmd) (hc : c.deletes = true) (fs : List (Option Fault)) (later : List Cmd) :
    ((execFlaky fs c s).1.readError = true ∧ (execFlaky fs c s).2.core = s.core ∧
      runReplies (.reopen :: later) (execFlaky fs c s).2 = runReplies (.reopen :: later) s) ∨
    execFlaky fs c s = exec c s := by
  have conv : c ≠ .reopen → ((((Prog.exec c).flaky fs s).1 = .ok (exec c s).1 ∧ ((Prog.exec c).flaky fs s).2 = (exec c s).2) ∨
      ∃ e, ReadErr e ∧ ((Prog.exec c).flaky fs s).1 = .ok (.error e) ∧ ((Prog.exec c).flaky fs s).2.core = s.core) →
      ((execFlaky fs c s).1.readError = true ∧ (execFlaky fs c s).2.core = s.core ∧
      runReplies (.reopen :: later) (execFlaky fs c s).2 = runReplies (.reopen :: later) s) ∨
    execFlaky fs c s = exec c s := by
    rintro hr (⟨g1, g2⟩ | ⟨e, g1, g2, g3⟩)
    · exact .inr (by rw [execFlaky_of hr fs s g1, g2])
    · left
      rw [execFlaky_of hr fs s g2]
      refine ⟨g1.readError, g3, ?_⟩
      simp only [runReplies, run, exec, g3]
  cases c with
  | del k => exact conv (by simp) (flakes_del (.inl ⟨k, rfl⟩) (flaky_flakes _ fs s))
  | delCas k cas => exact conv (by simp) (flakes_del (.inr ⟨k, cas, rfl⟩) (flaky_flakes _ fs s))
  | _ => cases hc

/-- The deletion of the refutation. -/
example : (execFlaky (List.replicate 20 none ++ [some .io]) (.del [5]) demoTen).1 = .error .core ∧
    runReplies [.reopen, .get [9], .get [5]] (execFlaky (List.replicate 20 none ++ [some .io]) (.del [5]) demoTen).2 =
      [.opened, .got (some (9, none)), .got (some (5, none))] := by
  decide +kernel

theorem runFlaky_same : ∀ (calls : List (Cmd × List (Option Fault))) {s t : St} {d e : Db}, Holds s d → Holds t e →
    s.core = t.core →
    (∀ i c fs r, calls[i]? = some (c, fs) → (runFlaky calls s).1[i]? = some r → c.deletes = true → r.readError = true →
      effect c (exec c (runFlaky (calls.take i) s).2).1 = none ∨ c.Sparing (runFlaky (calls.take i) s).2.core) →
    let heard := ((calls.map (·.1)).zip (runFlaky calls s).1).filter fun p => !p.2.readError
    (∃ d', Holds (runFlaky calls s).2 d') ∧ (runFlaky calls s).2.core = (runSt (heard.map (·.1)) t).core ∧
    List.Forall₂ (fun p r => p.1.walks = true ∨ p.2 = r) heard (runReplies (heard.map (·.1)) t) := by
  intro calls
  induction calls with
  | nil => intro s t d e h _ hc _; exact ⟨⟨d, h⟩, hc, .nil⟩
  | cons x calls ih =>
    obtain ⟨c, fs⟩ := x
    intro s t d e h h' hc hdel heard
    have hrun : runFlaky ((c, fs) :: calls) s = ((execFlaky fs c s).1 :: (runFlaky calls (execFlaky fs c s).2).1,
      (runFlaky calls (execFlaky fs c s).2).2) := rfl
    have hheard : heard = (if (execFlaky fs c s).1.readError then [] else [(c, (execFlaky fs c s).1)]) ++
        ((calls.map (·.1)).zip (runFlaky calls (execFlaky fs c s).2).1).filter fun p => !p.2.readError := by
      show List.filter _ (List.zip (c :: calls.map (·.1)) (runFlaky ((c, fs) :: calls) s).1) = _
      rw [hrun, List.zip_cons_cons, List.filter_cons]
      cases (execFlaky fs c s).1.readError <;> rfl
    have hdel1 : c.deletes = true → (execFlaky fs c s).1.readError = true → effect c (exec c s).1 = none ∨ c.Sparing s.core :=
      hdel 0 c fs _ rfl (by rw [hrun]; rfl)
    have hdel' : ∀ i c' fs' r, calls[i]? = some (c', fs') → (runFlaky calls (execFlaky fs c s).2).1[i]? = some r →
        c'.deletes = true → r.readError = true →
        effect c' (exec c' (runFlaky (calls.take i) (execFlaky fs c s).2).2).1 = none ∨
          c'.Sparing (runFlaky (calls.take i) (execFlaky fs c s).2).2.core := by
      intro i c' fs' r h1 h2
      exact hdel (i + 1) c' fs' r h1 (by rw [hrun]; exact h2)
    have step : (∃ e, ReadErr e ∧ (execFlaky fs c s).1 = .error e ∧ Ext s (execFlaky fs c s).2) ∨
        ((execFlaky fs c s).1.readError = false ∧ (execFlaky fs c s).2.core = (exec c s).2.core ∧
          (∃ d', Holds (execFlaky fs c s).2 d') ∧ (c.walks = false → (execFlaky fs c s).1 = (exec c s).1)) := by
      by_cases hcd : c.deletes = true
      · cases hre : (execFlaky fs c s).1.readError with
        | true => exact hre ▸ execFlaky_cases h c fs fun _ => hdel1 hcd hre
        | false =>
          rcases read_error_del_partial (s := s) c hcd fs [] with ⟨g1, _⟩ | g1
          · rw [hre] at g1; cases g1
          · exact .inr ⟨rfl, by rw [g1], ⟨_, by rw [g1]; exact (exec_refines h c).2⟩, fun _ => by rw [g1]⟩
      · exact execFlaky_cases h c fs fun hx => absurd hx hcd
    rcases step with ⟨er, h1, h2, h3⟩ | ⟨h1, h2, ⟨d', h3⟩, h4⟩
    · obtain ⟨g1, g2, g3⟩ := ih (h.ext h3) h' (by rw [h3.core, hc]) hdel'
      rw [hheard, h2, h1.readError]
      exact ⟨g1, g2, g3⟩
    · obtain ⟨k1, k2⟩ := calls_same h h' hc.symm c
      obtain ⟨g1, g2, g3⟩ := ih (t := (exec c t).2) h3 (exec_refines h' c).2 (by rw [h2, k2]) hdel'
      rw [hheard, h1]
      refine ⟨g1, g2, .cons ?_ g3⟩
      cases htr : c.walks with
      | true => exact .inl rfl
      | false => exact .inr ((h4 htr).trans k1)

/-- C71 for histories: reads fail as they please in a history of calls, and no deletion returns the
error of a failed read unless it would have deleted nothing, or from a leaf that could spare the key.  Leave out the calls that did; the others, made when no read fails, reply the
same (but for the traversals), leave the same core, and are followed by the same replies. -/
theorem read_errors_harmless_partial (calls : List (Cmd × List (Option Fault))) (later : List Cmd) :
    let replies := (runFlaky calls St.init).1
    let heard := ((calls.map (·.1)).zip replies).filter fun p => !p.2.readError
    (∀ i c fs r, calls[i]? = some (c, fs) → replies[i]? = some r → c.deletes = true → r.readError = true →
      let before := (runFlaky (calls.take i) St.init).2
      effect c (exec c before).1 = none ∨ c.Sparing before.core) →
    List.Forall₂ (fun p r => p.1.walks = true ∨ p.2 = r) heard (runReplies (heard.map (·.1)) St.init) ∧
    (runFlaky calls St.init).2.core = (runSt (heard.map (·.1)) St.init).core ∧
    runReplies later (runFlaky calls St.init).2 = runReplies later (runSt (heard.map (·.1)) St.init) := by
  intro replies heard hdel
  have h0 : Holds St.init Db.empty := Holds.init
  obtain ⟨⟨d, h1⟩, h2, h3⟩ := runFlaky_same calls h0 h0 rfl hdel
  obtain ⟨d', h4⟩ := holds_run (heard.map (·.1)) h0
  exact ⟨h3, h2, (runs_same later h1 h4 h2.symm).1⟩

/-- Reads fail in a put, which is made again, and in a lookup; a deletion is lucky. -/
example :
    let calls : List (Cmd × List (Option Fault)) := (([1, 2, 3, 4, 5, 6, 7, 8, 9, 10].map fun k => (.put [k] none, [])) : List (Cmd × List (Option Fault))) ++
      [(.reopen, []), (.put [4] (some [1]), List.replicate 20 none ++ [some .io]),
        (.put [4] (some [1]), List.replicate 60 none ++ [some .io]), (.get [1], [none, none, some .missing]),
        (.del [2], List.replicate 99 none ++ [some .io])]
    (runFlaky calls St.init).1.drop 11 = [.error .core, .put (some 4) 11, .error (.noBlockAtSeq 11), .del (some 2)] ∧
      ((calls.map (·.1)).zip (runFlaky calls St.init).1).all (fun p => !p.1.deletes || !p.2.readError) = true := by
  decide +kernel

/-- After them a deletion whose read fails, and which could have spared the key. -/
example :
    let calls : List (Cmd × List (Option Fault)) := (([1, 2, 3, 4, 5, 6, 7, 8, 9, 10].map fun k => (.put [k] none, [])) : List (Cmd × List (Option Fault))) ++
      [(.reopen, []), (.del [9], List.replicate 22 none ++ [some .io])]
    (runFlaky calls St.init).1.drop 11 = [.error .core] ∧
      Cmd.Sparing (runFlaky (calls.take 11) St.init).2.core (.del [9]) := by
  intro calls
  refine ⟨by decide +kernel, ?_⟩
  have h : (runFlaky (calls.take 11) St.init).2.core = demoTen.core := by decide +kernel
  rw [h]
  exact demoTen_spares

/-! ## C72 -/

/-- A traversal need not survive a failed read: it yields the error, and panics when polled again. -/
theorem traverse_gaps_false : ∃ s, Reachable s ∧ ∃ fs b,
    (execFlaky fs (.traverse b (List.replicate 4 true)) s).1 = .items [.error (.buildIteratorInTraverse .core)] false ∧
    (execFlaky fs (.traverse b (List.replicate 5 true)) s).1 =
      .error (.panic "traverse.rs:402 `async fn` resumed after completion") :=
  ⟨demoTen, demoTen_reachable, List.replicate 9 none ++ [some .io], ⟨some (.finite [3]), none, none, none, none⟩, by decide +kernel, by decide +kernel⟩

theorem Skipped.gapErr {e : Err} (h : Skipped e) : GapErr e := by
  rcases h with h | ⟨e, h, rfl⟩
  · exact .key h
  · exact .child h

theorem Ended.endsAtStart {xs : List (Except Err KeyValueData)} (h : Ended xs) : EndsAtStart xs := by
  obtain ⟨_, h1, e, h2, rfl⟩ := h
  exact ⟨e, h2, h1⟩

/-- C72: reads fail as they please during a traversal.  It cannot be created; or the items account for
the listing of the database: each entry was yielded in its place, or an error in its place stands for
it and its neighbours, or it is still to come, and none is if the stream has ended; or it panics, having
yielded as its last item that it could not find its place in a node.  Without such an item, enough polls
bring it to its end. -/
theorem traverse_gaps_partial (cs : List Cmd) {b : TraverseConfigBuilder} {conf : TraverseConfig} (hb : b.build = .ok conf)
    (hv : 2 ≤ (Db.empty.after cs).version) :
    ∃ full N, IsListing (Db.empty.after cs) conf full ∧ ∀ sched fs,
      let r := (execFlaky fs (.traverse b sched) (runSt cs St.init)).1
      r.readError = true ∨
      (∃ xs fin rest, r = .items xs fin ∧ Account xs full rest ∧ (∀ e, .error e ∈ xs → GapErr e) ∧ (fin = true → rest = []) ∧
        (fin = false → N < sched.count true → EndsAtStart xs)) ∨
      (r = .error (.panic "traverse.rs:402 `async fn` resumed after completion") ∧ ∃ before xs, before <+: sched ∧
        (execFlaky fs (.traverse b before) (runSt cs St.init)).1 = .items xs false ∧ EndsAtStart xs) := by
  have h := (run_refines cs Holds.init).2
  rcases h.store with hbare | ⟨H, t, ht, hc, hcon⟩
  · have := hbare.1
    rw [← h.ver] at this
    omega
  · refine ⟨_, t.cost, listing_isListing ht hcon (build_sound hb), fun sched fs => ?_⟩
    rcases (traverse_flakes ht h.wf hc hb sched fs).2 with ⟨e, h1, h2⟩ | ⟨xs, fin, rest, h1, h2, h3, h4, h5⟩ | ⟨h1, before, xs, h2, h3, h4⟩
    · exact .inl (readError_iff.mpr ⟨e, h1, h2⟩)
    · refine .inr (.inl ⟨xs, fin, rest, h1, h2, fun e he => ?_, h4, fun hf hN => ?_⟩)
      · rcases h3 e he with h | ⟨e, h, rfl⟩
        · exact h.gapErr
        · exact .start h
      · rcases h5 hf with h | h
        · exact h.endsAtStart
        · omega
    · exact .inr (.inr ⟨h1, before, xs, h2, h3, h4.endsAtStart⟩)

/-- A child that cannot be read, then a key that cannot. -/
example : (execFlaky (List.replicate 14 none ++ [some .io]) (.traverse {} (List.replicate 30 true)) demoTen).1 =
      .items (.error (.getChildInTraverse .core) :: ([5, 6, 7, 8, 9, 10].map fun k => .ok ⟨k.toNat, [k], none⟩)) true ∧
    (execFlaky (List.replicate 37 none ++ [some .io]) (.traverse {} (List.replicate 30 true)) demoTen).1 =
      .items [.ok ⟨1, [1], none⟩, .ok ⟨2, [2], none⟩, .error .core, .ok ⟨4, [4], none⟩, .ok ⟨5, [5], none⟩, .ok ⟨6, [6], none⟩] false := by
  decide +kernel

theorem Account.sublist {xs : List (Except Err KeyValueData)} {all rest : List KeyValueData} (h : Account xs all rest) :
    (xs.filterMap Except.toOption).Sublist all := by
  induction h with
  | rest l => exact List.nil_sublist l
  | ok _ ih => exact ih.cons_cons _
  | lost _ ih => exact ih.trans (List.sublist_append_right _ _)

theorem Account.pre {xs : List (Except Err KeyValueData)} {all rest : List KeyValueData} (h : Account xs all rest) :
    ∀ ys more, xs = ys.map .ok ++ more → ys <+: all := by
  induction h with
  | rest l =>
    intro ys more h
    cases ys with
    | nil => exact List.nil_prefix
    | cons y ys => cases h
  | ok _ ih =>
    intro ys more h
    cases ys with
    | nil => exact List.nil_prefix
    | cons y ys =>
      cases h
      exact (List.prefix_cons_inj _).mpr (ih ys more rfl)
  | lost _ _ =>
    intro ys more h
    cases ys with
    | nil => exact List.nil_prefix
    | cons y ys => cases h

theorem Account.complete {xs : List (Except Err KeyValueData)} {all rest : List KeyValueData} (h : Account xs all rest)
    (hr : rest = []) (hne : ∀ e, .error e ∉ xs) : xs = all.map .ok := by
  induction h with
  | rest l => subst hr; rfl
  | ok _ ih => rw [ih hr fun e he => hne e (List.mem_cons_of_mem _ he)]; rfl
  | lost _ _ => exact absurd List.mem_cons_self (hne _)

/-- C72: whatever reads fail, a traversal yields entries of the listing only, in its order and each
once; what it yields before the first error is a beginning of the listing; and if it ends without having
yielded an error, it has yielded the whole listing. -/
theorem traverse_no_silent_gap (cs : List Cmd) (b : TraverseConfigBuilder) (sched : List Bool) (fs : List (Option Fault))
    (xs : List (Except Err KeyValueData)) (fin : Bool)
    (hx : (execFlaky fs (.traverse b sched) (runSt cs St.init)).1 = .items xs fin) :
    ∃ conf full, b.build = .ok conf ∧ IsListing (Db.empty.after cs) conf full ∧
      (xs.filterMap Except.toOption).Sublist full ∧
      (∀ ys more, xs = ys.map .ok ++ more → ys <+: full) ∧
      (fin = true → (∀ e, .error e ∉ xs) → xs = full.map .ok) := by
  have h := (run_refines cs Holds.init).2
  have hret := (exec_refines h (.traverse b sched)).1
  have refused : (runSt cs St.init).core.length ≤ 1 ∨ (∃ e, b.build = .error e) → False := by
    intro hr
    rw [traverse_refused hr] at hx
    rw [hx] at hret
    simp only [Db.Returns] at hret
    rcases hr with hr | ⟨e, hr⟩
    · cases hb : b.build with
      | error e => rw [hb] at hret; cases hret
      | ok conf =>
        rw [hb] at hret
        simp only [] at hret
        rw [if_pos (by rw [h.ver]; exact hr)] at hret
        cases hret
    · rw [hr] at hret; cases hret
  cases hb : b.build with
  | error e => exact absurd (.inr ⟨e, hb⟩) refused
  | ok conf =>
    have hv : 2 ≤ (Db.empty.after cs).version := by
      rw [h.ver]
      rcases Nat.lt_or_ge 1 (runSt cs St.init).core.length with h1 | h1
      · exact h1
      · exact absurd (.inl h1) refused
    obtain ⟨full, N, h1, h2⟩ := traverse_gaps_partial cs hb hv
    refine ⟨conf, full, rfl, h1, ?_⟩
    rcases h2 sched fs with h3 | ⟨xs', fin', rest, h3, h4, _, h5, _⟩ | ⟨h3, _⟩
    · rw [hx] at h3; cases h3
    · rw [hx] at h3
      cases h3
      exact ⟨h4.sublist, h4.pre, fun hf hne => h4.complete (h5 hf) hne⟩
    · rw [hx] at h3; cases h3

/-- Reads fail, though not where it matters, and the traversal is complete. -/
example : (execFlaky (List.replicate 1 none ++ [some .io]) (.traverse {} (List.replicate 60 true)) demoTen).1 =
    .items ([1, 2, 3, 4, 5, 6, 7, 8, 9, 10].map fun k => .ok ⟨k.toNat, [k], none⟩) true := by
  decide +kernel

end Hyperbee
