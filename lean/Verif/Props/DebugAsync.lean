import Verif.Proof.DebugAsync
import Verif.Props.Concurrent
import Verif.Props.Debug
import Verif.Props.Flaky
/-!
# `height` and `print` among other readers, and when reads fail (C102)
-/

namespace Hyperbee

/-! ## C102 -/

/-- Whatever the core holds, and whichever of its blocks can be read: any number of calls of `height` and `print`, gets,
version requests and traversals on one handle, taking steps in any order, return what each of them would have returned
alone (for `height` and `print` see C50 and C57). -/
theorem debug_undisturbed {s : St} (h : Rooms s) (cs : List Ask) (hc : ∀ c ∈ cs, c.looks = true) (sched : List Nat)
    (i : Nat) (p : Prog Said) (r : Said) (hp : (Prog.interleave sched (cs.map Prog.ask) s).1[i]? = some p)
    (hr : p.result = some r) : ∃ c, cs[i]? = some c ∧ r = (ask c s).1 := by
  have hlt : i < cs.length := by
    have := (List.getElem?_eq_some_iff.mp hp).1
    rwa [interleave_length, List.length_map] at this
  obtain ⟨Γ, _, _, hok⟩ := interleave_ok (s0 := s) (esc := false)
    (Q := fun i Γ r => ∀ c, cs[i]? = some c → RR EqR Γ r (ideal s (Prog.ask c)))
    sched (cs.map Prog.ask) s _ (by
      intro i p hp
      rw [List.getElem?_map] at hp
      obtain ⟨c, h1, rfl⟩ := Option.map_eq_some_iff.mp hp
      have hl := hc c (List.mem_of_getElem? h1)
      exact Ok.imp (sim_ask (s0 := s) (esc := false) hl) fun Γ r _ hr c' hc' => by
        rw [h1] at hc'; cases hc'; exact hr) (inv_start h) (fun h => by cases h)
  refine ⟨cs[i], List.getElem?_eq_getElem hlt, ?_⟩
  have hl : (cs[i]).looks = true := hc _ (List.getElem_mem hlt)
  have h1 := hok i p hp
  cases p with
  | pure a =>
    cases hr
    have h2 := h1 Γ (.refl Γ) _ (List.getElem?_eq_getElem hlt)
    obtain ⟨Γ', _, _, h3⟩ := (sim_ask (s0 := s) (esc := false) hl).run (inv_start h)
    rw [run_ask _ (by intro he; rw [he] at hl; cases hl)] at h3
    revert h2 h3
    cases ideal s (Prog.ask cs[i]) with
    | error e => exact fun h => h.elim
    | ok a' => exact fun h2 h3 => Eq.trans h2 (Eq.symm h3)
  | throw e => cases hr
  | step x k => cases hr

/-- They leave no trace, finished or dropped half way: later calls reply as if they had not been made. -/
theorem debug_no_trace {s : St} (h : Reachable s) (cs : List Ask) (hc : ∀ c ∈ cs, c.looks = true)
    (sched : List Nat) (later : List Cmd) :
    runReplies later (Prog.interleave sched (cs.map Prog.ask) s).2 = runReplies later s ∧
    (runSt later (Prog.interleave sched (cs.map Prog.ask) s).2).core = (runSt later s).core := by
  obtain ⟨d, hd⟩ := h.holds
  obtain ⟨Γ, _, hi, _⟩ := interleave_ok (s0 := s) (esc := false) (Q := fun _ _ _ => True)
    sched (cs.map Prog.ask) s _ (by
      intro i p hp
      rw [List.getElem?_map] at hp
      obtain ⟨c, h1, rfl⟩ := Option.map_eq_some_iff.mp hp
      exact Ok.imp (sim_ask (s0 := s) (esc := false) (hc c (List.mem_of_getElem? h1))) fun _ _ _ _ => trivial)
      (inv_start hd.wf.rooms) (fun h => by cases h)
  exact runs_same later (hi.holds hd) hd hi.core.symm

theorem Flakes.said {p : Prog α} {f : α → Said} {s t : St} {r : Except Err Said} (h : Flakes (Prog.said f p) s r t) :
    ∃ x, Flakes p s x t ∧ r = .ok (saidOf f x) := by
  induction p generalizing s with
  | pure a => cases h; exact ⟨_, .pure, rfl⟩
  | throw e => cases h; exact ⟨_, .throw, rfl⟩
  | step x k ih =>
    cases h with
    | step h =>
      obtain ⟨y, h1, h2⟩ := ih _ h
      exact ⟨y, .step h1, h2⟩
    | fault hf h =>
      rename_i f y
      obtain ⟨z, h1, h2⟩ := ih _ h
      exact ⟨z, .fault (f := f) hf h1, h2⟩

theorem PrintErr.gapErr {e : Err} (h : PrintErr e) : GapErr e := by
  rcases h with h | ⟨e', h, rfl⟩
  · exact h.gapErr
  · exact .start h

/-- When reads fail, `height` and `print` return what they return when none fails, or the error of a read that failed: never
a wrong height, never part of the text, and no panic.  The core is as before, and later calls on the handle reply as if
the call had not been made. -/
theorem debug_reads_fail {s : St} (hs : Reachable s) {c : Ask} (hc : c = .height ∨ ∃ sched, c = .print sched)
    (fs : List (Option Fault)) (later : List Cmd) :
    let x := (Prog.ask c).flaky fs s
    (x.1 = .ok (ask c s).1 ∨ ∃ e, GapErr e ∧ x.1 = .ok (.error e)) ∧ x.2.core = s.core ∧
      runReplies later x.2 = runReplies later s := by
  intro x
  obtain ⟨d, h⟩ := hs.holds
  have hfl : Flakes (Prog.ask c) s x.1 x.2 := flaky_flakes (Prog.ask c) fs s
  suffices hx : (x.1 = .ok (ask c s).1 ∨ ∃ e, GapErr e ∧ x.1 = .ok (.error e)) ∧ Ext s x.2 from
    ⟨hx.1, hx.2.core, (runs_same later (h.ext hx.2) h hx.2.core.symm).1⟩
  clear_value x
  obtain ⟨r, t⟩ := x
  dsimp only at hfl ⊢
  rcases hc with rfl | ⟨sched, rfl⟩
  · obtain ⟨y, h1, rfl⟩ := Flakes.said (p := Prog.height) hfl
    obtain ⟨n, s', h2, _⟩ := height_levels hs
    obtain ⟨e1, h3⟩ := frail_acts.height_ s n s' h.wf (by rw [← h2]; exact congrFun does_height s)
    rcases h3 _ _ h1 with ⟨rfl, rfl⟩ | ⟨e, h4, rfl, e2⟩
    · exact ⟨.inl (by simp only [ask, h2]), e1⟩
    · exact ⟨.inr ⟨e, .key h4, rfl⟩, e2⟩
  · obtain ⟨y, h1, rfl⟩ := Flakes.said (p := Prog.print sched) hfl
    rcases h.store with hb | ⟨H, u, ht, hcoh, _⟩
    · have hp := print_no_root hb.1 sched
      have hroot : getRoot false s = (.ok none, s) := by
        rcases Nat.lt_or_ge s.core.length 1 with hl | hl
        · exact getRoot_zero_false (by omega)
        · exact getRoot_one (by have := hb.1; omega) false
      obtain ⟨e1, h3⟩ := frail_acts.getRoot_ s none s h.wf (by rw [← hroot]; exact congrFun (does_getRoot false) s)
      unfold Prog.print at h1
      rcases h1.bind with ⟨o, v, h4, h5⟩ | ⟨e, h4, rfl⟩
      · rcases h3 _ _ h4 with ⟨ho, rfl⟩ | ⟨e, _, he, _⟩
        · cases ho
          cases h5
          exact ⟨.inl (by simp only [ask, hp]), e1⟩
        · cases he
      · rcases h3 _ _ h4 with ⟨ho, _⟩ | ⟨e', he', he, e3⟩
        · cases ho
        · cases he
          exact ⟨.inr ⟨e, .key he', rfl⟩, e3⟩
    · rcases print_flakes ht h.wf hcoh sched h1 with h2 | ⟨e, h2, rfl, e2⟩
      · obtain ⟨r', s', h3, e1, _⟩ := print_run ht h.wf hcoh sched
        rw [h3] at h2
        cases h2
        exact ⟨.inl (by simp only [ask, h3]), e1⟩
      · exact ⟨.inr ⟨e, h2.gapErr, rfl⟩, e2⟩

/-- Nine keys, two levels: a print, a height and a get in turns on a fresh handle; and prints of which a read fails. -/
example :
    let s := (exec .reopen (runSt (ascending.take 9) St.init)).2
    let ready := List.replicate 45 true
    ((Prog.interleave ((List.range 700).map (· % 3)) ([.print ready, .height, .call (.get [])].map Prog.ask) s).1.map
      fun p => p.result) = [some (ask (.print ready) s).1, some (.height 2), some (.reply (.got none))] ∧
    (ask (.print ready) s).1 =
      .text (some [9, 0, 10, 9, 1, 10, 9, 2, 10, 9, 3, 10, 4, 10, 9, 5, 10, 9, 6, 10, 9, 7, 10, 9, 8, 10]) ∧
    ([2, 14, 29, 48] : List Nat).map (fun n =>
      saidOf id ((Prog.ask (.print ready)).flaky (List.replicate n none ++ [some .io]) s).1) =
        [.error .core, .error (.buildIteratorInTraverse .core), .error (.buildIteratorInTraverse .core),
          .error .core] := by
  decide +kernel

end Hyperbee
