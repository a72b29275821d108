import Verif.Proof.SubAsync
import Verif.Props.Prefixed
/-!
# Calls through sub-databases that overlap
-/

namespace Hyperbee

/-! ## C81 -/

/-- Sub-databases do not keep writers apart: of two overlapping puts into different sub-databases both
return that they are done, under the same number, and one of them is lost, nor is it there after
reopening. -/
theorem sub_overlap_false : ∃ s, Mixed s ∧ ∃ sched,
    ((Flight.start ([(some ⟨[97], [0]⟩, .put [2] (some [1])), (some ⟨[98], [0]⟩, .put [1] (some [2]))].map Prog.execVia) s).run
      sched).calls.map Prog.result = [some (.put none 2), some (.put none 2)] ∧
    (runVia [(some ⟨[97], [0]⟩, .get [2]), (some ⟨[98], [0]⟩, .get [1]), (none, .reopen), (some ⟨[98], [0]⟩, .get [1])]
      ((Flight.start ([(some ⟨[97], [0]⟩, .put [2] (some [1])), (some ⟨[98], [0]⟩, .put [1] (some [2]))].map Prog.execVia) s).run
        sched).st).1 = [.got (some (2, some [1])), .got none, .opened, .got none] :=
  ⟨(runVia [(some ⟨[97], [0]⟩, .put [1] (some [3]))] St.init).2, ⟨_, rfl⟩,
    List.replicate 12 0 ++ List.replicate 10 1 ++ List.replicate 4 0 ++ List.replicate 4 1, by decide +kernel, by decide +kernel⟩

/-- Overlapping puts into two sub-databases can even destroy what is in a third, which no call in
flight is about. -/
theorem sub_overlap_destroys : ∃ s, Mixed s ∧ (execVia (some ⟨[99], [0]⟩, .get [1]) s).1 = .got (some (1, some [3])) ∧
    ∃ sched,
    ((Flight.start ([(some ⟨[100], [0]⟩, .put [2] (some [1])), (some ⟨[97], [0]⟩, .put [0] (some [2]))].map Prog.execVia) s).run
      sched).calls.map Prog.result = [some (.put none 2), some (.put none 2)] ∧
    (runVia [(some ⟨[99], [0]⟩, .get [1]), (none, .reopen), (some ⟨[99], [0]⟩, .get [1])]
      ((Flight.start ([(some ⟨[100], [0]⟩, .put [2] (some [1])), (some ⟨[97], [0]⟩, .put [0] (some [2]))].map Prog.execVia) s).run
        sched).st).1 = [.got none, .opened, .got none] :=
  ⟨(runVia [(some ⟨[99], [0]⟩, .put [1] (some [3]))] St.init).2, ⟨_, rfl⟩, by decide +kernel,
    List.replicate 10 0 ++ List.replicate 12 1 ++ List.replicate 10 0 ++ List.replicate 10 1, by decide +kernel, by decide +kernel⟩

/-- What does hold.  Every call through a sub-database other than a traversal is, step by step, the
call on the database with the prefixed key; so all that is said of calls in flight on a database
(C31, C32, C42, C49, C52, C53, C63, C64, C65, C67, C68, …) is said of these. -/
theorem sub_steps (p : Prefixed) :
    (∀ k, Prog.execVia (some p, .get k) = Prog.exec (.get (p.pre ++ p.sep ++ k))) ∧
    (∀ k v, Prog.execVia (some p, .put k v) = Prog.exec (.put (p.pre ++ p.sep ++ k) v)) ∧
    (∀ k v cas, Prog.execVia (some p, .putCas k v cas) = Prog.exec (.putCas (p.pre ++ p.sep ++ k) v cas)) ∧
    (∀ k, Prog.execVia (some p, .del k) = Prog.exec (.del (p.pre ++ p.sep ++ k))) ∧
    (∀ k cas, Prog.execVia (some p, .delCas k cas) = Prog.exec (.delCas (p.pre ++ p.sep ++ k) cas)) :=
  ⟨fun _ => rfl, fun _ _ => rfl, fun _ _ _ => rfl, fun _ => rfl, fun _ _ => rfl⟩

/-- Polled to its end with nothing in between, a call through a sub-database does what the sequential
model says. -/
theorem sub_alone (x : Option Prefixed × Cmd) (hx : x.2 ≠ .reopen) (s : St) :
    (Prog.execVia x).run s = (.ok (execVia x s).1, (execVia x s).2) := run_execVia x hx s

/-- As long as no write has changed a node or the core: whatever calls are in flight on the database
and through its sub-databases, gets and traversals, of the database or of any sub-database, reply
what they would have replied alone. -/
theorem sub_overlap_partial {s : St} (h : Rooms s) (xs : List (Option Prefixed × Cmd)) (sched : List Nat)
    (hq : Calm sched (xs.map Prog.execVia) s) (i : Nat) (x : Option Prefixed × Cmd) (hi : xs[i]? = some x)
    (hl : x.2.looks = true) (p : Prog Reply) (r : Reply)
    (hp : (Prog.interleave sched (xs.map Prog.execVia) s).1[i]? = some p) (hr : p.result = some r) :
    r = (execVia x s).1 := by
  obtain ⟨Γ, _, _, hok⟩ := interleave_ok (s0 := s) (esc := true)
    (Q := fun j Γ r => j = i → RR EqR Γ r (ideal s (Prog.execVia x)))
    sched (xs.map Prog.execVia) s _ (by
      intro j p hp
      rw [List.getElem?_map] at hp
      obtain ⟨x', h1, rfl⟩ := Option.map_eq_some_iff.mp hp
      by_cases hj : j = i
      · subst hj
        rw [hi] at h1
        cases h1
        exact Ok.imp (sim_execVia (s0 := s) (esc := true) hl) fun Γ r _ hr _ => hr
      · exact Ok.imp (ok_execVia (s0 := s) x') fun _ _ _ _ h => absurd h hj) (inv_start h) (fun _ => hq)
  have h1 := hok i p hp
  cases p with
  | pure a =>
    cases hr
    have h2 := h1 Γ (.refl Γ) rfl
    obtain ⟨Γ', _, _, h3⟩ := (sim_execVia (s0 := s) (esc := false) hl).run (inv_start h)
    rw [run_execVia _ (by intro he; rw [he] at hl; cases hl)] at h3
    revert h2 h3
    cases ideal s (Prog.execVia x) with
    | error e => exact fun h => h.elim
    | ok a' => exact fun h2 h3 => Eq.trans h2 (Eq.symm h3)
  | throw e => cases hr
  | step x k => cases hr

/-- Readers only: any number of gets and traversals through any sub-databases, taking steps in any
order, reply what each would have replied alone, whatever the core holds and whichever of its blocks
can be read. -/
theorem sub_readers_undisturbed {s : St} (h : Rooms s) (xs : List (Option Prefixed × Cmd)) (hc : ∀ x ∈ xs, x.2.looks = true)
    (sched : List Nat) (i : Nat) (p : Prog Reply) (r : Reply)
    (hp : (Prog.interleave sched (xs.map Prog.execVia) s).1[i]? = some p) (hr : p.result = some r) :
    ∃ x, xs[i]? = some x ∧ r = (execVia x s).1 := by
  have hlt : i < xs.length := by
    have := (List.getElem?_eq_some_iff.mp hp).1
    rwa [interleave_length, List.length_map] at this
  have hl : (xs[i]).2.looks = true := hc _ (List.getElem_mem hlt)
  refine ⟨xs[i], List.getElem?_eq_getElem hlt, ?_⟩
  obtain ⟨Γ, _, _, hok⟩ := interleave_ok (s0 := s) (esc := false)
    (Q := fun j Γ r => ∀ x, xs[j]? = some x → RR EqR Γ r (ideal s (Prog.execVia x)))
    sched (xs.map Prog.execVia) s _ (by
      intro j p hp
      rw [List.getElem?_map] at hp
      obtain ⟨x', h1, rfl⟩ := Option.map_eq_some_iff.mp hp
      exact Ok.imp (sim_execVia (s0 := s) (esc := false) (hc x' (List.mem_of_getElem? h1))) fun Γ r _ hr x hx => by
        rw [h1] at hx; cases hx; exact hr) (inv_start h) (fun h => by cases h)
  have h1 := hok i p hp
  cases p with
  | pure a =>
    cases hr
    have h2 := h1 Γ (.refl Γ) _ (List.getElem?_eq_getElem hlt)
    obtain ⟨Γ', _, _, h3⟩ := (sim_execVia (s0 := s) (esc := false) hl).run (inv_start h)
    rw [run_execVia _ (by intro he; rw [he] at hl; cases hl)] at h3
    revert h2 h3
    cases ideal s (Prog.execVia xs[i]) with
    | error e => exact fun h => h.elim
    | ok a' => exact fun h2 h3 => Eq.trans h2 (Eq.symm h3)
  | throw e => cases hr
  | step x k => cases hr

/-- And each that is given turns again and again comes to its reply. -/
theorem sub_readers_finish {s : St} (xs : List (Option Prefixed × Cmd)) (f : Nat → Nat) (i : Nat) (hi : i < xs.length)
    (hf : ∀ n, ∃ m, n ≤ m ∧ f m = i) :
    ∃ n r, ((Prog.interleave ((List.range n).map f) (xs.map Prog.execVia) s).1[i]?.bind Prog.result) = some r := by
  obtain ⟨n, r, h⟩ := Prog.ends (ps := xs.map Prog.execVia) (i := i) (p := Prog.execVia xs[i]) (replies_execVia _) f s
    (by simp [hi]) hf
  exact ⟨n, r, by rw [h]; rfl⟩

/-- None of them ever waits for a lock. -/
theorem sub_readers_never_wait (s : St) (xs : List (Option Prefixed × Cmd)) (hc : ∀ x ∈ xs, x.2.looks = true)
    (sched : List Nat) :
    ((Flight.start (xs.map Prog.execVia) s).run sched).calls = (Prog.interleave sched (xs.map Prog.execVia) s).1 ∧
    ((Flight.start (xs.map Prog.execVia) s).run sched).st = (Prog.interleave sched (xs.map Prog.execVia) s).2 ∧
    ((Flight.start (xs.map Prog.execVia) s).run sched).queue = [] :=
  readers_run sched _ (fun p hp => by
    obtain ⟨x, h, rfl⟩ := List.mem_map.mp hp
    exact readLocks_execVia (hc x h)) rfl

/-- Calls that have not come to write, finished or dropped, leave no trace: later calls, of the
database or through sub-databases, reply and write as if they had not been made. -/
theorem sub_no_trace {s : St} (h : Mixed s) (xs : List (Option Prefixed × Cmd)) (sched : List Nat)
    (hq : Calm sched (xs.map Prog.execVia) s) (later : List (Option Prefixed × Cmd)) :
    (runVia later (Prog.interleave sched (xs.map Prog.execVia) s).2).1 = (runVia later s).1 ∧
    (runVia later (Prog.interleave sched (xs.map Prog.execVia) s).2).2.core = (runVia later s).2.core := by
  obtain ⟨d, hd⟩ := h.holds
  obtain ⟨Γ, _, hi, _⟩ := interleave_ok (s0 := s) (esc := true) (Q := fun _ _ _ => True)
    sched (xs.map Prog.execVia) s _ (by
      intro i p hp
      rw [List.getElem?_map] at hp
      obtain ⟨x, h1, rfl⟩ := Option.map_eq_some_iff.mp hp
      exact ok_execVia (s0 := s) x) (inv_start hd.wf.rooms) (fun _ => hq)
  exact via_same later (hi.holds hd) hd hi.core.symm

/-- Traversals of two sub-databases and of the whole, and a get, in turn, on a fresh cache: everyone
gets their reply, and the traversal of the second sub-database its twelve keys less the one deleted. -/
example : ((Prog.interleave ((List.range 2400).map (· % 3))
      ([(some ⟨[2, 7], []⟩, .traverse {} (List.replicate 120 true)), (some ⟨[1], [0]⟩, .get (demoKey 5)),
        (some ⟨[1], [0]⟩, .traverse {} (List.replicate 120 true))].map Prog.execVia)
      (exec .reopen (runVia subDemo St.init).2).2).1.map fun p => match p.result with
        | some (.items xs fin) => some (xs.length, fin)
        | some (.got (some _)) => some (0, true)
        | _ => none) = [some (11, true), some (0, true), some (13, true)] := by
  decide +kernel

/-- A put through one sub-database and a del through another, far into their searches, and a get. -/
example : Calm ((List.range 60).map (· % 3))
    ([(some ⟨[1], [0]⟩, .put (demoKey 40) none), (some ⟨[2, 7], []⟩, .del (demoKey 7)), (none, .get [3])].map Prog.execVia)
    (runVia subDemo St.init).2 := by
  decide +kernel

example : Rooms (runVia subDemo St.init).2 := (subDemo_mixed.holds.choose_spec).wf.rooms

end Hyperbee
