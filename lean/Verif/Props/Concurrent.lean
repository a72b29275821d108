import Verif.Proof.Standstill
import Verif.Props.Demo
import Verif.Props.Contents
/-!
# Calls that overlap

Each call is a future that takes one step at a time (`Model/Async`); a schedule says whose turn it
is.  What is claimed to hold is claimed for every order of the steps (`Prog.interleave`), whether or
not the locks would allow it; what is claimed to go wrong goes wrong in a run in which every step
is granted its locks (`Flight.run`).  By `locks_only_restrict` the former covers the latter.
-/

namespace Hyperbee

/-- A run in which calls wait for locks is an interleaving of the turns that were granted. -/
theorem locks_only_restrict (ps : List (Prog α)) (s : St) (sched : List Nat) :
    ∃ turns, turns.Sublist sched ∧ ((Flight.start ps s).run sched).calls = (Prog.interleave turns ps s).1 ∧
      ((Flight.start ps s).run sched).st = (Prog.interleave turns ps s).2 :=
  Flight.run_interleave sched (Flight.start ps s)

/-! ## C42 -/

/-- Whatever the core holds, and whichever of its blocks can be read: any number of gets, version
requests and traversals on a handle, taking steps in any order, reply what each of them would
have replied alone. -/
theorem readers_undisturbed {s : St} (h : Rooms s) (cs : List Cmd) (hc : ∀ c ∈ cs, c.looks = true) (sched : List Nat)
    (i : Nat) (p : Prog Reply) (r : Reply) (hp : (Prog.interleave sched (cs.map Prog.exec) s).1[i]? = some p)
    (hr : p.result = some r) : ∃ c, cs[i]? = some c ∧ r = (exec c s).1 := by
  have hlt : i < cs.length := by
    have := (List.getElem?_eq_some_iff.mp hp).1
    rwa [interleave_length, List.length_map] at this
  obtain ⟨Γ, _, _, hok⟩ := interleave_ok (s0 := s) (esc := false)
    (Q := fun i Γ r => ∀ c, cs[i]? = some c → RR EqR Γ r (ideal s (Prog.exec c)))
    sched (cs.map Prog.exec) s _ (by
      intro i p hp
      rw [List.getElem?_map] at hp
      obtain ⟨c, h1, rfl⟩ := Option.map_eq_some_iff.mp hp
      have hl := hc c (List.mem_of_getElem? h1)
      exact Ok.imp (sim_exec (s0 := s) (esc := false) hl) fun Γ r _ hr c' hc' => by
        rw [h1] at hc'; cases hc'; exact hr) (inv_start h) (fun h => by cases h)
  refine ⟨cs[i], List.getElem?_eq_getElem hlt, ?_⟩
  have hl : (cs[i]).looks = true := hc _ (List.getElem_mem hlt)
  have h1 := hok i p hp
  cases p with
  | pure a =>
    cases hr
    have h2 := h1 Γ (.refl Γ) _ (List.getElem?_eq_getElem hlt)
    obtain ⟨Γ', _, _, h3⟩ := (sim_exec (s0 := s) (esc := false) hl).run (inv_start h)
    rw [run_exec _ (by intro he; rw [he] at hl; cases hl)] at h3
    revert h2 h3
    cases ideal s (Prog.exec cs[i]) with
    | error e => exact fun h => h.elim
    | ok a' => exact fun h2 h3 => Eq.trans h2 (Eq.symm h3)
  | throw e => cases hr
  | step x k => cases hr

/-- Every reader that is given turns again and again comes to its reply. -/
theorem readers_finish {s : St} (cs : List Cmd) (f : Nat → Nat) (i : Nat) (hi : i < cs.length)
    (hf : ∀ n, ∃ m, n ≤ m ∧ f m = i) :
    ∃ n r, ((Prog.interleave ((List.range n).map f) (cs.map Prog.exec) s).1[i]?.bind Prog.result) = some r := by
  obtain ⟨n, r, h⟩ := Prog.ends (ps := cs.map Prog.exec) (i := i) (p := Prog.exec cs[i]) (replies_exec _) f s (by simp [hi]) hf
  exact ⟨n, r, by rw [h]; rfl⟩

/-- What readers do leaves no trace: after any steps of any readers, finished or not, later calls
reply as if there had been no readers. -/
theorem readers_leave_no_trace {s : St} (h : Reachable s) (cs : List Cmd) (hc : ∀ c ∈ cs, c.looks = true)
    (sched : List Nat) (later : List Cmd) :
    runReplies later (Prog.interleave sched (cs.map Prog.exec) s).2 = runReplies later s ∧
    (runSt later (Prog.interleave sched (cs.map Prog.exec) s).2).core = (runSt later s).core := by
  obtain ⟨d, hd⟩ := h.holds
  obtain ⟨Γ, _, hi, _⟩ := interleave_ok (s0 := s) (esc := false) (Q := fun _ _ _ => True)
    sched (cs.map Prog.exec) s _ (by
      intro i p hp
      rw [List.getElem?_map] at hp
      obtain ⟨c, h1, rfl⟩ := Option.map_eq_some_iff.mp hp
      exact Ok.imp (sim_exec (s0 := s) (esc := false) (hc c (List.mem_of_getElem? h1))) fun _ _ _ _ => trivial)
      (inv_start hd.wf.rooms) (fun h => by cases h)
  exact runs_same later (hi.holds hd) hd hi.core.symm

/-- Three readers of the demo database in turn, sharing a fresh cache: everyone gets their reply. -/
example : ((Prog.interleave ((List.range 120).map (· % 3)) ([.get (demoKey 4), .get (demoKey 8), .version].map Prog.exec)
      (exec .reopen (runSt demo St.init)).2).1.map fun p => p.result) =
    [some (.got (some (34, some [1, 2]))), some (.got none), some (.version 40)] := by
  decide +kernel

/-- The handle may have blocks in memory already. -/
example : Rooms (runSt demo St.init) := (run_holds demo).wf.rooms

/-! ## C52 -/

/-- A get that overlaps a put can fail: between the put's change to the root in memory and its
append, the root refers to a block that is not in the core. -/
theorem read_during_write_false : ∃ s, Reachable s ∧ (exec (.get [99]) s).1 = .got (some (1, some [3])) ∧
    ∃ sched, ((Flight.start [Prog.exec (.put [97] (some [1])), Prog.exec (.get [99])] s).run sched).calls.map Prog.result =
      [some (.put none 2), some (.error (.noBlockAtSeq 2))] :=
  ⟨runSt [.put [99] (some [3])] St.init, ⟨_, rfl⟩, by decide +kernel,
    List.replicate 13 0 ++ List.replicate 7 1 ++ List.replicate 3 0, by decide +kernel⟩

/-- As long as no write has changed a node or the core: whatever calls are in flight, readers reply
what they would have replied alone. -/
theorem read_during_write_partial {s : St} (h : Rooms s) (cs : List Cmd) (sched : List Nat)
    (hq : Calm sched (cs.map Prog.exec) s) (i : Nat) (c : Cmd) (hi : cs[i]? = some c) (hl : c.looks = true)
    (p : Prog Reply) (r : Reply) (hp : (Prog.interleave sched (cs.map Prog.exec) s).1[i]? = some p)
    (hr : p.result = some r) : r = (exec c s).1 := by
  obtain ⟨Γ, _, _, hok⟩ := interleave_ok (s0 := s) (esc := true)
    (Q := fun j Γ r => j = i → RR EqR Γ r (ideal s (Prog.exec c)))
    sched (cs.map Prog.exec) s _ (by
      intro j p hp
      rw [List.getElem?_map] at hp
      obtain ⟨c', h1, rfl⟩ := Option.map_eq_some_iff.mp hp
      by_cases hj : j = i
      · subst hj
        rw [hi] at h1
        cases h1
        exact Ok.imp (sim_exec (s0 := s) (esc := true) hl) fun Γ r _ hr _ => hr
      · exact Ok.imp (ok_exec (s0 := s) c') fun _ _ _ _ h => absurd h hj) (inv_start h) (fun _ => hq)
  have h1 := hok i p hp
  cases p with
  | pure a =>
    cases hr
    have h2 := h1 Γ (.refl Γ) rfl
    obtain ⟨Γ', _, _, h3⟩ := (sim_exec (s0 := s) (esc := false) hl).run (inv_start h)
    rw [run_exec _ (by intro he; rw [he] at hl; cases hl)] at h3
    revert h2 h3
    cases ideal s (Prog.exec c) with
    | error e => exact fun h => h.elim
    | ok a' => exact fun h2 h3 => Eq.trans h2 (Eq.symm h3)
  | throw e => cases hr
  | step x k => cases hr

/-! ## C49 -/

/-- Dropping a write in flight is not safe for the handle.  A del that was dropped before it
returned comes into effect with the next put of another key, for good: the key is gone from the
core too. -/
theorem dropped_write_false : ∃ s, Reachable s ∧ (exec (.get [99]) s).1 = .got (some (1, some [3])) ∧
    ∃ n, (Prog.after n (Prog.exec (.del [99])) s).1.ended = false ∧
      (Prog.after n (Prog.exec (.del [99])) s).2.core = s.core ∧
      runReplies [.put [98] none, .reopen, .get [99]] (Prog.after n (Prog.exec (.del [99])) s).2 =
        [.put none 3, .opened, .got none] ∧
      runReplies [.put [98] none, .reopen, .get [99]] s = [.put none 3, .opened, .got (some (1, some [3]))] :=
  ⟨runSt [.put [99] (some [3]), .put [97] (some [1])] St.init, ⟨_, rfl⟩, by decide +kernel, 20,
    by decide +kernel, by decide +kernel, by decide +kernel, by decide +kernel⟩

/-- A put that was dropped can leave the handle unable to read what is there. -/
theorem dropped_put_false : ∃ s, Reachable s ∧ (exec (.get [99]) s).1 = .got (some (1, some [3])) ∧
    ∃ n, (Prog.after n (Prog.exec (.put [97] (some [1]))) s).1.ended = false ∧
      (exec (.get [99]) (Prog.after n (Prog.exec (.put [97] (some [1]))) s).2).1 = .error (.noBlockAtSeq 2) :=
  ⟨runSt [.put [99] (some [3])] St.init, ⟨_, rfl⟩, by decide +kernel, 13, by decide +kernel, by decide +kernel⟩

/-- And on an empty core the header is there though the put was dropped. -/
theorem dropped_first_put_false : ∃ n, (Prog.after n (Prog.exec (.put [97] (some [1]))) St.init).1.ended = false ∧
    (Prog.after n (Prog.exec (.put [97] (some [1]))) St.init).2.core ≠ St.init.core :=
  ⟨3, by decide +kernel, by decide +kernel⟩

/-- What does hold: a call that is dropped before it ended has not changed the core, except that the
first put may have created the header; so for a handle opened on the core afterwards it is as if
the call had not been made, or as if only the header had been created. -/
theorem dropped_write_partial {s : St} (h : Reachable s) (c : Cmd) (n : Nat)
    (hn : (Prog.after n (Prog.exec c) s).1.ended = false) :
    ((Prog.after n (Prog.exec c) s).2.core = s.core ∧
      ∀ later, runReplies later (exec .reopen (Prog.after n (Prog.exec c) s).2).2 = runReplies later s) ∨
    (s.core = [] ∧ (∃ k v, c = .put k v ∨ ∃ cas, c = .putCas k v cas) ∧
      ∀ later, runReplies later (exec .reopen (Prog.after n (Prog.exec c) s).2).2 =
        runReplies later (exec (.createHeader none) s).2) := by
  obtain ⟨d, hd⟩ := h.holds
  rcases after_exec hd.wf.rooms hd.ok c n hn with e | ⟨h0, hc, e⟩
  · refine .inl ⟨e, fun later => ?_⟩
    rw [show (exec .reopen (Prog.after n (Prog.exec c) s).2).2 = St.open (Prog.after n (Prog.exec c) s).2.core from rfl, e]
    exact (runs_same later hd.stored.open hd rfl).1
  · refine .inr ⟨h0, hc, fun later => ?_⟩
    have h1 := (exec_refines hd (.createHeader none)).2
    have h2 : (exec (.createHeader none) s).2.core = [headerBlock] := by
      have : createHeader none s = (.ok 1, { s with core := [headerBlock] }) := by
        unfold createHeader
        rw [bind_ok (show version s = (.ok s.core.length, s) from rfl), h0]
        simp [coreAppend, hd.ok, h0, headerBlock_eq]
      simp [exec, replyOf, this]
    rw [show (exec .reopen (Prog.after n (Prog.exec c) s).2).2 = St.open (Prog.after n (Prog.exec c) s).2.core from rfl, e,
      ← h2]
    exact (runs_same later h1.stored.open h1 rfl).1

/-- And any number of calls, writers too, dropped before any of them has changed a node or the core
leave no trace in the handle either. -/
theorem dropped_search_partial {s : St} (h : Reachable s) (cs : List Cmd) (sched : List Nat)
    (hq : Calm sched (cs.map Prog.exec) s) (later : List Cmd) :
    runReplies later (Prog.interleave sched (cs.map Prog.exec) s).2 = runReplies later s ∧
    (runSt later (Prog.interleave sched (cs.map Prog.exec) s).2).core = (runSt later s).core := by
  obtain ⟨d, hd⟩ := h.holds
  obtain ⟨Γ, _, hi, _⟩ := interleave_ok (s0 := s) (esc := true) (Q := fun _ _ _ => True)
    sched (cs.map Prog.exec) s _ (by
      intro i p hp
      rw [List.getElem?_map] at hp
      obtain ⟨c, h1, rfl⟩ := Option.map_eq_some_iff.mp hp
      exact ok_exec (s0 := s) c) (inv_start hd.wf.rooms) (fun _ => hq)
  exact runs_same later (hi.holds hd) hd hi.core.symm

/-- A put and a del on the demo database, each far into its search, and a get that has finished. -/
example : Calm ((List.range 105).map (· % 3))
    ([.put (demoKey 40) none, .del (demoKey 20), .get (demoKey 4)].map Prog.exec) (runSt demo St.init) := by
  decide +kernel

/-! ## C31 -/

/-- Overlapping puts can lose an update: both puts return that they are done, under the same
number, and one of the two keys is not there, nor after reopening. -/
theorem overlapping_puts_false : ∃ s, Reachable s ∧
    ∃ sched, ((Flight.start [Prog.exec (.put [97] (some [1])), Prog.exec (.put [98] (some [2]))] s).run sched).calls.map
        Prog.result = [some (.put none 2), some (.put none 2)] ∧
      runReplies [.get [97], .get [98], .reopen, .get [98]]
        ((Flight.start [Prog.exec (.put [97] (some [1])), Prog.exec (.put [98] (some [2]))] s).run sched).st =
        [.got (some (2, some [1])), .got none, .opened, .got none] :=
  ⟨runSt [.put [99] (some [3])] St.init, ⟨_, rfl⟩,
    List.replicate 12 0 ++ List.replicate 10 1 ++ List.replicate 4 0 ++ List.replicate 4 1, by decide +kernel,
    by decide +kernel⟩

/-- They can also lose a key that neither of them is about: it was there, both puts return that they are done,
and it is gone, for this handle and for every later one.  (The first put looked for its place, and the second
inserted before that place; the node is no longer in order.) -/
theorem overlapping_puts_destroy : ∃ s, Reachable s ∧ (exec (.get [99]) s).1 = .got (some (1, some [3])) ∧
    ∃ sched, ((Flight.start [Prog.exec (.put [120] (some [1])), Prog.exec (.put [97] (some [2]))] s).run sched).calls.map
        Prog.result = [some (.put none 2), some (.put none 2)] ∧
      runReplies [.get [99], .get [97], .reopen, .get [99], .get [97]]
        ((Flight.start [Prog.exec (.put [120] (some [1])), Prog.exec (.put [97] (some [2]))] s).run sched).st =
        [.got none, .got none, .opened, .got none, .got none] :=
  ⟨runSt [.put [99] (some [3])] St.init, ⟨_, rfl⟩, by decide +kernel,
    List.replicate 10 0 ++ List.replicate 12 1 ++ List.replicate 10 0 ++ List.replicate 10 1, by decide +kernel, by decide +kernel⟩

/-- They can also make the database unusable for ever: eight keys are in, one put overwrites one of them while
another adds a ninth; both return that they are done; from then on lookups of all the nine keys but one panic, and so
does a put, for this handle and for every later one.  (The put that splits the root named its halves as being in the
block that, by then, was the other's: blocks.rs:224 finds no such node in it.) -/
theorem overlapping_puts_brick : ∃ s, Reachable s ∧
    (∀ i < 8, (exec (.get [UInt8.ofNat (10 * i)]) s).1 = .got (some (i + 1, some [3]))) ∧
    ∃ sched, ((Flight.start [Prog.exec (.put [45] (some [1])), Prog.exec (.put [20] (some [2]))] s).run sched).calls.map
        Prog.result = [some (.put none 9), some (.put (some 3) 9)] ∧
      (∀ k ∈ [0, 10, 20, 30, 45, 50, 60, 70], ∀ before ∈ [[], [Cmd.reopen]],
        runReplies [.get [k], .put [k] none]
          (runSt before ((Flight.start [Prog.exec (.put [45] (some [1])), Prog.exec (.put [20] (some [2]))] s).run sched).st) =
        List.replicate 2 (.error (.panic "blocks.rs:224 offset *should* always point to a real node"))) :=
  ⟨runSt ((List.range 8).map fun i => .put [UInt8.ofNat (10 * i)] (some [3])) St.init, ⟨_, rfl⟩, by decide +kernel,
    List.replicate 5 0 ++ List.replicate 80 1 ++ List.replicate 80 0, by decide +kernel, by decide +kernel⟩

/-- A put or a get that overlaps a del can crash: it has found a place in a node, and the del has meanwhile
shortened the node. -/
theorem overlapping_del_panics : ∃ s, Reachable s ∧
    (∃ sched, ((Flight.start [Prog.exec (.put [99] (some [1])), Prog.exec (.del [97])] s).run sched).calls.map
        Prog.result = [some (.error (.panic "lib.rs:268 keys.splice")), some (.del (some 1))]) ∧
    (∃ sched, ((Flight.start [Prog.exec (.put [99] (some [1])), Prog.exec (.del [97])] s).run sched).calls.map
        Prog.result = [some (.error (.panic "lib.rs:235 keys[index]")), some (.del (some 1))]) ∧
    ∃ sched, ((Flight.start [Prog.exec (.get [98]), Prog.exec (.del [97])] s).run sched).calls.map
        Prog.result = [some (.error (.panic "lib.rs:235 keys[index]")), some (.del (some 1))] :=
  ⟨runSt [.put [97] (some [3]), .put [98] (some [3])] St.init, ⟨_, rfl⟩,
    ⟨List.replicate 13 0 ++ List.replicate 60 1 ++ List.replicate 60 0, by decide +kernel⟩,
    ⟨List.replicate 7 0 ++ List.replicate 60 1 ++ List.replicate 60 0, by decide +kernel⟩,
    ⟨List.replicate 12 0 ++ List.replicate 60 1 ++ List.replicate 60 0, by decide +kernel⟩⟩

/-- What does hold: calls that do not overlap, each ending before the next starts, reply and leave the
state as in the sequential model, in which all of them take effect. -/
theorem calls_in_turn_partial (s : St) (cs : List Cmd) (hc : ∀ c ∈ cs, c ≠ .reopen) (ns : List Nat)
    (hn : ns.length = cs.length) (rs : List Reply)
    (h : (Prog.interleave (inTurn 0 ns) (cs.map Prog.exec) s).1.map Prog.result = rs.map some) :
    rs = runReplies cs s ∧ (Prog.interleave (inTurn 0 ns) (cs.map Prog.exec) s).2 = runSt cs s :=
  inTurn_run cs hc ns s [] rs hn h

/-- So two puts that do not overlap both take effect. -/
theorem overlapping_puts_partial {s : St} (h : Reachable s) (k1 k2 : Bytes) (v1 v2 : Option Bytes) (n1 n2 : Nat)
    (r1 r2 : Reply)
    (hr : (Prog.interleave (inTurn 0 [n1, n2]) [Prog.exec (.put k1 v1), Prog.exec (.put k2 v2)] s).1.map Prog.result =
      [some r1, some r2]) :
    ∃ q1 q2, runReplies [.get k1, .get k2]
      (Prog.interleave (inTurn 0 [n1, n2]) [Prog.exec (.put k1 v1), Prog.exec (.put k2 v2)] s).2 =
      [.got (some (q1, if k1 = k2 then v2 else v1)), .got (some (q2, v2))] := by
  have := (calls_in_turn_partial s [.put k1 v1, .put k2 v2] (by simp) [n1, n2] rfl [r1, r2] hr).2
  rw [show [Prog.exec (.put k1 v1), Prog.exec (.put k2 v2)] = [Cmd.put k1 v1, .put k2 v2].map Prog.exec from rfl, this]
  obtain ⟨d, hd⟩ := h.holds
  have h1 := (exec_refines hd (.put k1 v1)).2
  have h2 := (exec_refines h1 (.put k2 v2)).2
  have h3 := exec_refines h2 (.get k1)
  have h4 := exec_refines h3.2 (.get k2)
  have e : ∀ (a b c d : Cmd) (s : St), runReplies [c, d] (runSt [a, b] s) =
      [(exec c (exec b (exec a s).2).2).1, (exec d (exec c (exec b (exec a s).2).2).2).1] := fun _ _ _ _ _ => rfl
  rw [e]
  have e3 := h3.1
  have e4 := h4.1
  simp only [Db.Returns, Db.next] at e3 e4
  rw [e3, e4]
  refine ⟨if k1 = k2 then (d.write k1 v1).nextSeq else d.nextSeq, (d.write k1 v1).nextSeq, ?_⟩
  by_cases hk : k1 = k2
  · subst hk; simp [Db.write]
  · simp [Db.write, hk]

/-- Two puts in turn. -/
example : (Prog.interleave (inTurn 0 [20, 20]) [Prog.exec (.put [97] (some [1])), Prog.exec (.put [98] (some [2]))]
    (runSt [.put [99] (some [3])] St.init)).1.map Prog.result = [some (.put none 2), some (.put none 3)] := by
  decide +kernel

/-! ## C32

A call of which the first `n` steps succeed, and which from then on cannot append: its reply and
the state it leaves, on a core that works again. -/

/-- The call `c`, if the core stops accepting blocks after `n` steps. -/
def execFailing (n : Nat) (c : Cmd) (s : St) : Except Err Reply × St :=
  let (p, t) := Prog.after n (Prog.exec c) s
  ((p.run t.failing).1, (p.run t.failing).2.working)

/-- A failed write is not harmless for the handle: a del that returned an error comes into effect
with the next put of another key, for good. -/
theorem failed_write_false : ∃ s, Reachable s ∧ (exec (.get [99]) s).1 = .got (some (1, some [3])) ∧
    (execFailing 0 (.del [99]) s).1 = .ok (.error .core) ∧ (execFailing 0 (.del [99]) s).2.core = s.core ∧
    runReplies [.put [98] none, .reopen, .get [99]] (execFailing 0 (.del [99]) s).2 =
      [.put none 3, .opened, .got none] ∧
    runReplies [.put [98] none, .reopen, .get [99]] s = [.put none 3, .opened, .got (some (1, some [3]))] :=
  ⟨runSt [.put [99] (some [3]), .put [97] (some [1])] St.init, ⟨_, rfl⟩, by decide +kernel, by decide +kernel,
    by decide +kernel, by decide +kernel, by decide +kernel⟩

/-- After a put that failed, the handle can be unable to read what is there. -/
theorem failed_put_false : ∃ s, Reachable s ∧ (exec (.get [99]) s).1 = .got (some (1, some [3])) ∧
    (execFailing 0 (.put [97] (some [1])) s).1 = .ok (.error .core) ∧
    (exec (.get [99]) (execFailing 0 (.put [97] (some [1])) s).2).1 = .error (.noBlockAtSeq 2) :=
  ⟨runSt [.put [99] (some [3])] St.init, ⟨_, rfl⟩, by decide +kernel, by decide +kernel, by decide +kernel⟩

/-- What does hold.  A call whose appending fails returns the error, and has not changed the core
(but the first put may have created the header before it failed); a handle opened afterwards
behaves as if the call had not been made, or as if only the header had been created. -/
theorem failed_write_partial {s : St} (h : Reachable s) (c : Cmd) (hc : c ≠ .reopen) (n : Nat)
    (hn : (Prog.after n (Prog.exec c) s).1.ended = false)
    (hap : (exec c s).2.core ≠ (Prog.after n (Prog.exec c) s).2.core) :
    (execFailing n c s).1 = .ok (.error .core) ∧
    (((execFailing n c s).2.core = s.core ∧
      ∀ later, runReplies later (exec .reopen (execFailing n c s).2).2 = runReplies later s) ∨
     (s.core = [] ∧ (∃ k v, c = .put k v ∨ ∃ cas, c = .putCas k v cas) ∧
      ∀ later, runReplies later (exec .reopen (execFailing n c s).2).2 =
        runReplies later (exec (.createHeader none) s).2)) := by
  obtain ⟨d, hd⟩ := h.holds
  have hg := ((givesUp_exec c).after n s).run (r0 := .ok (.error .core)) (fun _ => rfl) (Prog.after n (Prog.exec c) s).2
    (by rw [(after_grows n _ s).2]; exact hd.ok)
  have hrun : (Prog.after n (Prog.exec c) s).1.run (Prog.after n (Prog.exec c) s).2 = (Prog.exec c).run s := run_after n _ s
  rw [hrun, run_exec c hc] at hg
  rcases hg with ⟨h1, _⟩ | ⟨_, h2, h3⟩
  · exact absurd h1 hap
  · have hcore : (execFailing n c s).2.core = (Prog.after n (Prog.exec c) s).2.core := h3
    have hre : (exec .reopen (execFailing n c s).2).2 = (exec .reopen (Prog.after n (Prog.exec c) s).2).2 :=
      congrArg St.open hcore
    refine ⟨h2, ?_⟩
    rcases dropped_write_partial h c n hn with ⟨h4, h5⟩ | ⟨h4, h5, h6⟩
    · exact .inl ⟨hcore.trans h4, fun later => by rw [hre]; exact h5 later⟩
    · exact .inr ⟨h4, h5, fun later => by rw [hre]; exact h6 later⟩

/-- And a call that needs to append nothing more is not affected at all: same reply, same state. -/
theorem needless_append_partial {s : St} (h : Reachable s) (c : Cmd) (hc : c ≠ .reopen) (n : Nat)
    (hap : (exec c s).2.core = (Prog.after n (Prog.exec c) s).2.core) :
    execFailing n c s = (.ok (exec c s).1, (exec c s).2) := by
  obtain ⟨d, hd⟩ := h.holds
  have hg := ((givesUp_exec c).after n s).run (r0 := .ok (.error .core)) (fun _ => rfl) (Prog.after n (Prog.exec c) s).2
    (by rw [(after_grows n _ s).2]; exact hd.ok)
  have hrun : (Prog.after n (Prog.exec c) s).1.run (Prog.after n (Prog.exec c) s).2 = (Prog.exec c).run s := run_after n _ s
  rw [hrun, run_exec c hc] at hg
  rcases hg with ⟨_, h2⟩ | ⟨h2, _⟩
  · have hio := (exec_refines hd c).2.ok
    show ((_ : Except Err Reply × St).1, (_ : Except Err Reply × St).2.working) = _
    rw [h2]
    show (_, ((exec c s).2.failing).working) = _
    congr 1
    generalize (exec c s).2 = t at hio
    obtain ⟨core, ⟨rd, ok⟩, cache, heap⟩ := t
    cases hio
    rfl
  · exact absurd hap h2

/-- A put on an empty core that fails after the header has been written. -/
example : (execFailing 3 (.put [97] none) St.init).1 = .ok (.error .core) ∧
    (execFailing 3 (.put [97] none) St.init).2.core = [headerBlock] ∧
    (Prog.after 3 (Prog.exec (.put [97] none)) St.init).1.ended = false ∧
    (exec (.put [97] none) St.init).2.core ≠ (Prog.after 3 (Prog.exec (.put [97] none)) St.init).2.core := by
  decide +kernel

/-- A del of a key that is not there appends nothing. -/
example : (exec (.del (demoKey 8)) (runSt demo St.init)).2.core =
    (Prog.after 0 (Prog.exec (.del (demoKey 8))) (runSt demo St.init)).2.core := by
  decide +kernel

/-! ## C53 -/

/-- A traversal and a put can wait for each other for ever.  To count the keys and the children of a
node the traversal takes a second read lock while it holds the first; if in between the put has
asked to write the node, the put waits for the first guard and the traversal waits behind the
put. -/
theorem no_deadlock_false : ∃ s, Reachable s ∧ ∃ sched, ∀ more,
    ((Flight.start [Prog.exec (.traverse {} (List.replicate 10 true)), Prog.exec (.put [97] (some [1]))] s).run
      (sched ++ more)).calls.map Prog.result = [none, none] := by
  refine ⟨runSt [.put [99] (some [3])] St.init, ⟨_, rfl⟩, List.replicate 5 0 ++ List.replicate 11 1, fun more => ?_⟩
  rw [show ∀ (w : Flight Reply) xs ys, w.run (xs ++ ys) = (w.run xs).run ys from fun w xs ys => List.foldl_append]
  have hs : ((Flight.start [Prog.exec (.traverse {} (List.replicate 10 true)), Prog.exec (.put [97] (some [1]))]
      (runSt [.put [99] (some [3])] St.init)).run (List.replicate 5 0 ++ List.replicate 11 1)).Stuck :=
    Flight.stuck_of (by decide +kernel)
  rw [(hs.run more).2.1]
  decide +kernel

/-- Deletions alone can come to wait for ever too.  To merge two siblings a deletion locks the list
of children of the left one and then that of the right one; if other deletions have meanwhile moved
nodes about, both can be the same node.  Another deletion is then stuck behind it, while the third
has replied. -/
theorem no_deadlock_dels_false : ∃ s, Reachable s ∧ ∃ sched, ∀ more,
    ((Flight.start ([.del [23], .del [38], .del [2]].map Prog.exec) s).run (sched ++ more)).calls.map Prog.result =
      [none, none, some (.del (some 29))] := by
  refine ⟨runSt (([41, 46, 6, 26, 21, 40, 47, 59, 19, 28, 25, 54, 45, 13, 56, 34, 14, 11, 29, 38, 18, 31, 48, 10, 50, 43, 12, 23,
      2, 39, 42].map fun k => Cmd.put [k] none) ++ [.del [59], .del [42]]) St.init, ⟨_, rfl⟩,
    ([(1, 1), (0, 8), (1, 7), (0, 2), (2, 1), (1, 2), (2, 17), (1, 6), (0, 12), (2, 3), (1, 4), (0, 2), (1, 12), (0, 8),
      (2, 19), (0, 10), (1, 7), (2, 9), (0, 7), (1, 7), (2, 5), (0, 2)] : List (Nat × Nat)).flatMap
        fun x => List.replicate x.2 x.1, fun more => ?_⟩
  rw [show ∀ (w : Flight Reply) xs ys, w.run (xs ++ ys) = (w.run xs).run ys from fun w xs ys => List.foldl_append]
  rw [((Flight.stuck_of (by decide +kernel) : Flight.Stuck _).run more).2.1]
  decide +kernel

/-- What does hold: without traversals and deletions, calls do not wait for each other for ever.  If
every call is polled again and again, all of them reply. -/
theorem no_deadlock_partial (s : St) (cs : List Cmd) (hw : ∀ c ∈ cs, c.walks = false) (hd : ∀ c ∈ cs, c.deletes = false)
    (f : Nat → Nat) (hf : ∀ i < cs.length, ∀ n, ∃ m, n ≤ m ∧ f m = i) :
    ∃ n, ∀ p ∈ ((Flight.start (cs.map Prog.exec) s).run ((List.range n).map f)).calls, ∃ r, p.result = some r := by
  have ho := orderly_start (d := cs.length) hw (fun i c _ hc => hd c (List.mem_of_getElem? hc)) s
  obtain ⟨n, h | ⟨q, hq, hl⟩⟩ := ho.settles f (by simpa [Flight.start] using hf)
  · exact ⟨n, h⟩
  · have h1 := Flight.run_length ((List.range n).map f) (Flight.start (cs.map Prog.exec) s)
    have h2 := (List.getElem?_eq_some_iff.mp hq).1
    rw [h1] at h2
    simp [Flight.start] at h2

/-- With one deletion among them, all reply, or else the deletion has come to ask for a lock that it
holds itself. -/
theorem no_deadlock_del_partial (s : St) (cs : List Cmd) (hw : ∀ c ∈ cs, c.walks = false) (d : Nat)
    (hd : ∀ i c, i ≠ d → cs[i]? = some c → c.deletes = false)
    (f : Nat → Nat) (hf : ∀ i < cs.length, ∀ n, ∃ m, n ≤ m ∧ f m = i) :
    ∃ n, (∀ p ∈ ((Flight.start (cs.map Prog.exec) s).run ((List.range n).map f)).calls, ∃ r, p.result = some r) ∨
      ∃ q, ((Flight.start (cs.map Prog.exec) s).run ((List.range n).map f)).calls[d]? = some q ∧ q.SelfLocked :=
  (orderly_start hw hd s).settles f (by simpa [Flight.start] using hf)

/-- With any number of deletions: if every call is polled again and again, then either all of them
reply, or some deletions come to stand in a ring, each holding the list of children that another of
them (or itself) asks for.  Those in a ring never reply. -/
theorem no_deadlock_dels_partial (s : St) (cs : List Cmd) (hw : ∀ c ∈ cs, c.walks = false)
    (f : Nat → Nat) (hf : ∀ i < cs.length, ∀ n, ∃ m, n ≤ m ∧ f m = i) :
    ((∃ n, ∀ p ∈ ((Flight.start (cs.map Prog.exec) s).run ((List.range n).map f)).calls, ∃ r, p.result = some r) ↔
      ¬ ∃ n js, ((Flight.start (cs.map Prog.exec) s).run ((List.range n).map f)).Ring js) ∧
    ∀ sched js, ((Flight.start (cs.map Prog.exec) s).run sched).Ring js → ∀ j ∈ js,
      (∃ c, cs[j]? = some c ∧ c.deletes = true) ∧
      ∀ more, ∃ q, ((Flight.start (cs.map Prog.exec) s).run (sched ++ more)).calls[j]? = some q ∧ q.result = none := by
  have happ : ∀ (w : Flight Reply) xs ys, w.run (xs ++ ys) = (w.run xs).run ys := fun w xs ys => List.foldl_append
  refine ⟨⟨?_, fun h => ?_⟩, fun sched js h j hj => ⟨h.deletes hw hj, fun more => ?_⟩⟩
  · rintro ⟨n, hn⟩ ⟨m, js, hr⟩
    -- at the later of the two moments
    have hm : ∀ a b, a ≤ b → (List.range b).map f = (List.range a).map f ++ ((List.range (b - a)).map (a + ·)).map f := by
      intro a b hab
      obtain ⟨c, rfl⟩ := Nat.exists_eq_add_of_le hab
      rw [List.range_add, List.map_append, Nat.add_sub_cancel_left]
    have hdone : ∀ (sched : List Nat) (w : Flight Reply), (∀ p ∈ w.calls, ∃ r, p.result = some r) →
        ∀ p ∈ (w.run sched).calls, ∃ r, p.result = some r := by
      intro sched
      induction sched with
      | nil => exact fun w h => h
      | cons i is ih =>
        intro w h
        refine ih (w.poll i) ?_
        rcases w.poll_cases i with ⟨β, x, k, hx, _, e⟩ | ⟨β, x, k, _, _, _, e⟩ | ⟨e, _⟩
        · obtain ⟨r, hr⟩ := h _ (List.mem_of_getElem? hx)
          cases hr
        · rw [e]; exact h
        · rw [e]; exact h
    have h1 := hdone (((List.range (max n m - n)).map (n + ·)).map f) _ hn
    rw [← happ, ← hm n (max n m) (by omega)] at h1
    have h2 := hr.run (((List.range (max n m - m)).map (m + ·)).map f)
    rw [← happ, ← hm m (max n m) (by omega)] at h2
    obtain ⟨j, js', rfl⟩ := List.exists_cons_of_ne_nil h2.1
    obtain ⟨q, h3, h4⟩ := h2.waits List.mem_cons_self
    obtain ⟨r, h5⟩ := h1 q (List.mem_of_getElem? h3)
    rw [h4] at h5
    cases h5
  · obtain ⟨n, hn | ⟨js, hr⟩⟩ := (mannerly_start hw s).settles f (by simpa [Flight.start] using hf)
    · exact ⟨n, hn⟩
    · exact absurd ⟨n, js, hr⟩ h
  · rw [happ]
    exact (h.run more).waits hj

/-- Readers, traversals among them, never wait: whatever the order in which they are polled, each
takes a step whenever it is its turn. -/
theorem readers_never_wait_partial (s : St) (cs : List Cmd) (hc : ∀ c ∈ cs, c.looks = true) (sched : List Nat) :
    ((Flight.start (cs.map Prog.exec) s).run sched).calls = (Prog.interleave sched (cs.map Prog.exec) s).1 ∧
    ((Flight.start (cs.map Prog.exec) s).run sched).st = (Prog.interleave sched (cs.map Prog.exec) s).2 ∧
    ((Flight.start (cs.map Prog.exec) s).run sched).queue = [] :=
  readers_run sched _ (fun p hp => by
    obtain ⟨c, h, rfl⟩ := List.mem_map.mp hp
    exact readLocks_looks (hc c h)) rfl

/-- A call that is alone does not wait for itself: polled often enough, it has replied what the
sequential model says. -/
theorem alone_never_waits_partial {s : St} (h : Reachable s) (c : Cmd) (hc : c ≠ .reopen) :
    ∃ n, (Flight.start [Prog.exec c] s).run (List.replicate n 0) = Flight.start [.pure (exec c s).1] (exec c s).2 := by
  have hrun := run_exec c hc s
  obtain ⟨n, r, h1, h2⟩ := alone_run (unblocked_exec c) (replies_exec c) s (by
    rw [hrun]
    intro he
    have he : (exec c s).1 = .error .diverge := by injection he
    have hn := no_failure h c
    cases c with
    | createHeader m =>
      rcases hn with ⟨_, hn⟩ | ⟨_, hn⟩ <;> rw [hn] at he <;> cases he
    | traverse b rs =>
      rcases hn with ⟨_, hn⟩ | ⟨_, hn⟩ | ⟨_, _, hn⟩ <;> rw [hn] at he <;> cases he
    | reopen => exact absurd rfl hc
    | _ => exact hn _ he)
  rw [hrun] at h1 h2
  injection h2 with h2
  subst h2
  exact ⟨n, h1⟩

/-! ## C67 -/

/-- Whatever calls are in flight: if every call is polled again and again, then all of them reply, or
they come to a standstill.  That is, no call takes a step any more, and to blame are traversals that
ask for a second read lock of a node, and deletions that hold the list of children of a node and ask
for that of a node which one of those to blame has locked. -/
theorem standstill_exact (s : St) (cs : List Cmd) (f : Nat → Nat) (hf : ∀ i < cs.length, ∀ n, ∃ m, n ≤ m ∧ f m = i) :
    (∃ n, ∀ p ∈ ((Flight.start (cs.map Prog.exec) s).run ((List.range n).map f)).calls, ∃ r, p.result = some r) ∨
    ∃ n, (∀ more, ((Flight.start (cs.map Prog.exec) s).run ((List.range n).map f ++ more)).calls =
        ((Flight.start (cs.map Prog.exec) s).run ((List.range n).map f)).calls ∧
        ((Flight.start (cs.map Prog.exec) s).run ((List.range n).map f ++ more)).st =
        ((Flight.start (cs.map Prog.exec) s).run ((List.range n).map f)).st) ∧
      ∃ js, ((Flight.start (cs.map Prog.exec) s).run ((List.range n).map f)).Jam cs js := by
  obtain ⟨n, h⟩ := (suits_start cs s).settles (fun n => (f n, none)) (fun p hp => by
    obtain ⟨c, _, rfl⟩ := List.mem_map.mp hp
    exact replies_exec c) (by simpa [Flight.start] using hf)
  rw [show (List.range n).map (fun n => (f n, (none : Option Trouble))) = ((List.range n).map f).map (·, none) by
    rw [List.map_map]; rfl, Flight.runTroubled_none] at h
  rcases h with h | ⟨h, js, hj⟩
  · refine .inl ⟨n, fun p hp => ?_⟩
    obtain ⟨i, hi⟩ := List.getElem?_of_mem hp
    refine (h i p hi).resolve_right fun h => ?_
    obtain ⟨_, _, h⟩ := List.mem_map.mp h
    cases h
  · refine .inr ⟨n, fun more => ?_, js, hj⟩
    rw [show ∀ (w : Flight Reply) xs ys, w.run (xs ++ ys) = (w.run xs).run ys from fun w xs ys => List.foldl_append]
    exact (h.run more).2

/-- Those to blame have not replied. -/
theorem standstill_waits {cs : List Cmd} {w : Flight Reply} {js : List Nat} (h : w.Jam cs js) :
    js ≠ [] ∧ ∀ j ∈ js, ∃ c q, cs[j]? = some c ∧ (c.walks = true ∨ c.deletes = true) ∧ w.calls[j]? = some q ∧
      q.result = none := by
  refine ⟨h.1, fun j hj => ?_⟩
  obtain ⟨c, q, h1, h2, h3⟩ := h.2 j hj
  have hr : ∀ y, q.needs = some y → q.result = none := by
    intro y hy
    cases q with
    | pure a => cases hy
    | throw e => rfl
    | step x k => rfl
  rcases h3 with ⟨hw, _, _, h4⟩ | ⟨hd, _, _, _, h4, _⟩
  · exact ⟨c, q, h1, .inl hw, h2, hr _ h4⟩
  · exact ⟨c, q, h1, .inr hd, h2, hr _ h4⟩

/-- The standstill of `no_deadlock_false`: the traversal is to blame. -/
example : ((Flight.start ([.traverse {} (List.replicate 10 true), .put [97] (some [1])].map Prog.exec)
    (runSt [.put [99] (some [3])] St.init)).run (List.replicate 5 0 ++ List.replicate 11 1)).Jam
    [.traverse {} (List.replicate 10 true), .put [97] (some [1])] [0] := by
  refine ⟨by simp, fun j hj => ?_⟩
  rw [List.mem_singleton] at hj
  subst hj
  refine ⟨_, _, rfl, rfl, .inl ⟨rfl, 1, ?_, ?_⟩⟩ <;> decide +kernel

/-- Three writers and a reader on the demo database, polled in turn. -/
example : ((Flight.start ([.put (demoKey 40) none, .put (demoKey 20) none, .get (demoKey 4), .createHeader none].map Prog.exec)
      (runSt demo St.init)).run ((List.range 400).map (· % 4))).calls.all fun p => p.result.isSome := by
  decide +kernel

end Hyperbee
