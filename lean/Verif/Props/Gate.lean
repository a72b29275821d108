import Verif.Proof.Gate
import Verif.Props.Demo
import Verif.Props.Contents
/-!
# Calls behind a readers–writer lock

`overlapping_puts_false`, `read_during_write_false` and their like come from calls that write while
others run.  Here a lock keeps them apart (`Model/Gate`).  A traversal has the lock until its stream
has ended.
-/

namespace Hyperbee

/-! ## C73 -/

/-- The calls that have returned replied as if they had been made one after the other, in the order in
which they returned; each of them is there once; and whatever happens later, they stay the first. -/
theorem gate_linear {s : St} (h : Reachable s) (cs : List Cmd) (hc : ∀ c ∈ cs, c ≠ .reopen) (ts : List Gate.Turn)
    (hd : Gate.careful ts (Gate.start cs s) = true) :
    let g := Gate.run ts (Gate.start cs s)
    runReplies (g.log.map (·.1)) s = g.log.map (·.2) ∧ g.returned.Perm g.log ∧
      ∀ us, ∃ rest, (Gate.run us g).log = g.log ++ rest := by
  obtain ⟨d, hs⟩ := h.holds
  refine ⟨(Gate.Sound.run hs ts _ ?_ rfl (Gate.start_sound hs) hd).1, Gate.run_returned ts _ ?_, fun us => Gate.run_log us _⟩
  · intro q hq
    obtain ⟨c, hm, rfl⟩ := List.mem_map.mp hq
    exact hc c hm
  · have : (Gate.start cs s).returned = [] := by
      unfold Gate.returned Gate.start
      simp
    rw [this]
    exact .refl _

/-- Whenever no call has the lock for writing, the core is what these calls have made of it, and
later calls cannot tell the difference. -/
theorem gate_state {s : St} (h : Reachable s) (cs : List Cmd) (hc : ∀ c ∈ cs, c ≠ .reopen) (ts : List Gate.Turn)
    (hd : Gate.careful ts (Gate.start cs s) = true) (hw : (Gate.run ts (Gate.start cs s)).writing = false) :
    let g := Gate.run ts (Gate.start cs s)
    g.st.core = (runSt (g.log.map (·.1)) s).core ∧
      ∀ later, runReplies later g.st = runReplies later (runSt (g.log.map (·.1)) s) := by
  obtain ⟨d, hs⟩ := h.holds
  have h1 := (Gate.Sound.run hs ts (Gate.start cs s) (by
    intro q hq
    obtain ⟨c, hm, rfl⟩ := List.mem_map.mp hq
    exact hc c hm) rfl (Gate.start_sound hs) hd).2
  obtain ⟨d', h2, h3⟩ := h1.quiet hw
  obtain ⟨dt, ht⟩ := holds_run ((Gate.run ts (Gate.start cs s)).log.map (·.1)) hs
  exact ⟨h3, fun later => (runs_same later h2 ht h3.symm).1⟩

/-- Calls that are polled again and again return, unless they are dropped; dropping others does not
keep them from it. -/
theorem gate_finishes (s : St) (cs : List Cmd) (f : Nat → Gate.Turn)
    (hf : ∀ i < cs.length, ∀ n, ∃ m, n ≤ m ∧ f m = .poll i) :
    ∃ n, ∀ q ∈ (Gate.run ((List.range n).map f) (Gate.start cs s)).calls,
      (∃ r, q.2 = .finished r) ∨ q.2 = .dropped := by
  obtain ⟨n, hn⟩ := Gate.all_end f (Gate.start cs s) (by
    intro c p hm
    obtain ⟨c', _, h⟩ := List.mem_map.mp hm
    cases h) (by simpa [Gate.start] using hf)
  refine ⟨n, fun q hq => ?_⟩
  rw [Gate.run_upto] at hq
  unfold Gate.open at hn
  rw [List.countP_eq_zero] at hn
  have := hn q hq
  revert this
  cases q.2 with
  | finished r => exact fun _ => .inl ⟨r, rfl⟩
  | dropped => exact fun _ => .inr rfl
  | waiting => exact fun h => absurd rfl h
  | running p => exact fun h => absurd rfl h

/-- So two puts of different keys behind the lock both take effect, unlike in `overlapping_puts_false`. -/
theorem gate_puts {s : St} (h : Reachable s) (k1 k2 : Bytes) (v1 v2 : Option Bytes) (hk : k1 ≠ k2) (ts : List Gate.Turn)
    (hd : Gate.careful ts (Gate.start [.put k1 v1, .put k2 v2] s) = true) (r1 r2 : Reply)
    (hr : (Gate.run ts (Gate.start [.put k1 v1, .put k2 v2] s)).returned = [(.put k1 v1, r1), (.put k2 v2, r2)])
    (hw : (Gate.run ts (Gate.start [.put k1 v1, .put k2 v2] s)).writing = false) :
    ∃ q1 q2, runReplies [.get k1, .get k2] (Gate.run ts (Gate.start [.put k1 v1, .put k2 v2] s)).st =
      [.got (some (q1, v1)), .got (some (q2, v2))] := by
  have hp := (gate_linear h [.put k1 v1, .put k2 v2] (by simp) ts hd).2.1
  rw [hr] at hp
  rw [(gate_state h [.put k1 v1, .put k2 v2] (by simp) ts hd hw).2]
  obtain ⟨d, hs⟩ := h.holds
  have e : ∀ (a b c d : Cmd) (s : St), runReplies [c, d] (runSt [a, b] s) =
      [(exec c (exec b (exec a s).2).2).1, (exec d (exec c (exec b (exec a s).2).2).2).1] := fun _ _ _ _ _ => rfl
  rcases perm_two hp with hl | hl
  · have h2 := (exec_refines (exec_refines hs (.put k1 v1)).2 (.put k2 v2)).2
    have h3 := exec_refines h2 (.get k1)
    have e3 := h3.1
    have e4 := (exec_refines h3.2 (.get k2)).1
    simp only [Db.Returns, Db.next] at e3 e4
    rw [hl]
    simp only [List.map_cons, List.map_nil]
    rw [e, e3, e4]
    exact ⟨d.nextSeq, (d.write k1 v1).nextSeq, by simp [Db.write, hk]⟩
  · have h2 := (exec_refines (exec_refines hs (.put k2 v2)).2 (.put k1 v1)).2
    have h3 := exec_refines h2 (.get k1)
    have e3 := h3.1
    have e4 := (exec_refines h3.2 (.get k2)).1
    simp only [Db.Returns, Db.next] at e3 e4
    rw [hl]
    simp only [List.map_cons, List.map_nil]
    rw [e, e3, e4]
    exact ⟨(d.write k2 v2).nextSeq, d.nextSeq, by simp [Db.write, Ne.symm hk]⟩

/-- That no writer is dropped while it has the lock is needed: a put dropped there leaves a handle that
cannot read what was there all along. -/
theorem gate_dropped_false : ∃ s, Reachable s ∧ ∃ ts,
    (Gate.run ts (Gate.start [.put [97] (some [1]), .get [99]] s)).log.map (·.2) = [.error (.noBlockAtSeq 2)] ∧
    (exec (.get [99]) s).1 = .got (some (1, some [3])) :=
  ⟨runSt [.put [99] (some [3])] St.init, ⟨_, rfl⟩,
    List.replicate 14 (.poll 0) ++ [.drop 0] ++ List.replicate 20 (.poll 1), by decide +kernel, by decide +kernel⟩

def demoGate : Gate :=
  Gate.start [.get [97], .put [97] (some [1]), .put [98] (some [2]), .del [99], .traverse {} (List.replicate 40 true),
    .traverse {} (List.replicate 90 true)] (runSt [.put [99] (some [3])] St.init)

def demoTurns : List Gate.Turn :=
  (List.range 36).map (fun n => .poll (n % 6)) ++ [.drop 5] ++ (List.range 600).map (fun n => .poll (n % 5))

/-- Two puts, a deletion, a read and a traversal, polled in turn: all return, the read and the
traversal, which overlap, before the writers.  A read that was dropped before it returned. -/
example : (Gate.run demoTurns demoGate).log.map (·.2) =
      [.got none, .items [.ok ⟨1, [99], some [3]⟩] true, .put none 2, .put none 3, .del (some 1)] ∧
    (Gate.run demoTurns demoGate).writing = false ∧ Gate.careful demoTurns demoGate = true := by
  decide +kernel

end Hyperbee
