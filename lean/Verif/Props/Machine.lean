import Verif.Proof.Machine
import Verif.Props.Contents
import Verif.Props.Concurrent
import Verif.Props.Corrupt
/-!
# Machine integers

Property C89: the sums, differences, products and conversions of the code never overflow and never lose
bits, in builds with and without overflow checks, as long as vectors have the sizes a machine can hold.
-/

namespace Hyperbee

/-- A call on a reachable state never panics. -/
theorem Reachable.calm {s : St} (hs : Reachable s) (c : Cmd) (m : String) : (exec c s).1 ≠ .error (.panic m) := by
  have h := no_failure hs c
  intro he
  cases c with
  | createHeader b =>
    rcases h with ⟨_, h⟩ | ⟨_, h⟩ <;> rw [h] at he <;> cases he
  | traverse b sched =>
    rcases h with ⟨_, h⟩ | ⟨_, h⟩ | ⟨_, _, h⟩ <;> rw [h] at he <;> cases he
  | _ => exact h _ he

/-- C89, one call.  On a reachable state a call does what it would do with numbers without end: same reply, same
blocks, same memory. -/
theorem machine_call {μ : Machine} (hw : 4 ≤ μ.width) {s : St} (hs : Reachable s) (c : Cmd) (hc : c ≠ .reopen)
    (hf : (Prog.exec c).Fits μ.room s) : (μ.exec c).run s = (.ok (exec c s).1, (exec c s).2) := by
  rw [← run_exec c hc s]
  refine (Meets.exec (Machine.has hw) c).run hf fun m _ => ?_
  rw [run_exec c hc s]
  intro h
  exact hs.calm c m (Except.ok.inj h)

/-- C89, histories. -/
theorem machine_history {μ : Machine} (hw : 4 ≤ μ.width) (cs : List Cmd) {s : St} (hs : Reachable s)
    (hf : HistoryFits μ.room cs s) : μ.runs cs s = run cs s := by
  induction cs generalizing s with
  | nil => rfl
  | cons c cs ih =>
    have hs' : Reachable (exec c s).2 := by
      obtain ⟨ds, rfl⟩ := hs
      exact ⟨ds ++ [c], by rw [runSt_append]; rfl⟩
    have hrest := ih hs' hf.2
    have hhead : μ.call c s = exec c s := by
      unfold Machine.call
      cases c with
      | reopen => rfl
      | _ => simp only [machine_call hw hs _ (by intro h; cases h) hf.1]
    unfold Machine.runs run
    simp only [hhead, hrest]

/-- C89, overlapping calls, in any order of their steps, dropped or not: if none of them panics on a node number out
of range with numbers without end, what they return and what they leave is the same. -/
theorem machine_overlap {μ : Machine} (hw : 4 ≤ μ.width) (cs : List Cmd) (sched : List Nat) (s : St)
    (hf : Prog.AllFit μ.room sched (cs.map Prog.exec) s)
    (hn : ∀ m ∈ offsetPanics, Prog.pure (.error (.panic m)) ∉ (Prog.interleave sched (cs.map Prog.exec) s).1) :
    (Prog.interleave sched (cs.map μ.exec) s).1.map Prog.result =
      (Prog.interleave sched (cs.map Prog.exec) s).1.map Prog.result ∧
    (Prog.interleave sched (cs.map μ.exec) s).2 = (Prog.interleave sched (cs.map Prog.exec) s).2 := by
  have h : List.Forall₂ (Meets μ.room) (cs.map Prog.exec) (cs.map μ.exec) := by
    induction cs with
    | nil => exact .nil
    | cons c cs _ =>
      clear hf hn
      induction (c :: cs) with
      | nil => exact .nil
      | cons c cs ih => exact .cons (Meets.exec (Machine.has hw) c) ih
  exact (interleave_meets sched _ _ s h hf hn).symm

/-- C89, overlapping reads on a reachable state. -/
theorem machine_readers {μ : Machine} (hw : 4 ≤ μ.width) {s : St} (hs : Reachable s) (cs : List Cmd)
    (hc : ∀ c ∈ cs, c.looks = true) (sched : List Nat) (hf : Prog.AllFit μ.room sched (cs.map Prog.exec) s) :
    (Prog.interleave sched (cs.map μ.exec) s).1.map Prog.result =
      (Prog.interleave sched (cs.map Prog.exec) s).1.map Prog.result ∧
    (Prog.interleave sched (cs.map μ.exec) s).2 = (Prog.interleave sched (cs.map Prog.exec) s).2 := by
  refine machine_overlap hw cs sched s hf fun m _ hm => ?_
  obtain ⟨i, hi⟩ := List.getElem?_of_mem hm
  obtain ⟨d, hd⟩ := hs.holds
  obtain ⟨c, _, h⟩ := readers_undisturbed hd.wf.rooms cs hc sched i _ (.error (.panic m)) hi rfl
  exact hs.calm c m h.symm

/-- Vectors that fit in every state a call goes through are vectors that fit whenever it looks. -/
theorem roomy_fits {B : Nat} (p : Prog α) : ∀ (s : St), (∀ n, (p.after n s).2.Roomy B) → p.Fits B s := by
  induction p with
  | pure a => intro s _; trivial
  | throw e => intro s _; trivial
  | step x k ih =>
    intro s h
    exact ⟨(h 0).fits x, ih _ _ fun n => h (n + 1)⟩

/-! ## Cases -/

/-- The usual targets. -/
def pc64 (checked : Bool) : Machine := ⟨64, checked⟩

/-- A 32 bit target, as WebAssembly is. -/
def pc32 (checked : Bool) : Machine := ⟨32, checked⟩

instance Atom.decFits (B : Nat) : {β : Type} → (x : Atom β) → (r : Except Err β) → Decidable (x.Fits B r)
  | _, .readNode _, .ok n => inferInstanceAs (Decidable (n.keys.length < B ∧ n.children.length < B))
  | _, .readNode _, .error _ => .isTrue trivial
  | _, .cacheGet _, .ok (some e) => inferInstanceAs (Decidable (e.nodes.length < B))
  | _, .cacheGet _, .ok none => .isTrue trivial
  | _, .cacheGet _, .error _ => .isTrue trivial
  | _, .coreFetch _, .ok (some e) => inferInstanceAs (Decidable (e.nodes.length < B))
  | _, .coreFetch _, .ok none => .isTrue trivial
  | _, .coreFetch _, .error _ => .isTrue trivial
  | _, .descentFuel, .ok n => inferInstanceAs (Decidable (n < B))
  | _, .descentFuel, .error _ => .isTrue trivial
  | _, .under _ _ x, r => Atom.decFits B x r
  | _, .version, _ => .isTrue trivial
  | _, .cacheInsert _ _, _ => .isTrue trivial
  | _, .edit _ _ _, _ => .isTrue trivial
  | _, .lockChildren _, _ => .isTrue trivial
  | _, .moveChildren _ _ _, _ => .isTrue trivial
  | _, .alloc _, _ => .isTrue trivial
  | _, .coreAppend _, _ => .isTrue trivial

instance Prog.decFits (B : Nat) : (p : Prog α) → (s : St) → Decidable (p.Fits B s)
  | .pure _, _ => .isTrue trivial
  | .throw _, _ => .isTrue trivial
  | .step x k, s =>
    have := Prog.decFits B (k (x.run s).1) (x.run s).2
    inferInstanceAs (Decidable (_ ∧ _))

instance Prog.decNextFits (B : Nat) : (p : Prog α) → (s : St) → Decidable (p.NextFits B s)
  | .pure _, _ => .isTrue trivial
  | .throw _, _ => .isTrue trivial
  | .step x _, s => Atom.decFits B x (x.run s).1

instance Prog.decAllFit (B : Nat) : (sched : List Nat) → (ps : List (Prog α)) → (s : St) → Decidable (Prog.AllFit B sched ps s)
  | [], _, _ => .isTrue trivial
  | i :: is, ps, s => by
    unfold Prog.AllFit
    exact match ps[i]? with
    | none => Prog.decAllFit B is ps s
    | some p =>
      have := Prog.decAllFit B is (ps.set i (p.next s).1) (p.next s).2
      inferInstanceAs (Decidable (_ ∧ _))

instance decHistoryFits (B : Nat) : (cs : List Cmd) → (s : St) → Decidable (HistoryFits B cs s)
  | [], _ => .isTrue trivial
  | c :: cs, s =>
    have := decHistoryFits B cs (exec c s).2
    inferInstanceAs (Decidable (_ ∧ _))

theorem demo_fits : HistoryFits (pc32 true).room demo St.init := by decide +kernel

/-- A history with splits, rotations and merges fits a 32 bit target. -/
example : (pc32 true).runs demo St.init = run demo St.init :=
  machine_history (by decide) demo ⟨[], rfl⟩ demo_fits

/-- Two reads and a deletion that overlap. -/
example : Prog.AllFit (pc32 false).room ((List.range 200).map (· % 3))
    ([.get (demoKey 4), .del (demoKey 9), .traverse {} (List.replicate 9 true)].map Prog.exec) (runSt demo St.init) := by
  decide +kernel

/-- Room is needed: with three bits, the traversal of a node with four keys overflows.  Checked builds
panic, others yield too little. -/
theorem machine_tight :
    ((Machine.mk 3 true).runs (demoPuts.take 4 ++ [.traverse {} (List.replicate 40 true)]) St.init).1.getLast? =
      some (.error (.panic "attempt to multiply with overflow")) ∧
    ((Machine.mk 3 false).runs (demoPuts.take 4 ++ [.traverse {} (List.replicate 40 true)]) St.init).1.getLast? =
      some (.items [] true) ∧
    (runReplies (demoPuts.take 4 ++ [.traverse {} (List.replicate 40 true)]) St.init).getLast? ≠ some (.items [] true) := by
  decide +kernel

/-- Reachability is needed: where a core this library did not write makes a lookup panic on a 64 bit target, a
32 bit target may return an error instead. -/
theorem machine_forged :
    ((pc64 true).call (.get [5]) (St.open [encodeHeader ⟨PROTOCOL, none⟩, forged [⟨[1], [1, 0, 1, 2 ^ 32]⟩]])).1 =
      .error (.panic "blocks.rs:224 offset *should* always point to a real node") ∧
    ((pc32 true).call (.get [5]) (St.open [encodeHeader ⟨PROTOCOL, none⟩, forged [⟨[1], [1, 0, 1, 2 ^ 32]⟩]])).1 =
      .error (.u64ToUsize (2 ^ 32)) := by
  decide +kernel

end Hyperbee
