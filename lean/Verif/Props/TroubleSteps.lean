import Verif.Proof.TroubleSteps
import Verif.Props.SubTrouble
/-!
# Calls also end after few steps when things go wrong (C101)
-/

namespace Hyperbee

/-! ## C101 -/

/-- Whatever goes wrong with a step of a call about one entry, in whatever state, ends the call at once, and its
reply is an error; otherwise the step does what it does. -/
theorem fails_at_once (x : Option Prefixed × Cmd) (hx : x.2.OfOneEntry) (s : St) (n : Nat) (t : Trouble) :
    let p := (Prog.execVia x).after n s
    p.1.nextTroubled (some t) p.2 = p.1.next p.2 ∨ (t = .dropped ∧ p.1.nextTroubled (some t) p.2 = p) ∨
      ∃ e, (ReadErr e ∨ e = .core) ∧ (p.1.nextTroubled (some t) p.2).1 = .pure (.error e) := by
  intro p
  obtain ⟨c, hc, he, _⟩ := via_one hx
  have hp : p = (Prog.exec c).after n s := by rw [← he]
  obtain ⟨hb, hg⟩ := (bails_exec (one_not_walks hc)).after n (givesUp_exec c) s
  rw [← hp] at hb hg
  obtain ⟨q, s'⟩ := p
  cases q with
  | pure a => exact .inl rfl
  | throw e => exact .inl rfl
  | step y k =>
    dsimp only at hb hg ⊢
    by_cases hd : t = .dropped
    · exact .inr (.inl ⟨hd, by rw [hd]; rfl⟩)
    · have hd' : some t ≠ some Trouble.dropped := fun h => hd (Option.some.inj h)
      cases hm : (some t).bind y.trouble with
      | none =>
        left
        simp only [Prog.nextTroubled, hd', if_false, hm]
        rfl
      | some m =>
        right; right
        obtain ⟨e, h1, h2⟩ := trouble_ends hb hg hm s'
        exact ⟨e, h1, by simp only [Prog.nextTroubled, hd', if_false, hm]; exact h2⟩

/-- Several clients, each with a handle of its own, whose calls go to the database itself or to sub-databases, open
the database anew whenever a call failed or its future was dropped (C95).  After any history, with anything going
wrong in it, a call about one entry that is polled `174 * (log₅ version + 1)` times has its reply, whatever goes
wrong with its steps. -/
theorem troubled_ends_soon (before : List (Nat × Cmd)) (xs : List (Nat × (Option Prefixed × Cmd) × List (Option Trouble)))
    (hxs : ∀ x ∈ xs, NotCrossed x.2.1) (i : Nat) (x : Option Prefixed × Cmd) (hx : x.2.OfOneEntry)
    (ts : List (Option Trouble)) (hd : some .dropped ∉ ts)
    (hn : 174 * (Nat.log 5 (((World.runCautiousVia xs (World.run before World.init).2).2.at i).core.length) + 1) ≤ ts.length) :
    ∃ r t, (Prog.execVia x).afterTroubled ts ((World.runCautiousVia xs (World.run before World.init).2).2.at i) = (.pure r, t) ∧
      execTroubledVia ts x ((World.runCautiousVia xs (World.run before World.init).2).2.at i) = (some r, t) := by
  obtain ⟨d', _, h2⟩ := World.All.cautiousVia xs hxs (World.All.run before World.All.init)
  have hi := h2 i
  generalize (World.runCautiousVia xs (World.run before World.init).2).2.at i = s at *
  obtain ⟨c, hc, he, _⟩ := via_one hx
  have hst := hi.steps_log hc
  rw [hi.ver] at hst
  obtain ⟨r, t, h3, h4⟩ := afterTroubled_ends (bails_exec (one_not_walks hc)) (givesUp_exec c) (replies_exec c) ts s hd (by omega)
  rw [← he] at h3 h4
  refine ⟨r, t, h3, ?_⟩
  obtain ⟨o, c'⟩ := x
  cases c' <;> first | exact hx.elim | (simp only [execTroubledVia, h4])

/-- Twelve keys of a sub-database, and a deletion of one of them whose fifth read finds no block. -/
def demoSlow : List (Nat × (Option Prefixed × Cmd) × List (Option Trouble)) :=
  (List.range 12).map (fun i => (0, (some ⟨[1], [0]⟩, .put [UInt8.ofNat i] none), [])) ++
  [(1, (some ⟨[1], [0]⟩, .del [3]), List.replicate 24 none ++ [some (.read .missing)])]

/-- The hypotheses of `troubled_ends_soon`; the bound on the number of steps. -/
example : (∀ x ∈ demoSlow, NotCrossed x.2.1) ∧ ((World.runCautiousVia demoSlow World.init).2.at 1).core.length = 13 ∧
    174 * (Nat.log 5 13 + 1) = 348 := by
  refine ⟨?_, by decide +kernel, by decide +kernel⟩
  intro x hx p b sched conf h
  simp only [demoSlow, List.mem_append, List.mem_map, List.mem_cons, List.not_mem_nil, or_false] at hx
  rcases hx with ⟨i, _, rfl⟩ | rfl <;> cases h

/-- The number of steps the calls take when nothing goes wrong; and the replies when every read fails from the given step on:
the calls end within far fewer steps than the bound, with an error when a read was left to do. -/
example :
    let s := (World.runCautiousVia demoSlow World.init).2.at 2
    let cs : List Cmd := [.get [3], .put [3] (some [1]), .del [3]]
    (cs.map fun c => (Prog.execVia (some ⟨[1], [0]⟩, c)).steps s) = [36, 47, 64] ∧
    (cs.map fun c => ([0, 29, 40, 63] : List Nat).map fun n =>
      ((Prog.execVia (some ⟨[1], [0]⟩, c)).afterTroubled
        (List.replicate n none ++ List.replicate (64 - n) (some (.read .missing))) s).1.result.map fun r =>
          decide (r matches .error _)) = List.replicate 3 [some true, some true, some false, some false] := by
  decide +kernel

end Hyperbee
