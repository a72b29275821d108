import Verif.Proof.Fmt
import Verif.Props.Demo
/-!
# C79: formatting a handle for debugging
-/

namespace Hyperbee

/-- The calls that write nodes. -/
def Cmd.edits : Cmd → Bool
  | .put _ _ => true
  | .putCas _ _ _ => true
  | .del _ => true
  | .delCas _ _ => true
  | _ => false

/-- Formatting a handle can panic: a get is fetching a block, with a read guard on the node it is searching, and a put
waits for that node; `format!("{:?}", handle)` then panics at src/blocks.rs:234.  When both have
returned it does not any more. -/
theorem fmt_false : ∃ s, Reachable s ∧ ∃ sched more,
    ((Flight.start [Prog.exec (.get [2]), Prog.exec (.put [3] none)] s).run sched).FmtPanics ∧
    ((Flight.start [Prog.exec (.get [2]), Prog.exec (.put [3] none)] s).run (sched ++ more)).calls.map Prog.result =
      [some (.got (some (2, none))), some (.put none 3)] ∧
    ((Flight.start [Prog.exec (.get [2]), Prog.exec (.put [3] none)] s).run (sched ++ more)).fmtPanics 10 = false :=
  ⟨runSt [.put [1] none, .put [2] none, .reopen] St.init, ⟨_, rfl⟩, List.replicate 8 0 ++ List.replicate 20 1,
    (List.replicate 40 [0, 1]).flatten, fmtPanics_of (n := 10) (by decide +kernel), by decide +kernel, by decide +kernel⟩

/-- What does hold, of any set of calls on any state, however they are polled: a formatting that panics does so
because a put or a deletion, conditional or not, is in flight and waits for a node of a cached block. -/
theorem fmt_partial (s : St) (cs : List Cmd) (sched : List Nat)
    (h : ((Flight.start (cs.map Prog.exec) s).run sched).FmtPanics) :
    ∃ (i : Nat) (c : Cmd) (p : Prog Reply), cs[i]? = some c ∧ c.edits = true ∧
      ((Flight.start (cs.map Prog.exec) s).run sched).calls[i]? = some p ∧ p.ended = false ∧
      ∃ q e a, ((Flight.start (cs.map Prog.exec) s).run sched).st.cache q = some e ∧ a ∈ e.nodes ∧
        ((a, Mode.write) ∈ p.holds ∨ p.needs = some (a, .write)) := by
  obtain ⟨q, e, a, hq, ha, ht⟩ := h
  obtain ⟨i, p, hp, hl⟩ := tryRead_false ht
  have keep := flight_keeps (P := fun i p => ∃ c, cs[i]? = some c ∧ (c.edits = true ∨ ReadLocks _ p))
    (fun i β x k ⟨c, h1, h2⟩ r => ⟨c, h1, h2.imp id fun h => h.next r⟩) sched (Flight.start (cs.map Prog.exec) s)
    (fun i p hp => by
      rw [show (Flight.start (cs.map Prog.exec) s).calls = cs.map Prog.exec from rfl, List.getElem?_map] at hp
      cases hc : cs[i]? with
      | none => rw [hc] at hp; cases hp
      | some c =>
        rw [hc] at hp
        cases hp
        refine ⟨c, rfl, ?_⟩
        cases c with
        | version => exact .inr (readLocks_looks rfl)
        | get k => exact .inr (readLocks_looks rfl)
        | traverse b rs => exact .inr (readLocks_looks rfl)
        | createHeader m => exact .inr (readLocks_header m)
        | reopen => exact .inr trivial
        | _ => exact .inl rfl)
  obtain ⟨c, h1, h2⟩ := keep i p hp
  refine ⟨i, c, p, h1, ?_, hp, ?_, q, e, a, hq, ha, hl.imp id And.right⟩
  · rcases h2 with h2 | h2
    · exact h2
    · rcases hl with hl | ⟨_, hl⟩
      · exact absurd hl (h2.never a).2
      · exact absurd hl (h2.never a).1
  · cases p with
    | pure b => rcases hl with hl | ⟨_, hl⟩ <;> cases hl
    | throw e => rcases hl with hl | ⟨_, hl⟩ <;> cases hl
    | step x k => rfl

/-- What is shown of the nodes of the newest tree is what is stored: if node `i` of the cached block `q` is the root or is
referred to, directly or not, from the root, its keys and children are shown as the block has them. -/
theorem fmt_shows {s : St} (h : Reachable s) {q i : Nat} {ns : List (Option Level)} {n : Option Level}
    (h2 : 2 ≤ s.core.length)
    (ht : Relation.ReflTransGen (RefersTo s.core) (s.core.length - 1, 0) (q, i))
    (hs : s.shown q = some ns) (hn : ns[i]? = some n) :
    ∃ m ls l, wireBlock s.core q = some (m, ls) ∧ ls[i]? = some l ∧ n = some l := by
  obtain ⟨d, hd⟩ := h.holds
  rcases hd.store with hb | ⟨H, t, h1, hc, _⟩
  · exact absurd hb.1 (by omega)
  · have hin : ∀ x, Relation.ReflTransGen (RefersTo s.core) (s.core.length - 1, 0) x → ⟨x.1, x.2⟩ ∈ t.refs := by
      intro x hx
      induction hx with
      | refl => exact h1.ref ▸ t.ref_mem_refs
      | tail _ hxy ih =>
        obtain ⟨m, hm⟩ := h1.rep.refs_some _ ih
        exact h1.rep.refs_down _ ih hm _ (refersTo_children hm hxy)
    have hr := hin _ ht
    obtain ⟨m, hm⟩ := h1.rep.refs_some _ hr
    unfold St.shown at hs
    cases he : s.cache q with
    | none => rw [he] at hs; cases hs
    | some e =>
      rw [he] at hs
      cases hs
      rw [List.getElem?_map] at hn
      cases ha : e.nodes[i]? with
      | none => rw [ha] at hn; cases hn
      | some a =>
        rw [ha] at hn
        cases hn
        have hk := hc _ hr a (by simp [addrOf, he, ha])
        obtain ⟨m', ls, l, w1, w2, w3, w4⟩ := node_wire hm
        refine ⟨m', ls, l, w1, w2, ?_⟩
        show Option.map toLevel s.heap[a]? = some l
        rw [hk, hm]
        cases l
        simp only at w3 w4
        subst w3 w4
        simp [toLevel, List.flatMap_map]

-- the hypotheses of `fmt_partial` and `fmt_shows` are met: the case above, and the root of the tree of two keys
example : ((Flight.start ([.get [2], .put [3] none].map Prog.exec) (runSt [.put [1] none, .put [2] none, .reopen] St.init)).run
    (List.replicate 8 0 ++ List.replicate 20 1)).FmtPanics := fmtPanics_of (n := 10) (by decide +kernel)
example : (runSt [.put [1] none, .put [2] none, .reopen, .get [1]] St.init).shown 2 = some [some ⟨[1, 2], []⟩] := by
  decide +kernel

/-- Of other nodes it is not: after two puts the cached block 1 is shown with both keys, the stored one has the first. -/
theorem fmt_stale : ∃ s, Reachable s ∧ s.shown 1 = some [some ⟨[1, 2], []⟩] ∧
    (wireBlock s.core 1).map Prod.snd = some [⟨[1], []⟩] :=
  ⟨runSt [.put [1] none, .put [2] none] St.init, ⟨_, rfl⟩, by decide +kernel, by decide +kernel⟩

end Hyperbee
