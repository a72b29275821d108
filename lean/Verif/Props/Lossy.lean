import Verif.SpecTrouble
import Verif.Proof.Lossy
import Verif.Props.Demo
import Verif.Props.Concurrent
/-!
# Appends that fail before or after the block was stored
-/

namespace Hyperbee

/-! ## C90 -/

theorem Cmd.isPut_of {c : Cmd} (h : ∃ k v, c = .put k v ∨ ∃ cas, c = .putCas k v cas) : c.isPut := by
  obtain ⟨k, v, rfl | ⟨cas, rfl⟩⟩ := h <;> trivial

theorem execLossy_run {c : Cmd} (hc : c ≠ .reopen) {ls : List (Option Loss)} {s t : St} {r : Reply}
    (h : (Prog.exec c).lossy ls s = (.ok r, t)) : execLossy ls c s = (r, t) := by
  cases c with
  | reopen => exact absurd rfl hc
  | _ => unfold execLossy; simp only [h]

/-- What a call is in which appends fail. -/
theorem execLossy_cases {s : St} (h : Reachable s) (c : Cmd) (hc : c ≠ .reopen) (ls : List (Option Loss)) :
    execLossy ls c s = exec c s ∨
    (execLossy ls c s).1 = .error .core ∧
      (some Loss.stored ∈ ls ∧
        ((execLossy ls c s).2 = (exec c s).2 ∨
         s.core = [] ∧ c.isPut ∧ (execLossy ls c s).2 = (exec (.createHeader none) s).2) ∨
       some Loss.refused ∈ ls ∧
        ((execLossy ls c s).2.core = s.core ∨
         s.core = [] ∧ c.isPut ∧ (execLossy ls c s).2.core = (exec (.createHeader none) s).2.core)) := by
  obtain ⟨d, hd⟩ := h.holds
  rcases lossy_cases (e := .pure (Reply.error .core)) (r0 := .ok (Reply.error .core)) (fun _ _ => rfl) (givesUp_exec c) ls s
    with h1 | ⟨n, ha, ⟨hl, h1⟩ | ⟨hl, h1⟩⟩
  · rw [run_exec c hc] at h1
    exact .inl (execLossy_run hc h1)
  · rw [execLossy_run hc h1]
    refine .inr ⟨rfl, .inr ⟨hl, ?_⟩⟩
    rcases after_exec hd.wf.rooms hd.ok c n ha.not_ended with e | ⟨h0, hp, e⟩
    · exact .inl e
    · refine .inr ⟨h0, Cmd.isPut_of hp, e.trans ?_⟩
      rw [createHeader_empty h0 hd.ok]
  · rw [execLossy_run hc h1]
    refine .inr ⟨rfl, .inl ⟨hl, ?_⟩⟩
    cases he : (Prog.after (n + 1) (Prog.exec c) s).1.ended with
    | true =>
      refine .inl ?_
      have := ended_run he (Prog.after (n + 1) (Prog.exec c) s).2
      rw [run_after, run_exec c hc] at this
      exact this.symm
    | false =>
      obtain ⟨h0, hp, e⟩ := after_header_only hd.wf.rooms hd.ok ha he
      refine .inr ⟨h0, Cmd.isPut_of hp, e.trans ?_⟩
      rw [createHeader_empty h0 hd.ok]

/-- An append that returns an error though the block was stored does no harm: the call returns the
error, and the handle is in the very state in which it would be had the call succeeded (or, if it
was the header of an empty database, in the one after the header was created). -/
theorem stored_append_fails {s : St} (h : Reachable s) (c : Cmd) (ls : List (Option Loss))
    (hl : some Loss.refused ∉ ls) :
    execLossy ls c s = exec c s ∨
    (execLossy ls c s).1 = .error .core ∧
      ((execLossy ls c s).2 = (exec c s).2 ∨
       s.core = [] ∧ c.isPut ∧ (execLossy ls c s).2 = (exec (.createHeader none) s).2) := by
  by_cases hc : c = .reopen
  · subst hc; exact .inl rfl
  · rcases execLossy_cases h c hc ls with h1 | ⟨h1, ⟨_, h2⟩ | ⟨h2, _⟩⟩
    · exact .inl h1
    · exact .inr ⟨h1, h2⟩
    · exact absurd h2 hl

/-- What became of a call: its reply, and what took effect. -/
inductive Fate (s : St) (c : Cmd) (ls : List (Option Loss)) : Reply → List Cmd → Prop
  /-- The call succeeded. -/
  | made : Fate s c ls (exec c s).1 [c]
  /-- It failed, and took effect. -/
  | lost : some Loss.stored ∈ ls → Fate s c ls (.error .core) [c]
  /-- It failed without effect. -/
  | refused : some Loss.refused ∈ ls → Fate s c ls (.error .core) []
  /-- It was the first put, and only created the header. -/
  | header : (∃ l, some l ∈ ls) → s.core = [] → c.isPut → Fate s c ls (.error .core) [.createHeader none]

/-- The same for several calls in turn, each on what the ones before it left. -/
inductive Fates : St → List (Cmd × List (Option Loss)) → List Reply → List Cmd → Prop
  | nil : Fates s [] [] []
  | cons : Fate s c ls r d → Fates (runSt d s) cs rs ds → Fates s ((c, ls) :: cs) (r :: rs) (d ++ ds)

/-- Through one and the same handle, whatever appends fail after having stored their blocks: each
call has its effect, or is the first put and has only created the header, or fails for no other
reason; every other call replies as it would have, and so do all calls that follow. -/
theorem stored_appends_fail {s : St} (h : Reachable s) (cs : List (Cmd × List (Option Loss)))
    (hl : ∀ x ∈ cs, some Loss.refused ∉ x.2) :
    ∃ ds, Fates s cs (runLossy cs s).1 ds ∧ (runLossy cs s).2 = runSt ds s := by
  induction cs generalizing s with
  | nil => exact ⟨[], .nil, rfl⟩
  | cons x cs ih =>
    obtain ⟨c, ls⟩ := x
    have hl1 := hl (c, ls) List.mem_cons_self
    have key : ∃ d, Fate s c ls (execLossy ls c s).1 d ∧ (execLossy ls c s).2 = runSt d s := by
      by_cases hc : c = .reopen
      · subst hc; exact ⟨_, .made, rfl⟩
      · rcases execLossy_cases h c hc ls with e | ⟨e, ⟨h1, h2⟩ | ⟨h1, _⟩⟩
        · rw [e]; exact ⟨_, .made, rfl⟩
        · rw [e]
          rcases h2 with h2 | ⟨h2, h3, h4⟩
          · exact ⟨_, .lost h1, h2⟩
          · exact ⟨_, .header ⟨_, h1⟩ h2 h3, h4⟩
        · exact absurd h1 hl1
    obtain ⟨d, k1, k2⟩ := key
    obtain ⟨ds, i1, i2⟩ := ih (h.runSt d) fun x hx => hl x (List.mem_cons_of_mem _ hx)
    refine ⟨d ++ ds, ?_, ?_⟩
    · show Fates s _ ((execLossy ls c s).1 :: (runLossy cs (execLossy ls c s).2).1) _
      rw [k2]
      exact .cons k1 i1
    · show (runLossy cs (execLossy ls c s).2).2 = _
      rw [k2, i2, runSt_append]

theorem careful_aux (cs : List (Cmd × List (Option Loss))) : ∀ {s s' : St}, Reachable s → Reachable s' → s.core = s'.core →
    ∃ ds, Fates s' cs (runCareful cs s).1 ds ∧ Reachable (runCareful cs s).2 ∧
      (runCareful cs s).2.core = (runSt ds s').core := by
  induction cs with
  | nil => intro s s' h h' hcore; exact ⟨[], .nil, h, hcore⟩
  | cons x cs ih =>
    intro s s' h h' hcore
    obtain ⟨c, ls⟩ := x
    obtain ⟨d1, hd1⟩ := h.holds
    obtain ⟨d2, hd2⟩ := h'.holds
    obtain ⟨e1, e2⟩ := calls_same hd1 hd2 hcore.symm c
    have hre : ∀ t, Reachable t → Reachable (exec .reopen t).2 := fun t ht => ht.runSt [.reopen]
    -- the state after the call, and after reopening if it failed
    have key : ∃ d, Fate s' c ls (execLossy ls c s).1 d ∧
        Reachable (if (execLossy ls c s).1 = .error .core then (exec .reopen (execLossy ls c s).2).2 else (execLossy ls c s).2) ∧
        (if (execLossy ls c s).1 = .error .core then (exec .reopen (execLossy ls c s).2).2 else (execLossy ls c s).2).core =
          (runSt d s').core := by
      have ok : ∀ t, t = exec c s → Fate s' c ls t.1 [c] ∧
          Reachable (if t.1 = .error .core then (exec .reopen t.2).2 else t.2) ∧
          (if t.1 = .error .core then (exec .reopen t.2).2 else t.2).core = (runSt [c] s').core := by
        rintro t rfl
        refine ⟨e1 ▸ .made, ?_, ?_⟩
        · split
          · exact hre _ (h.runSt [c])
          · exact h.runSt [c]
        · split <;> exact e2
      by_cases hc : c = .reopen
      · subst hc; exact ⟨_, ok _ rfl⟩
      · have hstate : ∀ {cs : List Cmd} {t : St}, t.core = (runSt cs s).core → Reachable (exec .reopen t).2 := by
          intro cs t ht
          rw [show (exec .reopen t).2 = St.open t.core from rfl, ht]
          exact hre _ (h.runSt cs)
        have hhead : (exec (.createHeader none) s).2.core = (runSt [.createHeader none] s').core :=
          (calls_same hd1 hd2 hcore.symm (.createHeader none)).2
        rcases execLossy_cases h c hc ls with e | ⟨e, h2⟩
        · rw [e]; exact ⟨_, ok _ rfl⟩
        · rw [e, if_pos rfl]
          rcases h2 with ⟨h1, h2 | ⟨h2, h3, h4⟩⟩ | ⟨h1, h2 | ⟨h2, h3, h4⟩⟩
          · exact ⟨_, .lost h1, hstate (cs := [c]) (congrArg St.core h2), (congrArg St.core h2).trans e2⟩
          · exact ⟨_, .header ⟨_, h1⟩ (hcore.symm.trans h2) h3, hstate (cs := [.createHeader none]) (congrArg St.core h4),
              (congrArg St.core h4).trans hhead⟩
          · exact ⟨_, .refused h1, hstate (cs := []) h2, h2.trans hcore⟩
          · exact ⟨_, .header ⟨_, h1⟩ (hcore.symm.trans h2) h3, hstate (cs := [.createHeader none]) h4, h4.trans hhead⟩
    obtain ⟨d, k1, k2, k3⟩ := key
    obtain ⟨ds, i1, i2, i3⟩ := ih k2 (h'.runSt d) k3
    exact ⟨d ++ ds, .cons k1 i1, i2, i3.trans (by rw [runSt_append])⟩

/-- A client that opens the database anew after each call that failed, whatever appends fail in
whichever way: each call has had its effect, or none, or was the first put and has only created the
header; the calls that succeeded have replied as they would have, and so do all calls that follow.
There is nothing in between, and it never takes effect later. -/
theorem careful_client {s : St} (h : Reachable s) (cs : List (Cmd × List (Option Loss))) :
    ∃ ds, Fates s cs (runCareful cs s).1 ds ∧
      (∀ later, runReplies later (runCareful cs s).2 = runReplies later (runSt ds s)) ∧
      (runCareful cs s).2.core = (runSt ds s).core := by
  obtain ⟨ds, h1, h2, h3⟩ := careful_aux cs h h rfl
  obtain ⟨d1, hd1⟩ := h2.holds
  obtain ⟨d2, hd2⟩ := (h.runSt ds).holds
  exact ⟨ds, h1, fun later => (runs_same later hd1 hd2 h3.symm).1, h3⟩

/-- Every append from here on fails, the block being stored. -/
def storedAll : List (Option Loss) := List.replicate 60 (some .stored)

/-- The first put fails at the header, the second after its block was stored; so repeating it finds
the key, and the del that failed leaves nothing for the next one. -/
example : (runLossy [(.put [97] (some [1]), storedAll), (.put [97] (some [1]), storedAll),
      (.put [97] (some [2]), []), (.del [97], storedAll), (.del [97], []), (.version, storedAll)] St.init).1 =
    [.error .core, .error .core, .put (some 1) 2, .error .core, .del none, .version 4] := by
  decide +kernel

example : ∃ ds, ds = [Cmd.createHeader none, .put [97] (some [1]), .put [97] (some [2]), .del [97], .del [97], .version] ∧
    runReplies (ds ++ [.get [97]]) St.init =
      [.created 1, .put none 1, .put (some 1) 2, .del (some 2), .del none, .version 4, .got none] :=
  ⟨_, rfl, by decide +kernel⟩

/-- Without opening anew, an append that was refused is not harmless (C32): here a del that failed
takes effect with a later put.  A careful client is spared that. -/
theorem refused_append_false : ∃ s, Reachable s ∧
    (runLossy [(.del [99], List.replicate 60 (some .refused)), (.put [98] none, []), (.reopen, []), (.get [99], [])] s).1 =
      [.error .core, .put none 3, .opened, .got none] ∧
    (runCareful [(.del [99], List.replicate 60 (some .refused)), (.put [98] none, []), (.reopen, []), (.get [99], [])] s).1 =
      [.error .core, .put none 3, .opened, .got (some (1, some [3]))] :=
  ⟨runSt [.put [99] (some [3]), .put [97] (some [1])] St.init, ⟨_, rfl⟩, by decide +kernel, by decide +kernel⟩

end Hyperbee
