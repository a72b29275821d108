import Verif.Proof.Trouble
import Verif.Props.Flaky
import Verif.Props.Lossy
import Verif.Proof.Handles
/-!
# A client that opens the database anew after every failure
-/

namespace Hyperbee

/-! ## C93 -/

theorem execTroubled_of {c : Cmd} (hc : c ≠ .reopen) {ts : List (Option Trouble)} {s t : St} {r : Reply}
    (h : (Prog.exec c).troubled ts s = (some (.ok r), t)) : execTroubled ts c s = (some r, t) := by
  cases c with
  | reopen => exact absurd rfl hc
  | _ => unfold execTroubled; simp only [h]

theorem execTroubled_none {c : Cmd} (hc : c ≠ .reopen) {ts : List (Option Trouble)} {s t : St}
    (h : (Prog.exec c).troubled ts s = (none, t)) : execTroubled ts c s = (none, t) := by
  cases c with
  | reopen => exact absurd rfl hc
  | _ => unfold execTroubled; simp only [h]

/-- What a client has after the call: the handle, or a new one if the call failed. -/
def renewed (r : Option Reply) (t : St) : St := if failed r then (exec .reopen t).2 else t

theorem renewed_holds {t : St} {d : Db} (r : Option Reply) (h : Holds t d) : Holds (renewed r t) d := by
  unfold renewed
  split
  · exact h.stored.open
  · exact h

theorem renewed_stored {t : St} {d : Db} {r : Option Reply} (hr : failed r = true) (h : Stored t.core d) :
    Holds (renewed r t) d := by
  unfold renewed
  rw [if_pos hr]
  exact h.open

/-- The database after one more call, or none. -/
def Db.and (d : Db) : Option Cmd → Db
  | none => d
  | some c => d.next c

/-- The core after one more call, or none. -/
def coreAnd (o : Option Cmd) (s : St) : List Bytes :=
  match o with
  | none => s.core
  | some c => (exec c s).2.core

/-- One call. -/
theorem execTroubled_cases {s : St} {d : Db} (h : Holds s d) (c : Cmd) (ts : List (Option Trouble)) :
    ∃ o, Became d c ts (execTroubled ts c s).1 (d.and o) ∧ (execTroubled ts c s).2.core = coreAnd o s ∧
      Holds (renewed (execTroubled ts c s).1 (execTroubled ts c s).2) (d.and o) := by
  have hex := exec_refines h c
  have ran : execTroubled ts c s = (some (exec c s).1, (exec c s).2) →
      ∃ o, Became d c ts (execTroubled ts c s).1 (d.and o) ∧ (execTroubled ts c s).2.core = coreAnd o s ∧
        Holds (renewed (execTroubled ts c s).1 (execTroubled ts c s).2) (d.and o) := by
    intro e
    rw [e]
    exact ⟨some c, .made hex.1, rfl, renewed_holds _ hex.2⟩
  by_cases hc : c = .reopen
  · subst hc; exact ran rfl
  cases hw : c.walks with
  | true =>
    have hlook : c.looks = true := by cases c <;> first | rfl | cases hw
    rcases troubled_noApp (noApp_looks hlook) ts s with ⟨h1, t, h2, h3⟩ | h1
    · rw [execTroubled_none hc h2]
      exact ⟨none, .without (.dropped h1), h3, renewed_stored rfl (h3 ▸ h.stored)⟩
    · have hflaky : execTroubled ts c s = (some (execFlaky (readsOf ts) c s).1, (execFlaky (readsOf ts) c s).2) := by
        unfold execTroubled execFlaky
        cases c with
        | reopen => cases hw
        | _ =>
          simp only [h1]
          generalize (Prog.exec _).flaky (readsOf ts) s = x
          obtain ⟨r | r, t⟩ := x <;> rfl
      by_cases hr : ∃ f, some (.read f) ∈ ts
      · obtain ⟨f, hr⟩ := hr
        cases c with
        | traverse b sched =>
          rcases h.store with hb | ⟨H, t, ht, hco, hcon⟩
          · exact ran (by rw [hflaky, traverse_refused (.inl hb.1)])
          · cases hb : b.build with
            | error e => exact ran (by rw [hflaky, traverse_refused (.inr ⟨e, hb⟩)])
            | ok conf =>
              obtain ⟨e1, g⟩ := traverse_flakes ht h.wf hco hb sched (readsOf ts)
              rw [hflaky]
              rcases g with ⟨e, g1, g2⟩ | ⟨xs, fin, rest, g1, g2, g3, g4, _⟩ | ⟨g1, _⟩
              · rw [g2]
                exact ⟨none, .without (.read hr g1), e1.core, renewed_holds _ (h.ext e1)⟩
              · rw [g1]
                refine ⟨none, .walked hr rfl hb (listing_isListing ht hcon (build_sound hb)) g2 (fun e he => ?_) g4, e1.core,
                  renewed_holds _ (h.ext e1)⟩
                rcases g3 e he with h | ⟨e, h, rfl⟩
                · exact h.gapErr
                · exact .start h
              · rw [g1]
                exact ⟨none, .resumed hr rfl, e1.core, renewed_holds _ (h.ext e1)⟩
        | _ => cases hw
      · refine ran ?_
        rw [hflaky]
        have hn : (Prog.exec c).flaky (readsOf ts) s = (Prog.exec c).run s :=
          flaky_none _ _ _ fun f hf => hr ⟨f, readsOf_mem hf⟩
        rw [run_exec c hc] at hn
        rw [execFlaky_of hc _ s (congrArg Prod.fst hn), hn]
  | false =>
    have header : Stored [headerBlock] (d.next (.createHeader none)) ∨ s.core ≠ [] := by
      by_cases h0 : s.core = []
      · left
        have := (exec_refines h (.createHeader none)).2.stored
        rwa [createHeader_empty h0 h.ok] at this
      · exact .inr h0
    have hcore : s.core = [] → [headerBlock] = coreAnd (some (.createHeader none)) s := by
      intro h0
      show _ = (exec _ s).2.core
      rw [createHeader_empty h0 h.ok]
    have early : ∀ {n : Nat} {r : Option Reply}, failed r = true → Excuse ts r →
        (Prog.after n (Prog.exec c) s).1.ended = false → execTroubled ts c s = (r, (Prog.after n (Prog.exec c) s).2) →
        ∃ o, Became d c ts (execTroubled ts c s).1 (d.and o) ∧ (execTroubled ts c s).2.core = coreAnd o s ∧
          Holds (renewed (execTroubled ts c s).1 (execTroubled ts c s).2) (d.and o) := by
      intro n r hr hx hn he
      rw [he]
      rcases after_exec h.wf.rooms h.ok c n hn with e | ⟨h0, hp, e⟩
      · exact ⟨none, .without hx, e, renewed_stored hr (e ▸ h.stored)⟩
      · refine ⟨some (.createHeader none), .header (.inl hx) (by rw [h.ver, h0]; rfl) (Cmd.isPut_of hp), e.trans (hcore h0), renewed_stored hr ?_⟩
        rw [e]
        exact header.resolve_right (fun h => h h0)
    rcases troubled_cases (bails_exec hw) (givesUp_exec c) ts s with h1 | ⟨n, hn, ⟨h1, h2⟩ | ⟨f, e, h1, h2, h3⟩ | ⟨ha, ⟨h1, h2⟩ | ⟨h1, h2⟩⟩⟩
    · rw [run_exec c hc] at h1
      exact ran (execTroubled_of hc h1)
    · exact early rfl (.dropped h1) hn (execTroubled_none hc h2)
    · exact early rfl (.read h1 h2) hn (execTroubled_of hc h3)
    · exact early rfl (.append h1) hn (execTroubled_of hc h2)
    · rw [execTroubled_of hc h2]
      cases he : (Prog.after (n + 1) (Prog.exec c) s).1.ended with
      | true =>
        have := ended_run he (Prog.after (n + 1) (Prog.exec c) s).2
        rw [run_after, run_exec c hc] at this
        rw [← show (exec c s).2 = _ from this]
        exact ⟨some c, .unheard h1, rfl, renewed_stored rfl hex.2.stored⟩
      | false =>
        obtain ⟨h0, hp, e⟩ := after_header_only h.wf.rooms h.ok ha he
        refine ⟨some (.createHeader none), .header (.inr ⟨h1, rfl⟩) (by rw [h.ver, h0]; rfl) (Cmd.isPut_of hp), (congrArg St.core e).trans (hcore h0),
          renewed_stored rfl ?_⟩
        rw [e]
        exact header.resolve_right (fun h => h h0)

theorem runCautious_holds {s : St} {d : Db} (h : Holds s d) (cs : List (Cmd × List (Option Trouble))) :
    ∃ d', AllBecame d cs (runCautious cs s).1 d' ∧ Holds (runCautious cs s).2 d' := by
  induction cs generalizing s d with
  | nil => exact ⟨d, .nil, h⟩
  | cons x cs ih =>
    obtain ⟨c, ts⟩ := x
    obtain ⟨o, h1, _, h2⟩ := execTroubled_cases h c ts
    obtain ⟨d2, i1, i2⟩ := ih h2
    exact ⟨d2, .cons h1 i1, i2⟩

/-- C93: reads fail, appends fail before or after their blocks were stored, and calls are dropped, all of
it as often as it pleases; the client opens the database anew after each call that was dropped or
returned an error.  Each call did what it does, or failed without effect, or took effect unheard, or
was the first put and created no more than the header; a traversal has errors in the place of what it
could not read.  The calls that follow, however many, answer as on a database where just that has
happened. -/
theorem cautious_client (before : List Cmd) (cs : List (Cmd × List (Option Trouble))) :
    ∃ d', AllBecame (Db.empty.after before) cs (runCautious cs (runSt before St.init)).1 d' ∧
      ∀ later, d'.Answers later (runReplies later (runCautious cs (runSt before St.init)).2) := by
  obtain ⟨d', h1, h2⟩ := runCautious_holds (run_refines before Holds.init).2 cs
  exact ⟨d', h1, fun later => (run_refines later h2).1⟩

theorem Db.next_map {d : Db} {c : Cmd} {k : Bytes} (h : ¬ c.mayChange k) : (d.next c).map k = d.map k := by
  have hw : ∀ {k' : Bytes} {v : Option Bytes}, ¬ k' = k → (d.write k' v).map k = d.map k := fun h => if_neg fun e => h e.symm
  have hr : ∀ {k' : Bytes}, ¬ k' = k → (d.remove k').map k = d.map k := fun h => if_neg fun e => h e.symm
  cases c with
  | put k' v => exact hw h
  | putCas k' v cas =>
    simp only [Db.next]
    split
    · exact hw h
    · rfl
  | del k' =>
    simp only [Db.next]
    split
    · exact hr h
    · rfl
  | delCas k' cas =>
    simp only [Db.next]
    split
    · rfl
    · split
      · exact hr h
      · rfl
  | _ => rfl

theorem Became.map {d d' : Db} {c : Cmd} {ts : List (Option Trouble)} {r : Option Reply} {k : Bytes}
    (h : Became d c ts r d') (hk : ¬ c.mayChange k) : d'.map k = d.map k := by
  cases h with
  | made _ => exact Db.next_map hk
  | without _ => rfl
  | unheard _ => exact Db.next_map hk
  | header _ _ _ => rfl
  | walked _ _ _ _ _ _ _ => rfl
  | resumed _ _ => rfl

theorem AllBecame.map {d d' : Db} {cs : List (Cmd × List (Option Trouble))} {rs : List (Option Reply)} {k : Bytes}
    (h : AllBecame d cs rs d') (hk : ∀ x ∈ cs, ¬ x.1.mayChange k) : d'.map k = d.map k := by
  induction h with
  | nil => rfl
  | cons h1 _ ih =>
    rw [ih fun x hx => hk x (List.mem_cons_of_mem _ hx)]
    exact h1.map (hk _ List.mem_cons_self)

theorem AllBecame.append {d d' : Db} {xs ys : List (Cmd × List (Option Trouble))} {rs : List (Option Reply)}
    (h : AllBecame d (xs ++ ys) rs d') : ∃ e rs1 rs2, rs = rs1 ++ rs2 ∧ rs1.length = xs.length ∧
      AllBecame d xs rs1 e ∧ AllBecame e ys rs2 d' := by
  induction xs generalizing d rs with
  | nil => exact ⟨d, [], rs, rfl, rfl, .nil, h⟩
  | cons x xs ih =>
    cases h with
    | cons h1 h2 =>
      obtain ⟨e, rs1, rs2, rfl, g1, g2, g3⟩ := ih h2
      exact ⟨e, _ :: rs1, rs2, rfl, by simp [g1], .cons h1 g2, g3⟩

/-- C93: a put that such a client saw succeed is not lost by anything that goes wrong before or after
it: until a call about the same key, the key has the value that was put. -/
theorem acknowledged_stays (before : List Cmd) (xs ys : List (Cmd × List (Option Trouble))) {k : Bytes} {v : Option Bytes}
    {ts : List (Option Trouble)} {old : Option Nat} {n : Nat}
    (hy : ∀ y ∈ ys, ¬ y.1.mayChange k)
    (hr : (runCautious (xs ++ (.put k v, ts) :: ys) (runSt before St.init)).1[xs.length]? = some (some (.put old n))) :
    (exec (.get k) (runCautious (xs ++ (.put k v, ts) :: ys) (runSt before St.init)).2).1 = .got (some (n, v)) := by
  obtain ⟨d', h1, h2⟩ := cautious_client before (xs ++ (.put k v, ts) :: ys)
  obtain ⟨e, rs1, rs2, g1, g2, _, g3⟩ := h1.append
  obtain ⟨_, _, e1, e2, _⟩ := h2 [.get k]
  cases e1
  rw [show (exec (.get k) _).1 = _ from e2]
  cases g3 with
  | cons g3 g4 =>
    rw [g1, List.getElem?_append_right (by omega), g2, Nat.sub_self] at hr
    cases hr
    rw [g4.map hy]
    cases g3 with
    | made h =>
      cases show Reply.put old n = _ from h
      show Reply.got (if k = k then _ else _) = _
      rw [if_pos rfl]
    | without h => cases h
    | header h _ _ =>
      rcases h with h | ⟨_, h⟩
      · cases h
      · cases h

theorem World.All.cautious : ∀ (cs : List (Nat × Cmd × List (Option Trouble))) {w : World} {d : Db}, w.All d →
    ∃ d', AllBecame d (cs.map (·.2)) (World.runCautious cs w).1 d' ∧ (World.runCautious cs w).2.All d' := by
  intro cs
  induction cs with
  | nil => intro w d h; exact ⟨d, .nil, h⟩
  | cons x cs ih =>
    intro w d h
    obtain ⟨i, c, ts⟩ := x
    obtain ⟨o, h1, h2, h3⟩ := execTroubled_cases (h i) c ts
    have hall : (w.set i (renewed (execTroubled ts c (w.at i)).1 (execTroubled ts c (w.at i)).2)).All (d.and o) := by
      intro j
      by_cases hj : j = i
      · subst hj; rw [w.set_at j h3.io]; exact h3
      · rw [w.set_other _ hj]
        have hcore : (renewed (execTroubled ts c (w.at i)).1 (execTroubled ts c (w.at i)).2).core = coreAnd o (w.at i) := by
          rw [← h2]
          unfold renewed
          split <;> rfl
        rw [hcore]
        cases o with
        | none => exact h j
        | some c => exact (h j).follow (h i) rfl c
    obtain ⟨d', i1, i2⟩ := ih hall
    exact ⟨d', .cons h1 i1, i2⟩

/-- C93: the same for several clients that take turns, each with a handle of its own, which it opens anew
after each of its calls that failed: one client's failures do no harm to the others. -/
theorem cautious_clients (before : List (Nat × Cmd)) (cs : List (Nat × Cmd × List (Option Trouble))) :
    let w := (World.run before World.init).2
    ∃ d', AllBecame (Db.empty.after (before.map (·.2))) (cs.map (·.2)) (World.runCautious cs w).1 d' ∧
      ∀ later, d'.Answers (later.map (·.2)) (World.run later (World.runCautious cs w).2).1 := by
  intro w
  obtain ⟨d', h1, h2⟩ := World.All.cautious cs (World.All.run before World.All.init)
  refine ⟨d', h1, fun later => ?_⟩
  rw [(World.run_same later h2 (h2 0) rfl).1]
  exact (run_refines _ (h2 0)).1

/-- The first put is dropped when only the header is stored; the second is stored unheard; another is
refused; a deletion cannot read. -/
def demoTroubles : List (Cmd × List (Option Trouble)) :=
  [(.put [1] none, List.replicate 6 none ++ [some .dropped]),
   (.put [1] (some [7]), List.replicate 60 (some (.append .stored))),
   (.put [2] (some [8]), []),
   (.put [3] none, List.replicate 60 (some (.append .refused))),
   (.del [2], List.replicate 20 (some (.read .io))),
   (.version, []),
   (.get [1], [])]

example : (runCautious demoTroubles St.init).1 = [none, some (.error .core), some (.put none 2), some (.error .core),
      some (.error .core), some (.version 3), some (.got (some (1, some [7])))] ∧
    runReplies [.get [2], .get [3], .version] (runCautious demoTroubles St.init).2 =
      [.got (some (2, some [8])), .got none, .version 3] := by
  decide +kernel

/-- A traversal with a gap, one that panics, and what `read_error_harmless_false` does to a client that
does not open anew: here it does no harm. -/
example : (runCautious [(.traverse {} (List.replicate 8 true), List.replicate 14 none ++ [some (.read .missing)]),
      (.reopen, []), (.traverse {} (List.replicate 8 true), List.replicate 9 none ++ [some (.read .io)]),
      (.del [5], List.replicate 20 none ++ [some (.read .io)]), (.get [9], []), (.put [0] none, []), (.reopen, []), (.get [9], [])] demoTen).1 =
    [some (.items [.error (.getChildInTraverse (.noBlockAtSeq 9)), .ok ⟨5, [5], none⟩] false),
      some .opened, some (.error (.panic "traverse.rs:402 `async fn` resumed after completion")),
      some (.error .core), some (.got (some (9, none))), some (.put none 11), some .opened, some (.got (some (9, none)))] := by
  decide +kernel

/-- The hypotheses of `acknowledged_stays`: the put of 2 in `demoTroubles`, but for the deletion. -/
example : (∀ y ∈ [(Cmd.put [3] none, List.replicate 60 (some (.append .refused))), (.del [1], [some Trouble.dropped])],
      ¬ y.1.mayChange [2]) ∧
    (runCautious (demoTroubles.take 2 ++ (.put [2] (some [8]), []) ::
      [(.put [3] none, List.replicate 60 (some (.append .refused))), (.del [1], [some .dropped])]) (runSt [] St.init)).1[2]? =
      some (some (.put none 2)) := by
  refine ⟨?_, by decide +kernel⟩
  intro y hy
  simp only [List.mem_cons, List.not_mem_nil, or_false] at hy
  rcases hy with rfl | rfl <;> simp [Cmd.mayChange]

/-- Three clients: the second one's put is stored unheard and its next one is dropped; the others see the
former and not the latter. -/
example : let w := (World.runCautious [(0, .put [1] none, []), (1, .put [2] (some [8]), List.replicate 60 (some (.append .stored))),
        (1, .put [3] none, [none, some .dropped]), (2, .del [1], List.replicate 20 (some (.read .io))), (0, .version, [])] World.init)
    w.1 = [some (.put none 1), some (.error .core), none, some (.error .core), some (.version 3)] ∧
    (World.run [(0, .get [2]), (1, .get [3]), (2, .get [1])] w.2).1 = [.got (some (2, some [8])), .got none, .got (some (1, none))] := by
  decide +kernel

end Hyperbee
