import Verif.Proof.SubFlaky
import Verif.Props.Flaky
import Verif.Props.Prefixed
/-!
# Reads that fail in calls through sub-databases (C107)
-/

namespace Hyperbee

/-! ## C107 -/

/-- Eight keys of one sub-database and two of another, in two leaves, opened anew. -/
def demoShared : St := (runVia ((([1, 2, 3, 4, 5, 6, 7, 8].map fun k => (some ⟨[97], [0]⟩, .put [k] none)) ++
  [(some ⟨[98], [0]⟩, .put [1] none), (some ⟨[98], [0]⟩, .put [2] none), (none, .reopen)]) : List (Option Prefixed × Cmd)) St.init).2

theorem demoShared_mixed : Mixed demoShared := ⟨_, rfl⟩

/-- A failed read in one sub-database destroys a key of another: the deletion of a key of the one returns an
I/O error, a key of the other is gone, and after the next put there it is gone for good. -/
theorem sub_read_error_false : ∃ (s : St) (a b : Prefixed), Mixed s ∧ Apart a b ∧ ∃ fs,
    (runVia [(some b, .get [1]), (some b, .put [7] none), (none, .reopen), (some b, .get [1])] s).1 =
      [.got (some (9, none)), .put none 11, .opened, .got (some (9, none))] ∧
    (runFlakyVia [((some a, .del [5]), fs), ((some b, .get [1]), []), ((some b, .put [7] none), []), ((none, .reopen), []),
      ((some b, .get [1]), [])] s).1 = [.error .core, .got none, .put none 11, .opened, .got none] :=
  ⟨demoShared, ⟨[97], [0]⟩, ⟨[98], [0]⟩, demoShared_mixed, ⟨by decide, by decide⟩,
    List.replicate 20 none ++ [some .io], by decide +kernel, by decide +kernel⟩

/-- What a call does when reads fail in it. -/
theorem execFlakyVia_cases {s : St} {d : Db} (h : Holds s d) (x : Option Prefixed × Cmd) (fs : List (Option Fault))
    (hno : x.2.deletes = true → effect (expandVia x) (execVia x s).1 = none ∨ (expandVia x).Sparing s.core) :
    ((execFlakyVia fs x s).1.readError = true ∧ Ext s (execFlakyVia fs x s).2) ∨
    ((execFlakyVia fs x s).1.readError = false ∧ (execFlakyVia fs x s).2.core = (execVia x s).2.core ∧
      (∃ d', Holds (execFlakyVia fs x s).2 d') ∧ (x.2.walks = false → (execFlakyVia fs x s).1 = (execVia x s).1)) := by
  obtain ⟨via, c⟩ := x
  cases via with
  | none =>
    rw [execFlakyVia_none]
    rcases execFlaky_cases h c fs hno with ⟨e, h1, h2, h3⟩ | h1
    · exact .inl ⟨by rw [h2]; exact h1.readError, h3⟩
    · exact .inr h1
  | some p =>
    by_cases hc : ∃ b sched, c = .traverse b sched
    · obtain ⟨b, sched, rfl⟩ := hc
      have e := execFlakyVia_ext h.wf fs p b sched
      cases hr : (execFlakyVia fs (some p, .traverse b sched) s).1.readError with
      | true => exact .inl ⟨rfl, e⟩
      | false =>
        refine .inr ⟨rfl, ?_, ⟨d, h.ext e⟩, fun h => by cases h⟩
        rw [e.core]
        exact (p.traverse_ext h b sched).core.symm
    · have hc' : ∀ b sched, c ≠ .traverse b sched := fun b sched e => hc ⟨b, sched, e⟩
      have he : execVia (some p, c) s = exec (p.expand c) s := p.exec_expand c hc' s
      have hd : (p.expand c).deletes = c.deletes := by
        cases c with
        | traverse b sched => exact absurd rfl (hc' b sched)
        | _ => rfl
      have hwk : (p.expand c).walks = c.walks := by
        cases c with
        | traverse b sched => exact absurd rfl (hc' b sched)
        | _ => rfl
      rw [execFlakyVia_expand fs p c hc', he]
      rcases execFlaky_cases h (p.expand c) fs (fun hx => by rw [← he]; exact hno (hd ▸ hx)) with ⟨e, h1, h2, h3⟩ | ⟨h1, h2, h3, h4⟩
      · exact .inl ⟨by rw [h2]; exact h1.readError, h3⟩
      · exact .inr ⟨h1, h2, h3, fun hx => h4 (hwk ▸ hx)⟩

/-- C107 for one call, on the database or through a sub-database, other than a deletion that would delete
something from a leaf that cannot spare it or from a node above the leaves: if it returns the error of a failed
read, it has had no effect, on the core or on anything asked ever after, on the database or through any
sub-database; and otherwise it has had the effect it has when no read fails, and the reply too unless it is a
traversal. -/
theorem sub_read_error_partial {s : St} (hs : Mixed s) (x : Option Prefixed × Cmd) (fs : List (Option Fault))
    (hno : x.2.deletes = true → effect (expandVia x) (execVia x s).1 = none ∨ (expandVia x).Sparing s.core)
    (later : List (Option Prefixed × Cmd)) :
    ((execFlakyVia fs x s).1.readError = true ∧ (execFlakyVia fs x s).2.core = s.core ∧
      (runVia later (execFlakyVia fs x s).2).1 = (runVia later s).1) ∨
    ((x.2.walks = false → (execFlakyVia fs x s).1 = (execVia x s).1) ∧ (execFlakyVia fs x s).2.core = (execVia x s).2.core ∧
      (runVia later (execFlakyVia fs x s).2).1 = (runVia later (execVia x s).2).1) := by
  obtain ⟨d, h⟩ := hs.holds
  rcases execFlakyVia_cases h x fs hno with ⟨h1, h3⟩ | ⟨_, h2, ⟨d', h3⟩, h4⟩
  · exact .inl ⟨h1, h3.core, (runVia_same later (h.ext h3) h h3.core.symm).1⟩
  · exact .inr ⟨h4, h2, (runVia_same later h3 (execVia_holds h x) h2.symm).1⟩

/-- C107 for deletions: one that returns the error of a failed read has not changed the core, so all is as if
it had not been made once the database is opened anew; and otherwise it did what it does when no read fails. -/
theorem sub_read_error_del_partial {s : St} (x : Option Prefixed × Cmd) (hx : x.2.deletes = true) (fs : List (Option Fault))
    (later : List (Option Prefixed × Cmd)) :
    ((execFlakyVia fs x s).1.readError = true ∧ (execFlakyVia fs x s).2.core = s.core ∧
      (runVia ((none, .reopen) :: later) (execFlakyVia fs x s).2).1 = (runVia ((none, .reopen) :: later) s).1) ∨
    execFlakyVia fs x s = execVia x s := by
  have key : ∀ c : Cmd, c.deletes = true →
      ((execFlaky fs c s).1.readError = true ∧ (execFlaky fs c s).2.core = s.core ∧
        (runVia ((none, .reopen) :: later) (execFlaky fs c s).2).1 = (runVia ((none, .reopen) :: later) s).1) ∨
      execFlaky fs c s = exec c s := by
    intro c hc
    rcases read_error_del_partial (s := s) c hc fs [] with ⟨h1, h2, _⟩ | h1
    · refine .inl ⟨h1, h2, ?_⟩
      simp only [runVia, execVia, exec, h2]
    · exact .inr h1
  obtain ⟨via, c⟩ := x
  cases via with
  | none => rw [execFlakyVia_none]; exact key c hx
  | some p =>
    have hc' : ∀ b sched, c ≠ .traverse b sched := by rintro b sched rfl; cases hx
    have he : execVia (some p, c) s = exec (p.expand c) s := p.exec_expand c hc' s
    rw [execFlakyVia_expand fs p c hc', he]
    refine key _ ?_
    cases c <;> first | rfl | cases hx

theorem runFlakyVia_same : ∀ (calls : List ((Option Prefixed × Cmd) × List (Option Fault))) {s t : St} {d e : Db}, Holds s d → Holds t e →
    s.core = t.core →
    (∀ i x fs r, calls[i]? = some (x, fs) → (runFlakyVia calls s).1[i]? = some r → x.2.deletes = true → r.readError = true →
      effect (expandVia x) (execVia x (runFlakyVia (calls.take i) s).2).1 = none ∨
        (expandVia x).Sparing (runFlakyVia (calls.take i) s).2.core) →
    let heard := ((calls.map (·.1)).zip (runFlakyVia calls s).1).filter fun p => !p.2.readError
    (∃ d', Holds (runFlakyVia calls s).2 d') ∧ (runFlakyVia calls s).2.core = (runVia (heard.map (·.1)) t).2.core ∧
    List.Forall₂ (fun p r => p.1.2.walks = true ∨ p.2 = r) heard (runVia (heard.map (·.1)) t).1 := by
  intro calls
  induction calls with
  | nil => intro s t d e h _ hc _; exact ⟨⟨d, h⟩, hc, .nil⟩
  | cons y calls ih =>
    obtain ⟨x, fs⟩ := y
    intro s t d e h h' hc hdel heard
    have hrun : runFlakyVia ((x, fs) :: calls) s = ((execFlakyVia fs x s).1 :: (runFlakyVia calls (execFlakyVia fs x s).2).1,
      (runFlakyVia calls (execFlakyVia fs x s).2).2) := rfl
    have hheard : heard = (if (execFlakyVia fs x s).1.readError then [] else [(x, (execFlakyVia fs x s).1)]) ++
        ((calls.map (·.1)).zip (runFlakyVia calls (execFlakyVia fs x s).2).1).filter fun p => !p.2.readError := by
      show List.filter _ (List.zip (x :: calls.map (·.1)) (runFlakyVia ((x, fs) :: calls) s).1) = _
      rw [hrun, List.zip_cons_cons, List.filter_cons]
      cases (execFlakyVia fs x s).1.readError <;> rfl
    have hdel1 : x.2.deletes = true → (execFlakyVia fs x s).1.readError = true →
        effect (expandVia x) (execVia x s).1 = none ∨ (expandVia x).Sparing s.core :=
      hdel 0 x fs _ rfl (by rw [hrun]; rfl)
    have hdel' : ∀ i x' fs' r, calls[i]? = some (x', fs') → (runFlakyVia calls (execFlakyVia fs x s).2).1[i]? = some r →
        x'.2.deletes = true → r.readError = true →
        effect (expandVia x') (execVia x' (runFlakyVia (calls.take i) (execFlakyVia fs x s).2).2).1 = none ∨
          (expandVia x').Sparing (runFlakyVia (calls.take i) (execFlakyVia fs x s).2).2.core := by
      intro i x' fs' r h1 h2
      exact hdel (i + 1) x' fs' r h1 (by rw [hrun]; exact h2)
    have step : ((execFlakyVia fs x s).1.readError = true ∧ Ext s (execFlakyVia fs x s).2) ∨
        ((execFlakyVia fs x s).1.readError = false ∧ (execFlakyVia fs x s).2.core = (execVia x s).2.core ∧
          (∃ d', Holds (execFlakyVia fs x s).2 d') ∧ (x.2.walks = false → (execFlakyVia fs x s).1 = (execVia x s).1)) := by
      by_cases hcd : x.2.deletes = true
      · cases hre : (execFlakyVia fs x s).1.readError with
        | true => exact hre ▸ execFlakyVia_cases h x fs fun _ => hdel1 hcd hre
        | false =>
          rcases sub_read_error_del_partial (s := s) x hcd fs [] with ⟨g1, _⟩ | g1
          · rw [hre] at g1; cases g1
          · exact .inr ⟨rfl, by rw [g1], ⟨_, by rw [g1]; exact execVia_holds h x⟩, fun _ => by rw [g1]⟩
      · exact execFlakyVia_cases h x fs fun hx => absurd hx hcd
    rcases step with ⟨h2, h3⟩ | ⟨h1, h2, ⟨d', h3⟩, h4⟩
    · obtain ⟨g1, g2, g3⟩ := ih (h.ext h3) h' (by rw [h3.core, hc]) hdel'
      rw [hheard, h2]
      exact ⟨g1, g2, g3⟩
    · obtain ⟨k1, k2⟩ := execVia_same h h' hc.symm x
      obtain ⟨g1, g2, g3⟩ := ih (t := (execVia x t).2) h3 (execVia_holds h' x) (by rw [h2, k2]) hdel'
      rw [hheard, h1]
      refine ⟨g1, g2, .cons ?_ g3⟩
      cases htr : x.2.walks with
      | true => exact .inl rfl
      | false => exact .inr ((h4 htr).trans k1)

/-- C107 for histories: reads fail as they please in a history of calls on the database and through
sub-databases, and no deletion returns the error of a failed read unless it would have deleted nothing, or from
a leaf that could spare the key.  Leave out the calls that did; the others, made when no read fails, reply the
same (but for the traversals), leave the same core, and are followed by the same replies. -/
theorem sub_read_errors_partial (calls : List ((Option Prefixed × Cmd) × List (Option Fault))) (later : List (Option Prefixed × Cmd)) :
    let replies := (runFlakyVia calls St.init).1
    let heard := ((calls.map (·.1)).zip replies).filter fun p => !p.2.readError
    (∀ i x fs r, calls[i]? = some (x, fs) → replies[i]? = some r → x.2.deletes = true → r.readError = true →
      let before := (runFlakyVia (calls.take i) St.init).2
      effect (expandVia x) (execVia x before).1 = none ∨ (expandVia x).Sparing before.core) →
    List.Forall₂ (fun p r => p.1.2.walks = true ∨ p.2 = r) heard (runVia (heard.map (·.1)) St.init).1 ∧
    (runFlakyVia calls St.init).2.core = (runVia (heard.map (·.1)) St.init).2.core ∧
    (runVia later (runFlakyVia calls St.init).2).1 = (runVia later (runVia (heard.map (·.1)) St.init).2).1 := by
  intro replies heard hdel
  have h0 : Holds St.init Db.empty := Holds.init
  obtain ⟨⟨d, h1⟩, h2, h3⟩ := runFlakyVia_same calls h0 h0 rfl hdel
  exact ⟨h3, h2, (runVia_same later h1 (runVia_holds (heard.map (·.1)) h0) h2.symm).1⟩

/-- Reads fail in a put through a sub-database, which is made again, in a traversal of it, which says so, and in
a refused deletion. -/
example :
    (execFlakyVia (List.replicate 20 none ++ [some .io]) (some ⟨[97], [0]⟩, .put [4] none) demoShared).1 = .error .core ∧
    (execFlakyVia (List.replicate 14 none ++ [some .missing]) (some ⟨[97], [0]⟩, .traverse {} (List.replicate 6 true)) demoShared).1 =
      .items [.error (.getChildInTraverse (.noBlockAtSeq 9))] false ∧
    (execFlakyVia (List.replicate 8 none ++ [some .missing]) (some ⟨[97], [0]⟩, .delCas [5] fun _ => false) demoShared).1.readError = true ∧
    effect (expandVia (some ⟨[97], [0]⟩, .delCas [5] fun _ => false)) (execVia (some ⟨[97], [0]⟩, .delCas [5] fun _ => false) demoShared).1 = none := by
  decide +kernel

/-- A history in which no deletion fails. -/
example :
    let calls : List ((Option Prefixed × Cmd) × List (Option Fault)) :=
      (([1, 2, 3, 4, 5, 6, 7, 8, 9, 10].map fun k => ((some ⟨[97], [0]⟩, .put [k] none), [])) : List ((Option Prefixed × Cmd) × List (Option Fault))) ++
      [((none, .reopen), []), ((some ⟨[97], [0]⟩, .put [4] (some [1])), List.replicate 20 none ++ [some .io]),
        ((some ⟨[97], [0]⟩, .put [4] (some [1])), List.replicate 60 none ++ [some .io]), ((none, .get [97, 0, 1]), [none, none, some .missing]),
        ((some ⟨[97], [0]⟩, .del [2]), List.replicate 99 none ++ [some .io])]
    (runFlakyVia calls St.init).1.drop 11 = [.error .core, .put (some 4) 11, .error (.noBlockAtSeq 11), .del (some 2)] ∧
      ((calls.map (·.1)).zip (runFlakyVia calls St.init).1).all (fun p => !p.1.2.deletes || !p.2.readError) = true := by
  decide +kernel

end Hyperbee
