import Verif.Proof.Closure
import Verif.Props.Demo
/-!
# Compare-and-swap functions that do things (C86)

The closure of a compare-and-swap call may make calls through the handle itself, and may panic.  One
would expect of it that it decides on the database it sees, and that the swap is then made in the
database it leaves.
-/

namespace Hyperbee

/-- What one would expect of a deletion with an approving closure: it is as if the calls of the
closure had been made before. -/
def DelClosureFine (s : St) (d : Db) (k : Bytes) (cas : KeyValueData → Script) : Prop :=
  ∀ x, d.entry k = some x → ∃ o d', d.Plays (cas x) o d' ∧ (o = some true → Onward (execDelBy k cas s).2 (d'.next (.del k)))

/-- The same of a put. -/
def PutClosureFine (s : St) (d : Db) (k : Bytes) (v : Option Bytes)
    (cas : Option KeyValueData → KeyValueData → Script) : Prop :=
  ∃ o d', d.withHeader.Plays (cas (d.entry k) ⟨d.nextSeq, k, v⟩) o d' ∧
    (o = some true → Onward (execPutBy k v cas s).2 (d'.write k v))

/-- Keys 2 and 3. -/
def demoTwo : List Cmd := [.put [2] none, .put [3] none]

/-- A deletion whose closure puts another key deletes that other key, and says that it has deleted
its own. -/
theorem closure_puts_false :
    let o := execDelBy [2] (fun _ => .call (.put [1] none) fun _ => .answer true) (runSt demoTwo St.init)
    o.1 = .delCas (some (true, 1)) ∧
    runReplies [.get [1], .get [2], .get [3]] o.2 = [.got none, .got (some (1, none)), .got (some (2, none))] := by
  decide +kernel

/-- A deletion whose closure deletes the same key deletes its neighbour as well. -/
theorem closure_deletes_false :
    let o := execDelBy [2] (fun _ => .call (.del [2]) fun _ => .answer true) (runSt demoTwo St.init)
    o.1 = .delCas (some (true, 1)) ∧
    runReplies [.get [2], .get [3], .reopen, .get [3]] o.2 = [.got none, .got none, .opened, .got none] := by
  decide +kernel

/-- It can also panic, the closure's own calls having succeeded. -/
theorem closure_panics_false :
    (execDelBy [3] (fun _ => .call (.del [2]) fun _ => .answer true) (runSt demoTwo St.init)).1 =
      .error (.panic "del.rs:445 keys.remove") := by
  decide +kernel

/-- A put whose closure puts another key reports success, and its key is not there. -/
theorem closure_loses_false :
    let o := execPutBy [4] none (fun _ _ => .call (.put [1] none) fun _ => .answer true) (runSt demoTwo St.init)
    o.1 = .putCas none (some 3) ∧
    runReplies [.get [4], .get [1], .reopen, .get [4]] o.2 =
      [.got none, .got (some (3, none)), .opened, .got none] := by
  decide +kernel

/-- So what one would expect is not so, of either call. -/
theorem closure_fine_false : ∃ cs k,
    (∃ cas, ¬ DelClosureFine (runSt cs St.init) (Db.empty.after cs) k cas) ∧
    ∃ cas, ¬ PutClosureFine (runSt cs St.init) (Db.empty.after cs) k none cas := by
  refine ⟨demoTwo ++ [.put [4] none], [4], ⟨fun _ => .call (.put [1] none) fun _ => .answer true, ?_⟩,
    ⟨fun _ _ => .call (.put [1] none) fun _ => .answer true, ?_⟩⟩
  · intro h
    obtain ⟨o, d', h1, h2⟩ := h _ rfl
    cases h1 with
    | call h3 h4 =>
      cases h4
      obtain ⟨r, rs, h5, h6, h7⟩ := h2 rfl [.get [4]]
      have h8 : runReplies [.get [4]] (execDelBy [4] (fun _ => .call (.put [1] none) fun _ => .answer true)
          (runSt (demoTwo ++ [.put [4] none]) St.init)).2 = [.got (some (3, none))] := by decide +kernel
      rw [h8] at h5
      injection h5 with h5 _
      rw [← h5] at h6
      exact absurd (show Reply.got (some (3, none)) = .got ((((Db.empty.after (demoTwo ++ [.put [4] none])).next
        (.put [1] none)).next (.del [4])).map [4]) from h6) (by decide +kernel)
  · rintro ⟨o, d', h1, h2⟩
    cases h1 with
    | call h3 h4 =>
      cases h4
      obtain ⟨r, rs, h5, h6, h7⟩ := h2 rfl [.get [4]]
      have h8 : runReplies [.get [4]] (execPutBy [4] none (fun _ _ => .call (.put [1] none) fun _ => .answer true)
          (runSt (demoTwo ++ [.put [4] none]) St.init)).2 = [.got (some (3, none))] := by decide +kernel
      rw [h8] at h5
      injection h5 with h5 _
      rw [← h5] at h6
      exact absurd (show Reply.got (some (3, none)) = .got ((((Db.empty.after (demoTwo ++ [.put [4] none])).withHeader.next
        (.put [1] none)).write [4] none).map [4]) from h6) (by decide +kernel)

/-- A put whose closure makes calls through the handle.

The closure is asked once, about the entry there was, and its calls are answered as they should be.
If it panics, the call panics and nothing else happens.  If it refuses, nothing but its own calls has
happened, whatever they were.  If it approves after looking only, the put is made.

Missing: closures that write and approve (`closure_loses_false`). -/
theorem closure_put_partial (cs : List Cmd) (k : Bytes) (v : Option Bytes)
    (cas : Option KeyValueData → KeyValueData → Script) :
    let d := Db.empty.after cs
    let o := execPutBy k v cas (runSt cs St.init)
    ∃ b d', d.withHeader.Plays (cas (d.entry k) ⟨d.nextSeq, k, v⟩) b d' ∧
      (b = none → o.1 = .error (.panic "the closure") ∧ Onward o.2 d') ∧
      (b = some false → o.1 = .putCas ((d.map k).map (·.1)) none ∧ Onward o.2 d') ∧
      (b = some true → (cas (d.entry k) ⟨d.nextSeq, k, v⟩).All Cmd.Looks →
        o.1 = .putCas ((d.map k).map (·.1)) (some d.nextSeq) ∧ d' = d.withHeader ∧ Onward o.2 (d.write k v)) := by
  intro d o
  obtain ⟨b, d', h1, h2, h3, h4⟩ := putBy_holds (run_refines cs Holds.init).2 k v cas
  have hl : ∀ {s d}, Holds s d → Onward s d := fun h cs => (run_refines cs h).1
  refine ⟨b, d', h1, fun hb => ?_, fun hb => ?_, fun hb ha => ?_⟩
  · obtain ⟨s', h5, h6⟩ := h2 hb
    simp only [o, execPutBy, replyOf, h5]
    exact ⟨trivial, hl h6⟩
  · obtain ⟨s', h5, h6⟩ := h3 hb
    simp only [o, execPutBy, replyOf, h5]
    exact ⟨rfl, hl h6⟩
  · obtain ⟨s', h5, h6⟩ := h4 hb ha
    simp only [o, execPutBy, replyOf, h5]
    exact ⟨rfl, h1.looks ha, hl h6⟩

/-- The same of deletions; the closure is not asked if there is nothing to delete.

Missing: closures that write and approve (`closure_puts_false`, `closure_deletes_false`,
`closure_panics_false`). -/
theorem closure_del_partial (cs : List Cmd) (k : Bytes) (cas : KeyValueData → Script) :
    let d := Db.empty.after cs
    let o := execDelBy k cas (runSt cs St.init)
    (d.map k = none → o.1 = .delCas none ∧ Onward o.2 d) ∧
    ∀ x, d.entry k = some x → ∃ b d', d.Plays (cas x) b d' ∧
      (b = none → o.1 = .error (.panic "the closure") ∧ Onward o.2 d') ∧
      (b = some false → o.1 = .delCas (some (false, x.seq)) ∧ Onward o.2 d') ∧
      (b = some true → (cas x).All Cmd.Looks →
        o.1 = .delCas (some (true, x.seq)) ∧ d' = d ∧ Onward o.2 (d.remove k)) := by
  intro d o
  obtain ⟨h0, h1⟩ := delBy_holds (run_refines cs Holds.init).2 k cas
  have hl : ∀ {s d}, Holds s d → Onward s d := fun h cs => (run_refines cs h).1
  constructor
  · intro hk
    obtain ⟨s', h5, h6⟩ := h0 hk
    simp only [o, execDelBy, replyOf, h5]
    exact ⟨trivial, hl h6⟩
  · intro x hx
    obtain ⟨b, d', h1, h2, h3, h4⟩ := h1 x hx
    refine ⟨b, d', h1, fun hb => ?_, fun hb => ?_, fun hb ha => ?_⟩
    · obtain ⟨s', h5, h6⟩ := h2 hb
      simp only [o, execDelBy, replyOf, h5]
      exact ⟨trivial, hl h6⟩
    · obtain ⟨s', h5, h6⟩ := h3 hb
      simp only [o, execDelBy, replyOf, h5]
      exact ⟨trivial, hl h6⟩
    · obtain ⟨s', h5, h6⟩ := h4 hb ha
      simp only [o, execDelBy, replyOf, h5]
      exact ⟨trivial, h1.looks ha, hl h6⟩

/-- A closure that does nothing but answer is what `Model/Put.lean` and `Model/Del.lean` have. -/
theorem closure_answers (s : St) (k : Bytes) (v : Option Bytes) (f : Option KeyValueData → KeyValueData → Bool)
    (g : KeyValueData → Bool) :
    execPutBy k v (fun old new => .answer (f old new)) s = exec (.putCas k v f) s ∧
    execDelBy k (fun x => .answer (g x)) s = exec (.delCas k g) s :=
  ⟨rfl, rfl⟩

/-- A closure that puts only if another key is there, and one that panics. -/
example :
    let s := runSt demoTwo St.init
    let ask (k : Bytes) : Script := .call (.get k) fun r => .answer (r ≠ .got none)
    (execPutBy [5] none (fun _ _ => ask [3]) s).1 = .putCas none (some 3) ∧
    (execPutBy [5] none (fun _ _ => ask [4]) s).1 = .putCas none none ∧
    (ask [3]).All Cmd.Looks ∧
    (execDelBy [3] (fun _ => .panics) s).1 = .error (.panic "the closure") ∧
    runReplies [.get [3], .del [3], .get [3]] (execDelBy [3] (fun _ => .panics) s).2 =
      [.got (some (2, none)), .del (some 2), .got none] :=
  ⟨by decide +kernel, by decide +kernel, ⟨.inr (.inl ⟨_, rfl⟩), fun _ => trivial⟩, by decide +kernel, by decide +kernel⟩

end Hyperbee
