import Verif.Proof.Reach
import Verif.Props.Demo
/-!
# Properties of histories: what the calls return

Statements use only the calls made (`Cmd`), the replies seen (`Reply`), the writes those two reveal
(`effects`, `lastWrite` in `Verif/Spec.lean`) and the length of the core.
-/

namespace Hyperbee

/-! ## The refinement itself -/

/-- Every history gets the replies of the abstract database, whatever the calls. -/
theorem history_refines (cs : List Cmd) : Db.empty.Answers cs (runReplies cs St.init) :=
  (run_refines cs Holds.init).1

/-! ## C01 -/

/-- C01.  After any history, `get k` returns the value of the last effective write to `k` and the
number of the block it was written to, or nothing if there was none or it was a deletion. -/
theorem get_latest (cs : List Cmd) (k : Bytes) :
    (exec (.get k) (runSt cs St.init)).1 =
      .got (lastWrite k (effects cs (runReplies cs St.init)).reverse) := by
  have h := (run_refines cs Holds.init).2
  rw [h.get, (logged cs).map]

example : (exec (.get (demoKey 4)) (runSt demo St.init)).1 = .got (some (34, some [1, 2])) := by decide +kernel
example : (exec (.get (demoKey 3)) (runSt demo St.init)).1 = .got (some (31, none)) := by decide +kernel
example : (exec (.get (demoKey 11)) (runSt demo St.init)).1 = .got none := by decide +kernel
example : (effects demo (runReplies demo St.init)).length = 39 := by decide +kernel

/-! ## C02 -/

/-- C02.  `put` reports the block it replaces and the block it wrote, and changes only its key. -/
theorem put_reports {s : St} (hs : Reachable s) (k : Bytes) (v : Option Bytes) :
    ∃ o, (exec (.get k) s).1 = .got o ∧
      (exec (.put k v) s).1 = .put (o.map (·.1)) (max 1 s.core.length) ∧
      (exec (.put k v) s).2.core.length = max 1 s.core.length + 1 ∧
      (exec (.get k) (exec (.put k v) s).2).1 = .got (some (max 1 s.core.length, v)) ∧
      ∀ k', k' ≠ k → (exec (.get k') (exec (.put k v) s).2).1 = (exec (.get k') s).1 := by
  obtain ⟨d, h⟩ := hs.holds
  obtain ⟨h1, h2⟩ := exec_refines h (.put k v)
  refine ⟨d.map k, h.get k, ?_, ?_, ?_, ?_⟩
  · rw [← h.max_len]; exact h1
  · rw [← h2.ver, ← h.max_len]; rfl
  · rw [h2.get, ← h.max_len]; simp [Db.next, Db.write]
  · intro k' hk; rw [h2.get, h.get]; simp [Db.next, Db.write, hk]

example : (exec (.put (demoKey 4) none) (runSt demo St.init)).1 = .put (some 34) 40 := by decide +kernel
example : (exec (.put [5, 5] none) (runSt demo St.init)).1 = .put none 40 := by decide +kernel
example : (exec (.put [5, 5] none) St.init).1 = .put none 1 := by decide +kernel

/-! ## C03 -/

/-- C03.  `del` of a present key reports its block, appends one block, and removes only that key. -/
theorem del_removes {s : St} (hs : Reachable s) {k : Bytes} {q : Nat} {v : Option Bytes}
    (hk : (exec (.get k) s).1 = .got (some (q, v))) :
    (exec (.del k) s).1 = .del (some q) ∧
      (exec (.del k) s).2.core.length = s.core.length + 1 ∧
      (exec (.get k) (exec (.del k) s).2).1 = .got none ∧
      ∀ k', k' ≠ k → (exec (.get k') (exec (.del k) s).2).1 = (exec (.get k') s).1 := by
  obtain ⟨d, h⟩ := hs.holds
  obtain ⟨h1, h2⟩ := exec_refines h (.del k)
  rw [h.get] at hk
  have hd : d.map k = some (q, v) := by simpa using hk
  simp only [Db.Returns, hd] at h1
  simp only [Db.next, hd, Option.isSome_some, if_true] at h2
  refine ⟨h1, ?_, ?_, ?_⟩
  · rw [← h2.ver, ← h.ver]; rfl
  · rw [h2.get]; simp [Db.remove]
  · intro k' hk; rw [h2.get, h.get]; simp [Db.remove, hk]

example : (exec (.get (demoKey 4)) (runSt demo St.init)).1 = .got (some (34, some [1, 2])) ∧
    (exec (.del (demoKey 4)) (runSt demo St.init)).1 = .del (some 34) := by decide +kernel

/-! ## C04 -/

/-- C04.  `del` and `del_compare_and_swap` of an absent key return nothing, append nothing, do not
depend on the function, and leave a handle that answers every later sequence of calls as before. -/
theorem del_absent {s : St} (hs : Reachable s) {k : Bytes} (hk : (exec (.get k) s).1 = .got none)
    (f : KeyValueData → Bool) :
    (exec (.del k) s).1 = .del none ∧ (exec (.delCas k f) s).1 = .delCas none ∧
      (exec (.del k) s).2.core = s.core ∧ (exec (.delCas k f) s).2.core = s.core ∧
      (∀ g, exec (.delCas k g) s = exec (.delCas k f) s) ∧
      ∀ cs, runReplies cs (exec (.del k) s).2 = runReplies cs s ∧
        runReplies cs (exec (.delCas k f) s).2 = runReplies cs s := by
  obtain ⟨d, h⟩ := hs.holds
  rw [h.get] at hk
  have hd : d.map k = none := by simpa using hk
  have hsil := h.delCAS_silent k hd
  obtain ⟨a1, a2⟩ := h.quiet (c := .del k) (by simp [Db.next, hd])
  obtain ⟨b1, b2⟩ := h.quiet (c := .delCas k f) (by simp [Db.next, Db.entry, hd])
  have c1 := (exec_refines h (.del k)).1
  have c2 := (exec_refines h (.delCas k f)).1
  simp only [Db.Returns, hd, Db.entry] at c1 c2
  refine ⟨c1, c2, a1, b1, ?_, fun cs => ⟨a2 cs, b2 cs⟩⟩
  intro g
  obtain ⟨X, hX⟩ := hsil
  simp only [exec, replyOf, hX]

example : (exec (.get (demoKey 8)) (runSt demo St.init)).1 = .got none ∧ (exec (.get []) St.init).1 = .got none := by
  decide +kernel

/-! ## C05 -/

/-- C05.  `put_compare_and_swap` decides by the stored entry and the entry about to be written, and
by nothing else; accepted, it is a put; refused, it changes nothing (but an empty core gets its
header). -/
theorem putCas_decides {s : St} (hs : Reachable s) (k : Bytes) (v : Option Bytes) :
    ∃ o, (exec (.get k) s).1 = .got o ∧
      ∀ f : Option KeyValueData → KeyValueData → Bool,
      let old : Option KeyValueData := o.map fun e => ⟨e.1, k, e.2⟩
      let new : KeyValueData := ⟨max 1 s.core.length, k, v⟩
      (f old new = true →
        exec (.putCas k v f) s = (.putCas (o.map (·.1)) (some new.seq), (exec (.put k v) s).2)) ∧
      (f old new = false →
        (exec (.putCas k v f) s).1 = .putCas (o.map (·.1)) none ∧
        (exec (.putCas k v f) s).2.core =
          (if s.core = [] then [encodeHeader ⟨PROTOCOL, none⟩] else s.core) ∧
        ∀ k', (exec (.get k') (exec (.putCas k v f) s).2).1 = (exec (.get k') s).1) ∧
      ∀ g, g old new = f old new → exec (.putCas k v g) s = exec (.putCas k v f) s := by
  obtain ⟨d, h⟩ := hs.holds
  refine ⟨d.map k, h.get k, fun f => ?_⟩
  obtain ⟨X, Y, hXY⟩ := h.putCAS_asks k v
  rw [h.max_len, Db.entry_eq] at hXY
  have hf := (exec_refines h (.putCas k v f))
  simp only [Db.Returns, Db.next, h.max_len, Db.entry_eq] at hf
  obtain ⟨hf1, hf2⟩ := hf
  refine ⟨fun hT => ?_, fun hF => ?_, fun g hg => ?_⟩
  · have hput : exec (.put k v) s = replyOf (put k v) (fun r => .put r.1 r.2) s := rfl
    have e1 : putCompareAndSwap k v f s = X := by rw [hXY, if_neg (by simp [hT])]
    have e2 : putCompareAndSwap k v (fun _ _ => true) s = X := by rw [hXY, if_neg (by simp)]
    rw [if_pos hT] at hf1
    refine Prod.ext hf1 ?_
    simp only [exec, (replyOf_reply _ _ s).2]
    unfold put
    rw [bind_run, e1, e2]
    cases hX : X with
    | mk r s' =>
      cases r with
      | error e => rfl
      | ok a => obtain ⟨a, b⟩ := a; cases b <;> rfl
  · rw [if_neg (by simp [hF])] at hf1 hf2
    refine ⟨hf1, ?_, ?_⟩
    · by_cases he : s.core = []
      · rw [if_pos he]
        have := putCAS_core k v f s
        obtain ⟨hdr, blk, h1, h2, h3⟩ := this
        have hlen := hf2.ver
        simp only [exec, (replyOf_reply _ _ s).2] at hlen ⊢
        rw [he] at h1 h2
        have hv : d.withHeader.version = 1 := by simp [Db.withHeader, Db.nextSeq, h.ver, he]
        rw [hv, h1] at hlen
        simp only [exec, (replyOf_reply _ _ s).1] at hf1
        rcases h3 with ⟨a, q, h4, _⟩ | ⟨a, h4, h5⟩ | ⟨e, h4, _⟩
        · rw [h4] at hf1; simp at hf1
        · subst h5
          rcases h2 with h2 | ⟨_, h2⟩
          · subst h2; simp at hlen
          · rw [h1, h2]; rfl
        · rw [h4] at hf1; simp at hf1
      · rw [if_neg he]
        apply exec_core_eq
        rw [← hf2.ver]
        have : 0 < s.core.length := List.length_pos_iff.mpr he
        simp only [Db.withHeader, Db.nextSeq, h.ver]
        omega
    · intro k'
      rw [hf2.get, h.get]; rfl
  · simp only [exec, replyOf, hXY, hg]

example : (exec (.putCas (demoKey 4) none (fun o n => o = some ⟨34, demoKey 4, some [1, 2]⟩ ∧ n = ⟨40, demoKey 4, none⟩))
    (runSt demo St.init)).1 = .putCas (some 34) (some 40) := by decide +kernel
example : (exec (.putCas (demoKey 4) none (fun _ n => n.seq = 39)) (runSt demo St.init)).1 = .putCas (some 34) none := by
  decide +kernel
example : (exec (.putCas [] none (fun _ _ => false)) St.init).1 = .putCas none none ∧
    (exec (.putCas [] none (fun _ _ => false)) St.init).2.core.length = 1 := by decide +kernel

/-! ## C06 -/

/-- C06.  `del_compare_and_swap` of a present key decides by the stored entry; accepted, it is a
deletion; refused, it changes nothing, now or later. -/
theorem delCas_decides {s : St} (hs : Reachable s) {k : Bytes} {q : Nat} {v : Option Bytes}
    (hk : (exec (.get k) s).1 = .got (some (q, v))) (f : KeyValueData → Bool) :
    (f ⟨q, k, v⟩ = true → exec (.delCas k f) s = (.delCas (some (true, q)), (exec (.del k) s).2)) ∧
    (f ⟨q, k, v⟩ = false → (exec (.delCas k f) s).1 = .delCas (some (false, q)) ∧
      (exec (.delCas k f) s).2.core = s.core ∧
      ∀ cs, runReplies cs (exec (.delCas k f) s).2 = runReplies cs s) ∧
    ∀ g : KeyValueData → Bool, g ⟨q, k, v⟩ = f ⟨q, k, v⟩ → exec (.delCas k g) s = exec (.delCas k f) s := by
  obtain ⟨d, h⟩ := hs.holds
  rw [h.get] at hk
  have hd : d.map k = some (q, v) := by simpa using hk
  have hent : d.entry k = some ⟨q, k, v⟩ := by simp [Db.entry, hd]
  obtain ⟨X, Y, hXY⟩ := h.delCAS_asks k hent
  have hf := (exec_refines h (.delCas k f)).1
  simp only [Db.Returns, hent, Option.map_some] at hf
  refine ⟨fun hT => ?_, fun hF => ?_, fun g hg => ?_⟩
  · rw [hT] at hf
    have e1 : delCompareAndSwap k f s = X := by rw [hXY, if_neg (by simp [hT])]
    have e2 : delCompareAndSwap k (fun _ => true) s = X := by rw [hXY, if_neg (by simp)]
    refine Prod.ext hf ?_
    simp only [exec, (replyOf_reply _ _ s).2]
    unfold del
    rw [bind_run, e1, e2]
    cases hX : X with
    | mk r s' =>
      cases r with
      | error e => rfl
      | ok a =>
        cases a with
        | none => rfl
        | some x => obtain ⟨b, q⟩ := x; cases b <;> rfl
  · rw [hF] at hf
    obtain ⟨h1, h2⟩ := h.quiet (c := .delCas k f) (by simp [Db.next, hent, hF])
    exact ⟨hf, h1, h2⟩
  · simp only [exec, replyOf, hXY, hg]

example : (exec (.delCas (demoKey 4) (fun e => e = ⟨34, demoKey 4, some [1, 2]⟩)) (runSt demo St.init)).1
    = .delCas (some (true, 34)) := by decide +kernel
example : (exec (.delCas (demoKey 4) (fun e => e.seq = 33)) (runSt demo St.init)).1 = .delCas (some (false, 34)) := by
  decide +kernel

end Hyperbee
