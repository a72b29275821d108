import Verif.SpecReplay
import Verif.Proof.Prefix
import Verif.Proof.Reach
import Verif.Proof.Closure
import Verif.Proof.Handles
/-!
# Histories with the same writes
-/

namespace Hyperbee

/-! ## A swap that is made is a plain write -/

theorem putCAS_plain {k : Bytes} {v : Option Bytes} {cas : Option KeyValueData → KeyValueData → Bool} {s : St}
    {o : Option Nat} {n : Nat} {s' : St} (h : putCompareAndSwap k v cas s = (.ok (o, some n), s')) :
    putCompareAndSwap k v (fun _ _ => true) s = (.ok (o, some n), s') := by
  unfold putCompareAndSwap putPrepare at h ⊢
  simp only [bind_run] at h ⊢
  generalize getRoot true s = x at h ⊢
  obtain ⟨x1, x2⟩ := x
  cases x1 with
  | error e => exact h
  | ok r =>
    simp only [] at h ⊢
    generalize version x2 = y at h ⊢
    obtain ⟨y1, y2⟩ := y
    cases y1 with
    | error e => exact h
    | ok q =>
      simp only [] at h ⊢
      cases r with
      | none =>
        simp only [] at h ⊢
        by_cases hc : cas none ⟨q, k, v⟩ = false
        · rw [if_pos hc] at h; cases h
        · rw [if_neg hc] at h; exact h
      | some root =>
        simp only [bind_run] at h ⊢
        generalize nearestNode root (.finite k) y2 = z at h ⊢
        obtain ⟨z1, z2⟩ := z
        cases z1 with
        | error e => exact h
        | ok p =>
          obtain ⟨m, path⟩ := p
          simp only [] at h ⊢
          cases m with
          | none =>
            simp only [Option.isSome_none, Bool.false_eq_true, if_false] at h ⊢
            rw [show ((pure none : M (Option KeyValueData)) >>= _) = _ from rfl] at h
            by_cases hc : cas none ⟨q, k, v⟩ = false
            · have h' : commitPrepared (Prepared.done ((none : Option Nat), (none : Option Nat))) z2 = (.ok (o, some n), s') := by
                simpa [bind_run, pure_run, hc] using h
              cases h'
            · simp only [bind_run, pure_run, hc] at h ⊢
              exact h
          | some q' =>
            simp only [Option.isSome_some, if_true, bind_run] at h ⊢
            generalize orPanic "put.rs:109 path[path.len() - 1]" path.head? z2 = u at h ⊢
            obtain ⟨u1, u2⟩ := u
            cases u1 with
            | error e => exact h
            | ok ni =>
              obtain ⟨a, i⟩ := ni
              simp only [bind_run] at h ⊢
              generalize getKeyValue a i u2 = w at h ⊢
              obtain ⟨w1, w2⟩ := w
              cases w1 with
              | error e => exact h
              | ok kv =>
                simp only [bind_run, pure_run] at h ⊢
                by_cases hc : cas (some kv) ⟨q, k, v⟩ = false
                · rw [if_pos hc] at h; cases h
                · rw [if_neg hc] at h; exact h

theorem delCAS_plain {k : Bytes} {cas : KeyValueData → Bool} {s : St}
    {n : Nat} {s' : St} (h : delCompareAndSwap k cas s = (.ok (some (true, n)), s')) :
    delCompareAndSwap k (fun _ => true) s = (.ok (some (true, n)), s') := by
  unfold delCompareAndSwap delPrepare at h ⊢
  simp only [bind_run] at h ⊢
  generalize getRoot false s = x at h ⊢
  obtain ⟨x1, x2⟩ := x
  cases x1 with
  | error e => exact h
  | ok r =>
    simp only [] at h ⊢
    cases r with
    | none => exact h
    | some root =>
      simp only [bind_run] at h ⊢
      generalize nearestNode root (.finite k) x2 = z at h ⊢
      obtain ⟨z1, z2⟩ := z
      cases z1 with
      | error e => exact h
      | ok p =>
        obtain ⟨m, path⟩ := p
        simp only [] at h ⊢
        cases m with
        | none => exact h
        | some q =>
          simp only [bind_run] at h ⊢
          generalize orPanic "del.rs:430 path[len - 1]" path.head? z2 = u at h ⊢
          obtain ⟨u1, u2⟩ := u
          cases u1 with
          | error e => exact h
          | ok ni =>
            obtain ⟨a, i⟩ := ni
            simp only [bind_run] at h ⊢
            generalize getKeyValue a i u2 = w at h ⊢
            obtain ⟨w1, w2⟩ := w
            cases w1 with
            | error e => exact h
            | ok kv =>
              simp only [] at h ⊢
              by_cases hc : cas kv = false
              · rw [if_pos hc] at h; cases h
              · rw [if_neg hc] at h; exact h

theorem exec_again {c : Cmd} {s : St} {w : Write} (h : effect c (exec c s).1 = some w) :
    (exec w.again s).2 = (exec c s).2 := by
  cases c with
  | version => revert h; simp only [exec, replyOf]; split <;> intro h <;> cases h
  | get k => revert h; simp only [exec, replyOf]; split <;> intro h <;> cases h
  | createHeader k => revert h; simp only [exec, replyOf]; split <;> intro h <;> cases h
  | traverse b sched => revert h; simp only [exec, replyOf]; split <;> intro h <;> cases h
  | reopen => cases h
  | put k v => revert h; simp only [exec, replyOf]; split <;> intro h <;> cases h; rename_i h1; simp only [Write.again, exec, replyOf, h1]
  | del k =>
    revert h; simp only [exec, replyOf]
    split
    · rename_i a s' h1
      cases a with
      | none => intro h; cases h
      | some n => intro h; cases h; simp only [Write.again, exec, replyOf, h1]
    · intro h; cases h
  | putCas k v cas =>
    revert h; simp only [exec, replyOf]
    split
    · rename_i a s' h1
      obtain ⟨o, _ | n⟩ := a
      · intro h; cases h
      · intro h; cases h
        have h2 : put k v s = (.ok (o, n), s') := by
          unfold put
          rw [bind_ok (putCAS_plain h1)]
          rfl
        simp only [Write.again, exec, replyOf, h2]
    · intro h; cases h
  | delCas k cas =>
    revert h; simp only [exec, replyOf]
    split
    · rename_i a s' h1
      rcases a with _ | ⟨_ | _, n⟩
      · intro h; cases h
      · intro h; cases h
      · intro h; cases h
        have h2 : del k s = (.ok (some n), s') := by
          unfold del
          rw [bind_ok (delCAS_plain h1)]
          rfl
        simp only [Write.again, exec, replyOf, h2]
    · intro h; cases h

/-! ## The header may be written beforehand -/

theorem put_ready {s : St} (h0 : s.core = []) (hio : s.io.appendOk = true) (k : Bytes) (v : Option Bytes) :
    exec (.put k v) s.withHeader = exec (.put k v) s := by
  have h1 : putPrepare k v (fun _ _ => true) s.withHeader = putPrepare k v (fun _ _ => true) s := by
    unfold putPrepare
    rw [bind_ok (getRoot_zero (by rw [h0]; rfl) hio), bind_ok (getRoot_one (by simp [St.withHeader, h0]) true)]
  have h2 : put k v s.withHeader = put k v s := by
    unfold put putCompareAndSwap
    simp only [bind_run, h1]
  simp only [exec, replyOf, h2]

/-- The last write of a history: what went before, and the write itself. -/
theorem last_write (cs : List Cmd) {l : List Write} {w : Write} (h : logOf cs = l ++ [w]) :
    ∃ cs0, logOf cs0 = l ∧ (runSt cs0 St.init).core ≠ [] ∧
      (runSt cs0 St.init).core.head? = (runSt cs St.init).core.head? ∧
      (runSt cs St.init).core = (exec w.again (runSt cs0 St.init)).2.core ∧
      (∀ k, w = .clear k → lastWrite k l.reverse ≠ none) := by
  induction cs using snocInd with
  | nil => simp [logOf, effects] at h
  | snoc cs c ih =>
    rw [logOf_snoc] at h
    rw [runSt_snoc]
    cases he : effect c (exec c (runSt cs St.init)).1 with
    | none =>
      rw [he] at h
      simp only [Option.toList_none, List.append_nil] at h
      obtain ⟨cs0, h1, h2, h3, h4, h5⟩ := ih h
      have hne : (runSt cs St.init).core ≠ [] := by
        intro h0
        rw [h0] at h3
        exact h2 (List.head?_eq_none_iff.mp h3)
      have hc : (exec c (runSt cs St.init)).2.core = (runSt cs St.init).core := by
        rcases (exec_step (run_holds cs) c).core_cases with ⟨h, e⟩ | ⟨h0, ⟨m, h⟩, e⟩ | ⟨b, h, h1, w, e⟩ | ⟨h0, b, h, w, e⟩
        · exact h
        · exact absurd h0 hne
        · rw [he] at e; cases e
        · rw [he] at e; cases e
      rw [hc]
      exact ⟨cs0, h1, h2, h3, h4, h5⟩
    | some w' =>
      rw [he] at h
      obtain ⟨hl, hw⟩ := List.append_inj' h rfl
      cases hw
      have ha := exec_again he
      have hcl : ∀ k, w = .clear k → lastWrite k l.reverse ≠ none := by
        rintro k rfl h0
        have hm := (logged cs).map
        have hr := (exec_refines (run_holds cs) (.del k)).1
        have hc : (exec (.del k) (runSt cs St.init)).2.core.length = (runSt cs St.init).core.length := by
          have hv := (exec_refines (run_holds cs) (.del k)).2.ver
          rw [← hv, ← (run_holds cs).ver]
          have : (Db.empty.after cs).map k = none := by
            rw [hm]
            show lastWrite k (logOf cs).reverse = none
            rw [hl]; exact h0
          simp [Db.next, this]
        have ha' : (exec (.del k) (runSt cs St.init)).2 = (exec c (runSt cs St.init)).2 := ha
        rw [ha'] at hc
        rcases (exec_step (run_holds cs) c).core_cases with ⟨h, e⟩ | ⟨h0, ⟨m, h⟩, e⟩ | ⟨b, h, h1, w, e⟩ | ⟨h0, b, h, w, e⟩
        · rw [he] at e; cases e
        · rw [he] at e; cases e
        · rw [h] at hc; simp at hc
        · rw [h, h0] at hc; simp at hc
      rcases (exec_step (run_holds cs) c).core_cases with ⟨h, e⟩ | ⟨h0, ⟨m, h⟩, e⟩ | ⟨b, h, h1, w'', e⟩ | ⟨h0, b, h, w'', e⟩
      · rw [he] at e; cases e
      · rw [he] at e; cases e
      · refine ⟨cs, hl, ?_, ?_, by rw [ha], hcl⟩
        · intro h0; rw [h0] at h1; simp at h1
        · rw [h]
          cases hs : (runSt cs St.init).core with
          | nil => rw [hs] at h1; simp at h1
          | cons x xs => rfl
      · have hnil : logOf cs = [] := by
          have := logOf_length cs
          rw [h0] at this
          simpa using this
        have hln : l = [] := by rw [← hl, hnil]
        refine ⟨[.createHeader none], by rw [(createHeader_init none).2, hln], ?_, ?_, ?_, hcl⟩
        · rw [(createHeader_init none).1]; simp
        · rw [(createHeader_init none).1, h]; rfl
        · cases w with
          | clear k => exact absurd (by rw [hln]; rfl) (hcl k rfl)
          | set k v =>
            have h2 := put_ready h0 (run_holds cs).ok k v
            rw [← ha]
            show (exec (.put k v) _).2.core = (exec (.put k v) _).2.core
            rw [← h2]
            have hb : Bare (runSt cs St.init).core (Db.empty.after cs) := by
              rcases (run_holds cs).store with hb | ⟨H, t, ht, -, -⟩
              · exact hb
              · have := ht.two; rw [h0] at this; simp at this
            have h3 := (run_holds cs).ready hb
            have h4 : (runSt cs St.init).ready = (runSt cs St.init).withHeader := by
              unfold St.ready; rw [if_pos (by rw [h0]; rfl)]
            rw [h4] at h3
            exact (call_same h3 (run_holds [.createHeader none]) (by
              rw [(createHeader_init none).1]; simp [St.withHeader, h0, headerBlock_eq]) _).2

end Hyperbee
