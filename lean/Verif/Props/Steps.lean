import Verif.Proof.StepsCall
import Verif.Props.Cost
import Verif.Props.SubConcurrent
/-!
# Calls end after few steps (C85)
-/

namespace Hyperbee

theorem steps_replyOf (f : α → Reply) (p : Prog α) : ∀ s, (Prog.replyOf f p).steps s = p.steps s := by
  induction p with
  | pure a => intro s; rfl
  | throw e => intro s; rfl
  | step x k ih => intro s; exact congrArg (· + 1) (ih _ _)

/-- Polled as often as it takes steps, a future has come to its end. -/
theorem after_steps (p : Prog α) {r : α} : ∀ {n : Nat} {s s' : St}, p.run s = (.ok r, s') → p.steps s ≤ n →
    p.after n s = (.pure r, s') := by
  induction p with
  | pure a =>
    intro n s s' h _
    cases h
    induction n with
    | zero => rfl
    | succ n ih => exact ih (Nat.zero_le _)
  | throw e => intro n s s' h _; cases h
  | step x k ih =>
    intro n s s' h hn
    cases n with
    | zero => simp only [Prog.steps] at hn; omega
    | succ n => exact ih _ (n := n) h (Nat.le_of_succ_le_succ hn)

/-- The calls about a single entry. -/
def Cmd.OfOneEntry : Cmd → Prop
  | .get _ | .put _ _ | .putCas _ _ _ | .del _ | .delCas _ _ => True
  | _ => False

/-- A bound for each kind of call on a database with a tree of `h` levels. -/
def Cmd.stepBound (h : Nat) : Cmd → Nat
  | .get _ => 34 * h + 8
  | .put _ _ | .putCas _ _ _ => 47 * h + 17
  | _ => 174 * h

theorem Holds.exec_steps {s : St} {d : Db} (hd : Holds s d) {H : Nat} {u : T} (hu : TreeAt s.core H u) {c : Cmd}
    (hc : c.OfOneEntry) : (Prog.exec c).steps s ≤ c.stepBound (H + 1) := by
  rcases hd.store with hb | ⟨H', u', hu', hco, _⟩
  · have := hb.1
    have := hu.two
    omega
  · obtain rfl := hu.unique hu'
    cases c with
    | get k =>
      have := get_steps hu hd.wf hco k
      simp only [Prog.exec, steps_replyOf, Cmd.stepBound]
      omega
    | put k v =>
      have := put_steps k v (putCas_steps hu hd.wf hco k v _)
      simp only [Prog.exec, steps_replyOf, Cmd.stepBound]
      omega
    | putCas k v cas =>
      have := (putCas_steps hu hd.wf hco k v cas).1
      simp only [Prog.exec, steps_replyOf, Cmd.stepBound]
      omega
    | del k =>
      have := del_steps k (delCas_steps hu hd.wf hco k _)
      simp only [Prog.exec, steps_replyOf, Cmd.stepBound]
      omega
    | delCas k cas =>
      have := (delCas_steps hu hd.wf hco k cas).1
      simp only [Prog.exec, steps_replyOf, Cmd.stepBound]
      omega
    | version => exact hc.elim
    | createHeader m => exact hc.elim
    | traverse b sched => exact hc.elim
    | reopen => exact hc.elim

theorem exec_steps {s : St} (hs : Reachable s) {t : STree} (ht : StoresRoot s.core t) {h : Nat}
    (hh : h ∈ t.leafDepths) {c : Cmd} (hc : c.OfOneEntry) : (Prog.exec c).steps s ≤ c.stepBound h := by
  obtain ⟨d, hd⟩ := hs.holds
  obtain ⟨H, u, hu, rfl⟩ := hs.treeAt ht
  obtain rfl := spec_depths hu.good.shape h hh
  exact hd.exec_steps hu hc

theorem exec_steps_empty {s : St} (h1 : s.core.length ≤ 1) {c : Cmd} (hc : c.OfOneEntry) :
    (Prog.exec c).steps s ≤ 13 := by
  cases c with
  | get k =>
    have := (readers_steps_empty h1 k fun _ => true).1
    simp only [Prog.exec, steps_replyOf]
    omega
  | put k v =>
    have := put_steps k v (putCas_steps_empty h1 k v _)
    simp only [Prog.exec, steps_replyOf]
    omega
  | putCas k v cas =>
    have := (putCas_steps_empty h1 k v cas).1
    simp only [Prog.exec, steps_replyOf]
    omega
  | del k =>
    have := del_steps k (readers_steps_empty h1 k _).2
    simp only [Prog.exec, steps_replyOf]
    omega
  | delCas k cas =>
    have := (readers_steps_empty h1 k cas).2.1
    simp only [Prog.exec, steps_replyOf]
    omega
  | version => exact hc.elim
  | createHeader m => exact hc.elim
  | traverse b sched => exact hc.elim
  | reopen => exact hc.elim

/-- A call about one entry through a sub-database is such a call on the database. -/
theorem via_one {x : Option Prefixed × Cmd} (hx : x.2.OfOneEntry) :
    ∃ c : Cmd, c.OfOneEntry ∧ Prog.execVia x = Prog.exec c ∧ ∀ h, c.stepBound h = x.2.stepBound h := by
  obtain ⟨p, c⟩ := x
  cases p with
  | none => exact ⟨c, hx, rfl, fun _ => rfl⟩
  | some p =>
    cases c with
    | get k => exact ⟨.get (p.pre ++ p.sep ++ k), trivial, rfl, fun _ => rfl⟩
    | put k v => exact ⟨.put (p.pre ++ p.sep ++ k) v, trivial, rfl, fun _ => rfl⟩
    | putCas k v cas => exact ⟨.putCas (p.pre ++ p.sep ++ k) v cas, trivial, rfl, fun _ => rfl⟩
    | del k => exact ⟨.del (p.pre ++ p.sep ++ k), trivial, rfl, fun _ => rfl⟩
    | delCas k cas => exact ⟨.delCas (p.pre ++ p.sep ++ k) cas, trivial, rfl, fun _ => rfl⟩
    | version => exact hx.elim
    | createHeader m => exact hx.elim
    | traverse b sched => exact hx.elim
    | reopen => exact hx.elim

theorem not_reopen {c : Cmd} (hc : c.OfOneEntry) : c ≠ .reopen := by rintro rfl; exact hc

/-! ## C85 -/

/-- On a database whose tree has `h` levels, a lookup that is polled `34 * h + 8` times has its result, a
put one polled `47 * h + 17` times, a deletion one polled `174 * h` times: the result it has when awaited. -/
theorem ends_soon {s : St} (hs : Reachable s) {t : STree} (ht : StoresRoot s.core t) {h : Nat}
    (hh : h ∈ t.leafDepths) (x : Option Prefixed × Cmd) (hx : x.2.OfOneEntry) {n : Nat} (hn : x.2.stepBound h ≤ n) :
    ((Prog.execVia x).after n s).1.result = some (execVia x s).1 ∧ ((Prog.execVia x).after n s).2 = (execVia x s).2 := by
  obtain ⟨c, hc, he, hb⟩ := via_one hx
  have h1 := run_execVia x (not_reopen hx) s
  have h2 : (Prog.execVia x).steps s ≤ n := by
    rw [he]
    have := exec_steps hs ht hh hc
    rw [hb] at this
    omega
  rw [after_steps _ h1 h2]
  exact ⟨rfl, rfl⟩

/-- So what calls take grows with the logarithm of the number `n` of keys only. -/
theorem ends_soon_log {s : St} (hs : Reachable s) {t : STree} (ht : StoresRoot s.core t)
    (x : Option Prefixed × Cmd) (hx : x.2.OfOneEntry) :
    ((Prog.execVia x).after (174 * (Nat.log 5 ((t.inorder.length + 1) / 2) + 1)) s).1.result = some (execVia x s).1 := by
  obtain ⟨h, hh, hle⟩ := depth_le_log hs ht
  have h1 : 1 ≤ h := by
    obtain ⟨H, u, hu, rfl⟩ := hs.treeAt ht
    have := spec_depths hu.good.shape h hh
    omega
  refine (ends_soon hs ht hh x hx ?_).1
  obtain ⟨p, c⟩ := x
  cases c <;> simp only [Cmd.stepBound] <;> omega

/-- Without a tree every call ends after thirteen steps at most. -/
theorem ends_soon_empty {s : St} (h1 : s.core.length ≤ 1)
    (x : Option Prefixed × Cmd) (hx : x.2.OfOneEntry) :
    ((Prog.execVia x).after 13 s).1.result = some (execVia x s).1 := by
  obtain ⟨c, hc, he, _⟩ := via_one hx
  rw [after_steps _ (run_execVia x (not_reopen hx) s) (by rw [he]; exact exec_steps_empty h1 hc)]
  rfl

/-- Sixty keys in three levels, on a fresh handle: the bounds are 110, 158, 158, 522 and 522. -/
example : (([.get (demoKey 3), .put (demoKey 3) none, .put (demoKey 61) none, .del (demoKey 3), .del (demoKey 24)] : List Cmd).map
    fun c => (Prog.exec c).steps (St.open (runSt ascending St.init).core)) = [52, 68, 64, 105, 143] := by decide +kernel

end Hyperbee
