import Verif.Model.SubFlaky
import Verif.Proof.SubAsync
import Verif.Proof.FlakyStream
/-!
# Reads that fail in calls through sub-databases
-/

namespace Hyperbee

/-- Whatever is read, whether reads fail or not, and however it ends, the state has only grown. -/
def Grows (α : Type) (p : Prog α) : Prop := ∀ s r t, SWF s → Flakes p s r t → Ext s t

theorem Grows.bind {p : Prog α} {f : α → Prog β} (h : Grows α p) (hf : ∀ a, Grows β (f a)) : Grows β (p >>= f) := by
  intro s r t hw hfl
  rcases hfl.bind with ⟨a, u, h1, h2⟩ | ⟨e, h1, _⟩
  · have e1 := h _ _ _ hw h1
    exact e1.trans (hf a _ _ _ e1.wf h2)
  · exact h _ _ _ hw h1

theorem NoFetch.grows {p : Prog α} (h : NoFetch p) (hs : ∀ s, (p.run s).2 = s) : Grows α p := by
  intro s r t hw hfl
  have := h.flakes hfl
  have ht : t = s := by rw [← hs s, this]
  rw [ht]
  exact Ext.refl hw

theorem grows_lift {x : Atom β} (hx : ∀ f, x.fail f = none) (hs : ∀ s, (x.run s).2 = s) : Grows β (Prog.lift x) :=
  (noFetch_lift x hx).grows fun s => by rw [show (Prog.lift x).run s = x.run s from congrFun (Does.lift x) s, hs]

theorem Grows.under {p : Prog α} (a : Addr) (md : Mode) (h : Grows α p) : Grows α (p.under a md) :=
  fun s r t hw hfl => h s r t hw hfl.under

theorem grows_pure (a : α) : Grows α (Pure.pure a) := NoFetch.grows (p := .pure a) trivial fun _ => rfl

theorem grows_throw (e : Err) : Grows α (Prog.throw e) := NoFetch.grows (p := .throw e) trivial fun _ => rfl

theorem grows_orPanic (site : String) (o : Option α) : Grows α (Prog.orPanic site o) := by
  cases o with
  | none => exact grows_throw _
  | some a => exact grows_pure a

theorem grows_blocksGet (q : Nat) : Grows _ (Prog.blocksGet q) := by
  intro s r t hw hfl
  rcases flakes_blocksGet hfl with h | ⟨e, _, _, rfl⟩
  · have hrun : (Prog.blocksGet q).run s = blocksGet q s := congrFun (does_blocksGet q) s
    rw [hrun] at h
    rcases blocksGet_cases q s with ⟨e, _, h'⟩ | ⟨hq, ⟨_, h'⟩ | ⟨_, ⟨b, hb, h'⟩ | ⟨_, _, e, xs, h', _⟩⟩⟩ <;> rw [h'] at h <;> cases h
    · exact Ext.refl hw
    · exact Ext.refl hw
    · exact ext_loaded hw hq hb
    · refine ⟨rfl, rfl, ⟨xs, rfl⟩, fun _ _ h => h, fun _ _ h => .inl h, hw.rd, hw.ent, fun r a ha => ?_, hw.inj⟩
      have := hw.lt r a ha
      show a < (s.heap ++ xs).length
      rw [List.length_append]
      omega
  · exact Ext.refl hw

theorem grows_readNode (a : Nat) : Grows _ (Prog.readNode a) := by
  refine grows_lift (fun _ => rfl) fun s => ?_
  show (Hyperbee.readNode a s).2 = s
  unfold Hyperbee.readNode
  split <;> rfl

theorem grows_acts : RActs Grows where
  pure := grows_pure
  throw := grows_throw
  bind := Grows.bind
  readNode := grows_readNode
  getChild a i := (grows_readNode a).bind fun n => Grows.under _ _
    ((grows_orPanic _ _).bind fun c => (grows_blocksGet _).bind fun b => grows_orPanic _ _)
  getKeyValue a i := (grows_readNode a).bind fun n => Grows.under _ _
    ((grows_orPanic _ _).bind fun q => (grows_blocksGet _).bind fun b => (grows_blocksGet _).bind fun b' => grows_pure _)
  version := grows_lift (fun _ => rfl) fun _ => rfl
  descentFuel := grows_lift (fun _ => rfl) fun _ => rfl
  blocksGet := grows_blocksGet

theorem Grows.tryResult {p : Prog α} (h : Grows α p) : Grows _ (Prog.tryResult p) := by
  intro s r t hw hfl
  obtain ⟨x, h1, _⟩ := hfl.tryResult
  exact h _ _ _ hw h1

theorem Grows.replyOf {p : Prog α} (f : α → Reply) (h : Grows α p) : Grows _ (Prog.replyOf f p) := by
  intro s r t hw hfl
  obtain ⟨x, h1, _⟩ := hfl.replyOf
  exact h _ _ _ hw h1

theorem grows_subTraverse (p : Prefixed) (b : TraverseConfigBuilder) (sched : List Bool) : Grows _ (Prog.subTraverse p b sched) := by
  unfold Prog.subTraverse
  cases b.build with
  | error e => exact grows_throw e
  | ok conf =>
    exact (grows_acts.traverse_ _).bind fun fs =>
      (grows_acts.drive_ Grows.tryResult (fun a => (grows_readNode a).under a .read) (grows_acts.strip_ p) sched fs).bind
        fun _ => grows_pure _

/-- Calls on the database itself. -/
theorem execFlakyVia_none (fs : List (Option Fault)) (c : Cmd) (s : St) : execFlakyVia fs (none, c) s = execFlaky fs c s := by
  cases c <;> rfl

/-- Calls through a sub-database other than traversals are calls on the database. -/
theorem execFlakyVia_expand (fs : List (Option Fault)) (p : Prefixed) (c : Cmd) (h : ∀ b sched, c ≠ .traverse b sched) (s : St) :
    execFlakyVia fs (some p, c) s = execFlaky fs (p.expand c) s := by
  cases c with
  | traverse b sched => exact absurd rfl (h b sched)
  | _ => rfl

theorem execFlakyVia_ext {s : St} (hw : SWF s) (fs : List (Option Fault)) (p : Prefixed) (b : TraverseConfigBuilder) (sched : List Bool) :
    Ext s (execFlakyVia fs (some p, .traverse b sched) s).2 := by
  have h := (grows_subTraverse p b sched).replyOf (fun r => .items r.1 r.2) s _ _ hw (flaky_flakes _ fs s)
  show Ext s (match (Prog.subExec p (.traverse b sched)).flaky fs s with
    | (.ok r, t) => ((r, t) : Reply × St) | (.error e, t) => (.error e, t)).2
  change Ext s ((Prog.subExec p (.traverse b sched)).flaky fs s).2 at h
  cases hx : (Prog.subExec p (.traverse b sched)).flaky fs s with
  | mk o t => rw [hx] at h; cases o <;> exact h

/-- One call on equal cores. -/
theorem execVia_same {s1 s2 : St} {d1 d2 : Db} (h1 : Holds s1 d1) (h2 : Holds s2 d2) (hc : s2.core = s1.core) (x : Option Prefixed × Cmd) :
    (execVia x s1).1 = (execVia x s2).1 ∧ (execVia x s1).2.core = (execVia x s2).2.core := by
  obtain ⟨via, c⟩ := x
  cases via with
  | none => exact calls_same h1 h2 hc c
  | some p =>
    show (p.exec c s1).1 = (p.exec c s2).1 ∧ (p.exec c s1).2.core = (p.exec c s2).2.core
    by_cases hcm : ∃ b sched, c = .traverse b sched
    · obtain ⟨b, sched, rfl⟩ := hcm
      exact subTraverse_same h1 h2 hc p b sched
    · rw [p.exec_expand c (fun b sched e => hcm ⟨b, sched, e⟩), p.exec_expand c (fun b sched e => hcm ⟨b, sched, e⟩)]
      exact calls_same h1 h2 hc _

theorem runVia_same : ∀ (xs : List (Option Prefixed × Cmd)) {s1 s2 : St} {d1 d2 : Db}, Holds s1 d1 → Holds s2 d2 → s2.core = s1.core →
    (runVia xs s1).1 = (runVia xs s2).1 ∧ (runVia xs s1).2.core = (runVia xs s2).2.core := by
  intro xs
  induction xs with
  | nil => intro s1 s2 d1 d2 _ _ hc; exact ⟨rfl, hc.symm⟩
  | cons x xs ih =>
    intro s1 s2 d1 d2 h1 h2 hc
    obtain ⟨g1, g2⟩ := execVia_same h1 h2 hc x
    obtain ⟨g3, g4⟩ := ih (execVia_holds h1 x) (execVia_holds h2 x) g2.symm
    refine ⟨?_, g4⟩
    show (execVia x s1).1 :: (runVia xs (execVia x s1).2).1 = (execVia x s2).1 :: (runVia xs (execVia x s2).2).1
    rw [g1, g3]

end Hyperbee
