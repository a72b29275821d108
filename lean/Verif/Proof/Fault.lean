import Verif.Proof.Commit
/-!
# Appending fails

What a call does on a core that cannot be appended to, compared with what it would have done.
-/

namespace Hyperbee

/-! ## Readers do not append -/

section
variable {P : ∀ α : Type, Prog α → Prop} (h : RActs P) (ht : ∀ {α : Type} {p : Prog α}, P α p → P _ (Prog.tryResult p))
  (hw : ∀ a, P _ (Prog.under a .read (Prog.readNode a)))
include h

theorem RActs.get_ (k : Bytes) : P _ (Prog.get k) := by
  unfold Prog.get; pacts h [h.getRoot_, h.nearestNode_ _ _, h.getKeyValue_ _ _]

theorem RActs.makeIter_ (conf : TraverseConfig) (a nk nc : Nat) : P _ (Prog.makeChildKeyIndexIter conf a nk nc) := by
  unfold Prog.makeChildKeyIndexIter; pacts h [h.getIndexOfKey_ _ _]

theorem RActs.traverse_ (conf : TraverseConfig) : P _ (Prog.traverse conf) := by
  unfold Prog.traverse; pacts h [h.getRoot_]

include ht hw

theorem RActs.pollSetup_ (r : Bool) (f : Frame) : P _ (Prog.pollSetup r f) := by
  unfold Prog.pollSetup; pacts h [ht (h.makeIter_ _ _ _ _), h.makeIter_ _ _ _ _, hw _]

theorem RActs.poll_ (r : Bool) : ∀ fs, P _ (Prog.poll r fs) := by
  intro fs
  induction fs with
  | nil => exact h.throw _
  | cons f fs ih =>
    cases fs with
    | nil => unfold Prog.poll; pacts h [ht (h.getKeyValue_ _ _), ht (h.getChild_ _ _), h.pollSetup_ ht hw _ _]
    | cons g gs => unfold Prog.poll; pacts h [ht (h.getKeyValue_ _ _), ht (h.getChild_ _ _), ih]

theorem RActs.drive_ {post : Except Err KeyValueData → Prog β} (hp : ∀ x, P _ (post x)) :
    ∀ rs fs, P _ (Prog.drive post rs fs) := by
  intro rs
  induction rs with
  | nil => intro fs; exact h.pure _
  | cons r rs ih => intro fs; unfold Prog.drive; pacts h [h.poll_ ht hw _ _, hp _, ih _]

theorem RActs.traverseSession_ (b : TraverseConfigBuilder) (sched : List Bool) : P _ (Prog.traverseSession b sched) := by
  unfold Prog.traverseSession Prog.collect
  pacts h [h.traverse_ _, h.drive_ ht hw (fun x => h.pure x) _ _]

end

theorem NoApp.tryResult {p : Prog α} (h : NoApp α p) : NoApp _ (Prog.tryResult p) := by
  induction p with
  | pure a => trivial
  | throw e => cases e <;> trivial
  | step x k ih => exact ⟨h.1, fun r => ih r (h.2 r)⟩

theorem NoApp.replyOf {p : Prog α} (f : α → Reply) (h : NoApp α p) : NoApp _ (Prog.replyOf f p) := by
  induction p with
  | pure a => trivial
  | throw e => trivial
  | step x k ih => exact ⟨h.1, fun r => ih r (h.2 r)⟩

theorem noApp_looks {c : Cmd} (h : c.looks = true) : NoApp _ (Prog.exec c) := by
  cases c with
  | version => exact NoApp.replyOf _ noApp_acts.version
  | get k => exact NoApp.replyOf _ (noApp_acts.get_ k)
  | traverse b rs => exact NoApp.replyOf _ (noApp_acts.traverseSession_ NoApp.tryResult (fun _ => (noApp_acts.readNode _).under _ _) b rs)
  | _ => cases h

/-! ## Failing to append ends the call -/

/-- When a step fails to append, the program ends as `e`. -/
def GivesUp (e : Prog α) : Prog α → Prop
  | .pure _ => True
  | .throw _ => True
  | .step x k => (x.appends = true → k (.error .core) = e) ∧ ∀ r, GivesUp e (k r)

theorem NoApp.givesUp {p : Prog α} (h : NoApp α p) (e : Prog α) : GivesUp e p := by
  induction p with
  | pure a => trivial
  | throw e => trivial
  | step x k ih => exact ⟨fun hx => absurd hx (by simp [h.1]), fun r => ih r (h.2 r)⟩

theorem GivesUp.bind {p : Prog α} {f : α → Prog β} (h : GivesUp (.throw .core) p)
    (hf : ∀ a, GivesUp (.throw .core) (f a)) : GivesUp (.throw .core) (p >>= f) := by
  induction p with
  | pure a => exact hf a
  | throw e => trivial
  | step x k ih =>
    refine ⟨fun hx => ?_, fun r => ih r (h.2 r)⟩
    show k (.error .core) >>= f = _
    rw [h.1 hx]
    rfl

theorem GivesUp.replyOf {p : Prog α} (f : α → Reply) (h : GivesUp (.throw .core) p) :
    GivesUp (.pure (.error .core)) (Prog.replyOf f p) := by
  induction p with
  | pure a => trivial
  | throw e => trivial
  | step x k ih =>
    refine ⟨fun hx => ?_, fun r => ih r (h.2 r)⟩
    show (k (.error .core)).replyOf f = _
    rw [h.1 hx]
    rfl

theorem givesUp_append (b : Bytes) : GivesUp (.throw .core) (Prog.coreAppend b) :=
  ⟨fun _ => rfl, fun r => by cases r <;> trivial⟩

theorem givesUp_acts : DActs fun _ p => GivesUp (.throw .core) p where
  pure _ := trivial
  throw _ := trivial
  bind := GivesUp.bind
  readNode _ := (noApp_acts.readNode _).givesUp _
  edit _ _ _ := (noApp_acts.edit _ _ _).givesUp _
  moveChildren _ _ _ := (noApp_acts.moveChildren _ _ _).givesUp _
  getChild _ _ := (noApp_acts.getChild _ _).givesUp _
  getKeyValue _ _ := (noApp_acts.getKeyValue _ _).givesUp _
  alloc _ := (noApp_acts.alloc _).givesUp _
  version := noApp_acts.version.givesUp _
  descentFuel := noApp_acts.descentFuel.givesUp _
  blocksGet _ := (noApp_acts.blocksGet _).givesUp _

theorem givesUp_createHeader (m : Option Metadata) : GivesUp (.throw .core) (Prog.createHeader m) := by
  unfold Prog.createHeader; pacts givesUp_acts [givesUp_append _]

theorem givesUp_ensureHeader : GivesUp (.throw .core) Prog.ensureHeader := by
  have : ∀ p : Prog Nat, GivesUp (.throw .core) p → GivesUp (.throw .core) (Prog.catchExists p) := by
    intro p h
    induction p with
    | pure a => trivial
    | throw e => cases e <;> trivial
    | step x k ih =>
      refine ⟨fun hx => ?_, fun r => ih r (h.2 r)⟩
      show (k (.error .core)).catchExists = _
      rw [h.1 hx]
      rfl
  exact this _ (givesUp_createHeader _)

theorem givesUp_getRoot : GivesUp (.throw .core) (Prog.getRoot true) := by
  unfold Prog.getRoot; pacts givesUp_acts [givesUp_ensureHeader, givesUp_acts.getTreeNode_ _ _]

theorem givesUp_commitPrepared (p : Prepared α) : GivesUp (.throw .core) (Prog.commitPrepared p) := by
  cases p with
  | done a => trivial
  | commit ch a =>
    unfold Prog.commitPrepared Prog.addChanges
    pacts givesUp_acts [givesUp_append _, givesUp_acts.reorderNodes_ _ _, givesUp_acts.readNodes_ _]

theorem givesUp_putCas (k : Bytes) (v : Option Bytes) (cas : Option KeyValueData → KeyValueData → Bool) :
    GivesUp (.throw .core) (Prog.putCompareAndSwap k v cas) := by
  unfold Prog.putCompareAndSwap Prog.putPrepare
  pacts givesUp_acts [givesUp_getRoot, givesUp_acts.nearestNode_ _ _, givesUp_acts.getKeyValue_ _ _,
    givesUp_acts.putLoop_ _ _ _ _ _, givesUp_commitPrepared _]

theorem givesUp_put (k : Bytes) (v : Option Bytes) : GivesUp (.throw .core) (Prog.put k v) := by
  unfold Prog.put; pacts givesUp_acts [givesUp_putCas _ _ _]

theorem givesUp_delCas (k : Bytes) (cas : KeyValueData → Bool) :
    GivesUp (.throw .core) (Prog.delCompareAndSwap k cas) := by
  unfold Prog.delCompareAndSwap; pacts givesUp_acts [givesUp_acts.delPrepare_ _ _, givesUp_commitPrepared _]

theorem givesUp_del (k : Bytes) : GivesUp (.throw .core) (Prog.del k) := by
  unfold Prog.del; pacts givesUp_acts [givesUp_delCas _ _]

theorem givesUp_exec (c : Cmd) : GivesUp (.pure (.error .core)) (Prog.exec c) := by
  cases c with
  | version => exact (noApp_looks (c := .version) rfl).givesUp _
  | get k => exact (noApp_looks (c := .get k) rfl).givesUp _
  | traverse b rs => exact (noApp_looks (c := .traverse b rs) rfl).givesUp _
  | put k v => exact (givesUp_put k v).replyOf _
  | putCas k v cas => exact (givesUp_putCas k v cas).replyOf _
  | del k => exact (givesUp_del k).replyOf _
  | delCas k cas => exact (givesUp_delCas k cas).replyOf _
  | createHeader m => exact (givesUp_createHeader m).replyOf _
  | reopen => trivial

theorem GivesUp.after {e p : Prog α} (h : GivesUp e p) (n : Nat) (s : St) : GivesUp e (Prog.after n p s).1 := by
  induction n generalizing p s with
  | zero => exact h
  | succ n ih =>
    cases p with
    | pure a => exact ih h s
    | throw e => exact ih h s
    | step x k => exact ih (h.2 _) _

/-! ## Running on a core that cannot be appended to -/

/-- The same state, on a core that cannot be appended to. -/
def St.failing (s : St) : St := { s with io := { s.io with appendOk := false } }

/-- The same state, on a core that can be appended to. -/
def St.working (s : St) : St := { s with io := { s.io with appendOk := true } }

/-- `m` does not notice. -/
structure Unaware (m : M α) : Prop where
  at_ : ∀ s, m s.failing = ((m s).1, (m s).2.failing)

theorem Unaware.bind {m : M α} {f : α → M β} (h : Unaware m) (hf : ∀ a, Unaware (f a)) : Unaware (m >>= f) := by
  constructor
  intro s
  rw [bind_run, bind_run, h.at_ s]
  rcases m s with ⟨r, s'⟩
  cases r with
  | error e => rfl
  | ok a => exact (hf a).at_ s'

theorem unaware_allocLevels : ∀ ls, Unaware (allocLevels ls) := by
  intro ls
  induction ls with
  | nil => exact ⟨fun _ => rfl⟩
  | cons l ls ih =>
    unfold allocLevels
    refine Unaware.bind ?_ fun n => Unaware.bind ⟨fun _ => rfl⟩ fun a => Unaware.bind ih fun as => ⟨fun _ => rfl⟩
    cases levelToNode l <;> exact ⟨fun _ => rfl⟩

theorem unaware_getFromCore (q : Nat) : Unaware (getFromCore q) := by
  unfold getFromCore
  refine Unaware.bind ⟨fun _ => rfl⟩ fun o => ?_
  cases o with
  | none => exact ⟨fun _ => rfl⟩
  | some x =>
    dsimp only
    split
    · exact ⟨fun _ => rfl⟩
    · refine Unaware.bind ?_ fun _ => ⟨fun _ => rfl⟩
      unfold blockEntryNew makeNodeVec
      refine Unaware.bind ?_ fun _ => ⟨fun _ => rfl⟩
      split
      · exact ⟨fun _ => rfl⟩
      · exact unaware_allocLevels _

theorem unaware_readNode (a : Addr) : Unaware (Hyperbee.readNode a) := by
  constructor
  intro s
  unfold Hyperbee.readNode
  rw [show s.failing.heap = s.heap from rfl]
  cases s.heap[a]? <;> rfl

theorem Atom.unaware {x : Atom β} (h : x.appends = false) : Unaware x.run := by
  induction x with
  | coreFetch q => exact unaware_getFromCore q
  | readNode a => exact unaware_readNode a
  | edit md a f =>
    refine Unaware.bind (unaware_readNode a) fun n => ?_
    cases f n with
    | ok r => exact Unaware.bind ⟨fun _ => rfl⟩ fun _ => ⟨fun _ => rfl⟩
    | error e => exact ⟨fun _ => rfl⟩
  | moveChildren l r n =>
    show Unaware (Side.moveChildren l r n)
    unfold Side.moveChildren
    split
    · exact ⟨fun _ => rfl⟩
    · refine Unaware.bind (unaware_readNode _) fun n => Unaware.bind ⟨fun _ => rfl⟩ fun _ =>
        Unaware.bind (unaware_readNode _) fun m => Unaware.bind ?_ fun _ => ⟨fun _ => rfl⟩
      unfold Hyperbee.orPanic
      split <;> exact ⟨fun _ => rfl⟩
  | under a md x ih => exact ih h
  | coreAppend b => cases h
  | _ => exact ⟨fun _ => rfl⟩

theorem Atom.grows (x : Atom β) (s : St) : s.core <+: (x.run s).2.core ∧ (x.run s).2.io = s.io := by
  cases hx : x.appends with
  | false =>
    have := Atom.core_noApp hx s
    exact ⟨by rw [this.1]; exact List.prefix_refl _, this.2⟩
  | true =>
    induction x with
    | under a md x ih => exact ih hx
    | coreAppend b =>
      show s.core <+: (Hyperbee.coreAppend b s).2.core ∧ (Hyperbee.coreAppend b s).2.io = s.io
      unfold Hyperbee.coreAppend
      split
      · exact ⟨List.prefix_append _ _, rfl⟩
      · exact ⟨List.prefix_refl _, rfl⟩
    | _ => cases hx

theorem Prog.grows (p : Prog α) : ∀ s, s.core <+: (p.run s).2.core ∧ (p.run s).2.io = s.io := by
  induction p with
  | pure a => intro s; exact ⟨List.prefix_refl _, rfl⟩
  | throw e => intro s; exact ⟨List.prefix_refl _, rfl⟩
  | step x k ih =>
    intro s
    have h1 := x.grows s
    have h2 := ih (x.run s).1 (x.run s).2
    exact ⟨h1.1.trans h2.1, h2.2.trans h1.2⟩

theorem Atom.appending {x : Atom β} (h : x.appends = true) {s : St} (hs : s.io.appendOk = true) :
    x.run s.failing = (.error .core, s.failing) ∧ ∃ b, (x.run s).2.core = s.core ++ [b] := by
  induction x with
  | coreAppend b =>
    refine ⟨?_, b, ?_⟩
    · simp [Atom.run, Hyperbee.coreAppend, St.failing]
    · simp [Atom.run, Hyperbee.coreAppend, hs]
  | under a md x ih => exact ih h
  | _ => cases h

/-- A program run on a core that cannot be appended to does what it would have done, if that
appends nothing; or it ends as `e` and appends nothing. -/
theorem GivesUp.run {e : Prog α} {r0 : Except Err α} (he : ∀ t, e.run t = (r0, t)) {p : Prog α} (h : GivesUp e p) :
    ∀ s, s.io.appendOk = true →
      ((p.run s).2.core = s.core ∧ p.run s.failing = ((p.run s).1, (p.run s).2.failing)) ∨
      ((p.run s).2.core ≠ s.core ∧ (p.run s.failing).1 = r0 ∧ (p.run s.failing).2.core = s.core) := by
  induction p with
  | pure a => intro s _; exact .inl ⟨rfl, rfl⟩
  | throw e => intro s _; exact .inl ⟨rfl, rfl⟩
  | step x k ih =>
    intro s hs
    cases hx : x.appends with
    | false =>
      have h1 := (Atom.unaware hx).at_ s
      have h2 := Atom.core_noApp hx s
      have h3 := ih (x.run s).1 (h.2 _) (x.run s).2 (by rw [h2.2]; exact hs)
      rw [h2.1] at h3
      rw [show (Prog.step x k).run s.failing = (k (x.run s.failing).1).run (x.run s.failing).2 from rfl, h1]
      exact h3
    | true =>
      right
      obtain ⟨e1, b, e2⟩ := Atom.appending hx hs
      refine ⟨?_, ?_⟩
      · intro hc
        have := ((k (x.run s).1).grows (x.run s).2).1
        rw [e2] at this
        have hl := this.length_le
        rw [show ((Prog.step x k).run s).2 = ((k (x.run s).1).run (x.run s).2).2 from rfl] at hc
        rw [hc] at hl
        simp at hl
        omega
      · rw [show (Prog.step x k).run s.failing = (k (x.run s.failing).1).run (x.run s.failing).2 from rfl, e1, h.1 hx, he]
        exact ⟨rfl, rfl⟩

theorem run_after (n : Nat) (p : Prog α) (s : St) : (Prog.after n p s).1.run (Prog.after n p s).2 = p.run s := by
  induction n generalizing p s with
  | zero => rfl
  | succ n ih =>
    cases p with
    | pure a => exact ih _ _
    | throw e => exact ih _ _
    | step x k => exact ih _ _

theorem after_grows (n : Nat) (p : Prog α) (s : St) :
    s.core <+: (Prog.after n p s).2.core ∧ (Prog.after n p s).2.io = s.io := by
  induction n generalizing p s with
  | zero => exact ⟨List.prefix_refl _, rfl⟩
  | succ n ih =>
    cases p with
    | pure a => exact ih _ _
    | throw e => exact ih _ _
    | step x k =>
      have h1 := x.grows s
      have h2 := ih (k (x.run s).1) (x.run s).2
      exact ⟨h1.1.trans h2.1, h2.2.trans h1.2⟩

end Hyperbee
