import Verif.Model.SubAsync
import Verif.Proof.Sub
import Verif.Proof.Flight
/-!
# Calls through sub-databases, with other calls in between
-/

namespace Hyperbee

/-! ## Alone, they are the calls of the sequential model -/

theorem does_strip (p : Prefixed) (x : Except Err KeyValueData) : Does (Prog.strip p x) (p.strip x) := by
  cases x with
  | error e => exact Does.pure _
  | ok x =>
    unfold Prog.strip Prefixed.strip
    dsimp only
    split
    · exact Does.pure _
    · exact Does.throw _

theorem does_subTraverse (p : Prefixed) (b : TraverseConfigBuilder) (rs : List Bool) :
    Does (Prog.subTraverse p b rs) (p.traverseSession b rs) := by
  unfold Prog.subTraverse Prefixed.traverseSession
  cases b.build with
  | error e => exact Does.throw e
  | ok conf =>
    dsimp only
    unfold Prefixed.collect
    have h1 : Does (Prog.traverse (p.boundedConf conf) >>= fun fs => Prog.drive (Prog.strip p) rs fs)
        (Hyperbee.traverse (p.boundedConf conf) >>= fun fs => Hyperbee.drive p.strip rs fs) :=
      Does.bind (does_traverse _) fun _ => does_drive (does_strip p) _ _
    have h2 := Does.bind h1 (f := fun r => Pure.pure (r.1, r.2.isNone)) (g := fun r => Pure.pure (r.1, r.2.isNone))
      fun _ => Does.pure _
    have hb : ∀ {α β γ : Type} (m : Prog α) (f : α → Prog β) (g : β → Prog γ),
        (m >>= f) >>= g = m >>= fun a => f a >>= g := by
      intro α β γ m f g
      induction m with
      | pure a => rfl
      | throw e => rfl
      | step x k ih => exact congrArg (Prog.step x) (funext ih)
    rw [hb] at h2
    exact h2

theorem run_execVia (x : Option Prefixed × Cmd) (hx : x.2 ≠ .reopen) (s : St) :
    (Prog.execVia x).run s = (.ok (execVia x s).1, (execVia x s).2) := by
  obtain ⟨o, c⟩ := x
  cases o with
  | none => exact run_exec c hx s
  | some p =>
    cases c with
    | reopen => exact absurd rfl hx
    | version => exact run_exec .version hx s
    | createHeader m => exact run_exec (.createHeader m) hx s
    | get k => exact run_exec (.get (p.withKeyPrefix k)) (by intro h; cases h) s
    | put k v => exact run_exec (.put (p.withKeyPrefix k) v) (by intro h; cases h) s
    | putCas k v cas => exact run_exec (.putCas (p.withKeyPrefix k) v cas) (by intro h; cases h) s
    | del k => exact run_exec (.del (p.withKeyPrefix k)) (by intro h; cases h) s
    | delCas k cas => exact run_exec (.delCas (p.withKeyPrefix k) cas) (by intro h; cases h) s
    | traverse b rs => exact run_replyOf (does_subTraverse p b rs) _ s

theorem replies_execVia (x : Option Prefixed × Cmd) : Replies (Prog.execVia x) := by
  obtain ⟨o, c⟩ := x
  cases o with
  | none => exact replies_exec c
  | some p => cases c <;> first | exact replies_replyOf _ _ | trivial

/-! ## Readers -/

section

variable {S : (α : Type) → Prog α → Prog α → Names → (Names → α → α → Prop) → Prop}

/-- `Laws.drive`, with a closure over the stream. -/
theorem Laws.driveMap (L : Laws S) {β : Type} {post : Except Err KeyValueData → Prog β}
    (hpost : ∀ x Γ, S _ (post x) (post x) Γ EqR) : ∀ (rs : List Bool) (fs fs' : List Frame) (Γ : Names),
    List.Forall₂ (FrameR Γ) fs fs' → S _ (Prog.drive post rs fs) (Prog.drive post rs fs') Γ
      (fun Γ x x' => x.1 = x'.1 ∧ Option.Rel (List.Forall₂ (FrameR Γ)) x.2 x'.2) := by
  intro rs
  induction rs with
  | nil => intro fs fs' Γ h; exact L.pure fun Γ' hl => ⟨rfl, .some (frames_mono hl h)⟩
  | cons r rs ih =>
    intro fs fs' Γ h
    unfold Prog.drive
    refine L.bind (L.poll r fs fs' Γ h) ?_
    rintro Γ1 ⟨p, gs⟩ ⟨p', gs'⟩ h1 ⟨hp, hg⟩
    cases hp with
    | pending w1 w2 => exact ih _ _ _ hg
    | done w => exact L.pure fun _ _ => ⟨rfl, .none⟩
    | item x ha w =>
      dsimp only
      refine L.bind (hpost x Γ1) fun Γ2 y y' h2 hy => ?_
      cases hy
      refine L.bind (ih _ _ _ (frames_mono h2 hg)) ?_
      rintro Γ3 ⟨xs, fin⟩ ⟨xs', fin'⟩ h3 ⟨hxs, hfin⟩
      cases hxs
      refine L.pure fun Γ4 h4 => ⟨rfl, ?_⟩
      cases hfin with
      | none => exact .none
      | some hh => exact .some (frames_mono h4 hh)

theorem Laws.strip (L : Laws S) (p : Prefixed) (x : Except Err KeyValueData) (Γ : Names) :
    S _ (Prog.strip p x) (Prog.strip p x) Γ EqR := by
  cases x with
  | error e => exact L.eq
  | ok x =>
    unfold Prog.strip
    dsimp only
    split
    · exact L.eq
    · exact L.throw

end

variable {s0 : St} {esc : Bool}

theorem sim_subTraverse {Γ : Names} (p : Prefixed) (b : TraverseConfigBuilder) (rs : List Bool) :
    Sim s0 esc (Prog.subTraverse p b rs) (Prog.subTraverse p b rs) Γ EqR := by
  unfold Prog.subTraverse
  cases b.build with
  | error e => exact Sim.throw
  | ok conf =>
    dsimp only
    refine Sim.bind (sim_traverse _) fun Γ1 fs fs' h1 hf =>
      Sim.bind (simLaws.driveMap (simLaws.strip p) rs fs fs' Γ1 hf) ?_
    rintro Γ2 ⟨xs, fin⟩ ⟨xs', fin'⟩ h2 ⟨hxs, hfin⟩
    cases hxs
    cases hfin with
    | none => exact Sim.eq
    | some hh => exact Sim.eq

theorem sim_execVia {Γ : Names} {x : Option Prefixed × Cmd} (hx : x.2.looks = true) :
    Sim s0 esc (Prog.execVia x) (Prog.execVia x) Γ EqR := by
  obtain ⟨o, c⟩ := x
  cases o with
  | none => exact sim_exec hx
  | some p =>
    cases c with
    | version => exact sim_exec (c := .version) rfl
    | get k => exact sim_exec (c := .get (p.withKeyPrefix k)) rfl
    | traverse b rs => exact Sim.replyOf (sim_subTraverse p b rs)
    | _ => cases hx

/-- Every call, up to its first write. -/
theorem ok_execVia {Γ : Names} (x : Option Prefixed × Cmd) : Ok s0 true (Prog.execVia x) Γ fun _ _ => True := by
  obtain ⟨o, c⟩ := x
  cases o with
  | none => exact ok_exec c
  | some p =>
    cases c with
    | version => exact ok_exec .version
    | createHeader m => exact ok_exec (.createHeader m)
    | reopen => exact ok_exec .reopen
    | get k => exact ok_exec (.get (p.withKeyPrefix k))
    | put k v => exact ok_exec (.put (p.withKeyPrefix k) v)
    | putCas k v cas => exact ok_exec (.putCas (p.withKeyPrefix k) v cas)
    | del k => exact ok_exec (.del (p.withKeyPrefix k))
    | delCas k cas => exact ok_exec (.delCas (p.withKeyPrefix k) cas)
    | traverse b rs => exact (sim_execVia (x := (some p, .traverse b rs)) rfl).ok

theorem RActs.strip_ {P : ∀ α : Type, Prog α → Prop} (h : RActs P) (p : Prefixed) (x : Except Err KeyValueData) :
    P _ (Prog.strip p x) := by
  cases x with
  | error e => exact h.pure _
  | ok x =>
    unfold Prog.strip
    dsimp only
    split
    · exact h.pure _
    · exact h.throw _

theorem readLocks_execVia {x : Option Prefixed × Cmd} (hx : x.2.looks = true) : ReadLocks _ (Prog.execVia x) := by
  obtain ⟨o, c⟩ := x
  cases o with
  | none => exact readLocks_looks hx
  | some p =>
    cases c with
    | version => exact readLocks_looks (c := .version) rfl
    | get k => exact readLocks_looks (c := .get (p.withKeyPrefix k)) rfl
    | traverse b rs =>
      refine ReadLocks.replyOf _ ?_
      unfold Prog.subTraverse
      cases b.build with
      | error e => exact readLocks_acts.throw _
      | ok conf =>
        exact readLocks_acts.bind (readLocks_acts.traverse_ _) fun fs =>
          readLocks_acts.bind (readLocks_acts.drive_ ReadLocks.tryResult (fun _ => (readLocks_acts.readNode _).under _)
            (readLocks_acts.strip_ p) rs fs) fun _ => readLocks_acts.pure _
    | _ => cases hx

/-- A traversal of a sub-database replies alike on handles of one core. -/
theorem subTraverse_same {s1 s2 : St} {d1 d2 : Db} (h1 : Holds s1 d1) (h2 : Holds s2 d2) (hc : s2.core = s1.core)
    (p : Prefixed) (b : TraverseConfigBuilder) (rs : List Bool) :
    (p.exec (.traverse b rs) s1).1 = (p.exec (.traverse b rs) s2).1 ∧
    (p.exec (.traverse b rs) s1).2.core = (p.exec (.traverse b rs) s2).2.core := by
  obtain ⟨L, β, hcl, hrt, hr, hL⟩ := h1.rel h2.sparse hc h2.ok
  have hρ : ∀ q, L.needs q → s2.io.readable q = true := fun q _ => h2.wf.rd q
  have hs : RT s1.core L s2.io.readable β (p.traverseSession b rs) (p.traverseSession b rs) (fun _ x y => x = y) := by
    unfold Prefixed.traverseSession
    split
    · exact RT.throw
    · refine RT.bind (RT.prefixedCollect hρ hcl hrt) ?_
      rintro β3 ⟨xs, fin⟩ ⟨xs', fin'⟩ h3 ⟨he, hfin⟩
      simp only at he hfin
      subst he
      rcases hfin with ⟨rfl, rfl⟩ | ⟨_, _, rfl, rfl, _⟩
      · exact RT.pure rfl
      · exact RT.pure rfl
  exact Same.reply hρ (RT.same hs hr) _

/-- Handles on one core reply alike, through sub-databases too. -/
theorem via_same : ∀ (xs : List (Option Prefixed × Cmd)) {s1 s2 : St} {d : Db}, Holds s1 d → Holds s2 d → s2.core = s1.core →
    (runVia xs s1).1 = (runVia xs s2).1 ∧ (runVia xs s1).2.core = (runVia xs s2).2.core := by
  intro xs
  induction xs with
  | nil => intro s1 s2 d _ _ hc; exact ⟨rfl, hc.symm⟩
  | cons x xs ih =>
    intro s1 s2 d h1 h2 hc
    have hn : (execVia x s1).1 = (execVia x s2).1 ∧ (execVia x s1).2.core = (execVia x s2).2.core := by
      obtain ⟨o, c⟩ := x
      cases o with
      | none => exact calls_same h1 h2 hc c
      | some p =>
        by_cases ht : ∃ b rs, c = .traverse b rs
        · obtain ⟨b, rs, rfl⟩ := ht
          exact subTraverse_same h1 h2 hc p b rs
        · show (p.exec c s1).1 = (p.exec c s2).1 ∧ (p.exec c s1).2.core = (p.exec c s2).2.core
          rw [p.exec_expand c (fun b rs e => ht ⟨b, rs, e⟩), p.exec_expand c (fun b rs e => ht ⟨b, rs, e⟩)]
          exact calls_same h1 h2 hc _
    have e : ∀ s, runVia (x :: xs) s = ((execVia x s).1 :: (runVia xs (execVia x s).2).1, (runVia xs (execVia x s).2).2) :=
      fun _ => rfl
    obtain ⟨i1, i2⟩ := ih (execVia_holds h1 x) (execVia_holds h2 x) hn.2.symm
    rw [e, e]
    exact ⟨congrArg₂ List.cons hn.1 i1, i2⟩

end Hyperbee
