import Verif.Model.DebugMachine
import Verif.Props.DebugAsync
import Verif.Props.Machine
/-!
# Machine integers in the `debug` feature

Property C89 for `height` and `print`.
-/

namespace Hyperbee

section

variable {μ : Machine} {B : Nat} (hμ : μ.Has B)
include hμ

theorem Mirror.heightLoop : ∀ (fuel out : Nat) (a : Addr), out + fuel ≤ B →
    Mirror B (fun _ => True) (Prog.heightLoop fuel out a) (μ.heightLoop fuel out a) := by
  intro fuel
  induction fuel with
  | zero => intro out a _; exact .throw _
  | succ fuel ih =>
    intro out a h
    unfold Prog.heightLoop Machine.heightLoop
    have := hμ.two
    refine Mirror.add hμ (by omega) ?_
    refine Mirror.bind (Mirror.refl _) fun n _ => ?_
    by_cases hn : n.children.length = 0
    · simp only [hn, if_true]
      exact Mirror.refl _
    · simp only [hn, if_false]
      exact Mirror.bind (Mirror.getChild hμ a 0) fun c _ => ih _ c (by omega)

theorem Mirror.nodeHeight (a : Addr) : Mirror B (fun _ => True) (Prog.nodeHeight a) (μ.nodeHeight a) := by
  unfold Prog.nodeHeight Machine.nodeHeight
  refine Mirror.bind (Mirror.refl _) fun leaf _ => ?_
  cases leaf with
  | true => exact Mirror.refl _
  | false =>
    refine Mirror.bind (Mirror.getChild hμ a 0) fun c _ => ?_
    exact Mirror.bind Mirror.descentFuel fun fuel hf => Mirror.heightLoop hμ fuel 1 c (by omega)

theorem Mirror.height : Mirror B (fun _ => True) Prog.height μ.height := by
  unfold Prog.height Machine.height
  refine Mirror.bind (Mirror.getRoot hμ false) fun r _ => ?_
  cases r with
  | none => exact Mirror.refl _
  | some root => exact Mirror.nodeHeight hμ root

theorem Mirror.printLoop (H : Nat) : ∀ (sched : List Bool) (fs : List Frame) (out : Bytes), (∀ f ∈ fs, f.Fits B) →
    Mirror B (fun _ => True) (Prog.printLoop H sched fs out) (μ.printLoop H sched fs out) := by
  intro sched
  induction sched with
  | nil => intro fs out _; exact Mirror.refl _
  | cons r rs ih =>
    intro fs out hf
    unfold Prog.printLoop Machine.printLoop
    refine Mirror.bind (Mirror.poll hμ r fs hf) ?_
    rintro ⟨p, fs'⟩ hf'
    cases p with
    | ready o woken =>
      cases o with
      | none => exact Mirror.ret trivial
      | some item =>
        obtain ⟨kd, node⟩ := item
        refine Mirror.bind (Mirror.nodeHeight hμ node) fun h _ => ?_
        by_cases hh : H < h
        · simp only [hh, if_true]
          exact .throw _
        · simp only [hh, if_false]
          cases kd with
          | error e => exact .throw _
          | ok kv =>
            by_cases hu : utf8Valid kv.key = true
            · simp only [hu, if_true]
              exact ih fs' _ hf'
            · simp only [hu]
              exact .throw _
    | pending woken waiting => exact ih fs' out hf'

theorem Mirror.print (sched : List Bool) : Mirror B (fun _ => True) (Prog.print sched) (μ.print sched) := by
  unfold Prog.print Machine.print
  refine Mirror.bind (Mirror.getRoot hμ false) fun r _ => ?_
  cases r with
  | none => exact .throw _
  | some root =>
    show Mirror B _ (Prog.printNode sched root) (μ.printNode sched root)
    unfold Prog.printNode Machine.printNode
    refine Mirror.bind (Mirror.nodeHeight hμ root) fun h _ => ?_
    refine Mirror.printLoop hμ h sched _ _ ?_
    intro g hg
    rw [List.mem_singleton] at hg
    subst hg
    intro p hp
    cases hp

end

theorem Mirror.run {B : Nat} {Q : α → Prop} {p q : Prog α} (h : Mirror B Q p q) : ∀ {s : St}, p.Fits B s →
    (∀ m ∈ offsetPanics, (p.run s).1 ≠ .error (.panic m)) → q.run s = p.run s := by
  induction h with
  | pure _ => intro s _ _; rfl
  | throw e => intro s _ _; rfl
  | panic m q hm => intro s _ hn; exact absurd rfl (hn m hm)
  | step x k k' _ ih =>
    intro s hf hn
    exact ih _ hf.1 hf.2 hn

theorem run_saidOf (f : α → Said) (p : Prog α) (s : St) : (Prog.said f p).run s = (.ok (saidOf f (p.run s).1), (p.run s).2) := by
  induction p generalizing s with
  | pure a => rfl
  | throw e => rfl
  | step x k ih => exact ih _ _

/-- C89, `height` and `print`.  On a reachable state they do what they would do with numbers without end, in builds with and
without overflow checks: same result, same blocks, same memory. -/
theorem machine_debug {μ : Machine} (hw : 4 ≤ μ.width) {s : St} (hs : Reachable s) {c : Ask}
    (hc : c = .height ∨ ∃ sched, c = .print sched) (hf : (Prog.ask c).Fits μ.room s) :
    (μ.ask c).run s = (.ok (ask c s).1, (ask c s).2) := by
  have fits : ∀ {α : Type} (f : α → Said) (p : Prog α) (s : St), (Prog.said f p).Fits μ.room s → p.Fits μ.room s := by
    intro α f p
    induction p with
    | pure a => intro s _; trivial
    | throw e => intro s _; trivial
    | step x k ih => intro s h; exact ⟨h.1, ih _ _ h.2⟩
  rcases hc with rfl | ⟨sched, rfl⟩
  · have he : Prog.height.run s = height s := congrFun does_height s
    have h := (Mirror.height (Machine.has hw)).run (fits _ _ s hf) fun m _ hm => by
      obtain ⟨n, s', h2, _⟩ := height_levels hs
      rw [he, h2] at hm; cases hm
    show (Prog.said .height μ.height).run s = _
    rw [run_saidOf, h, he]; rfl
  · have he : (Prog.print sched).run s = print sched s := congrFun (does_print sched) s
    have h := (Mirror.print (Machine.has hw) sched).run (fits _ _ s hf) fun m _ hm => by
      rw [he] at hm
      rcases Nat.lt_or_ge 1 s.core.length with hl | hl
      · obtain ⟨t, _, h2⟩ := print_outline hs hl
        obtain ⟨r, s', h3, _, _, h4⟩ := h2 sched
        rw [h3] at hm
        rcases h4 with rfl | rfl
        · cases hm
        · dsimp only at hm
          split at hm <;> cases hm
      · rw [print_no_root hl sched] at hm; cases hm
    show (Prog.said .text (μ.print sched)).run s = _
    rw [run_saidOf, h, he]; rfl

/-- A print of nine keys fits a 32 bit target. -/
example : (Prog.ask (.print (List.replicate 45 true))).Fits (pc32 true).room (runSt (ascending.take 9) St.init) ∧
    (Prog.ask .height).Fits (pc32 true).room (runSt (ascending.take 9) St.init) := by
  decide +kernel

/-- Room is needed: with one bit, the height of a tree with two levels overflows.  Checked builds panic, others find
zero. -/
theorem machine_debug_tight :
    let s := runSt (ascending.take 9) St.init
    saidOf id (((Machine.mk 1 true).ask .height).run s).1 = .error (.panic "attempt to add with overflow") ∧
    saidOf id (((Machine.mk 1 false).ask .height).run s).1 = .height 0 ∧ (ask .height s).1 = .height 2 := by
  decide +kernel

end Hyperbee
