import Verif.Model.DebugAsync
import Verif.Model.Trouble
import Verif.Proof.Debug
import Verif.Proof.Readers
import Verif.Proof.FlakyStream
/-!
# The `debug` functions as futures
-/

namespace Hyperbee

/-! ## Run to their end -/

theorem does_heightLoop : ∀ fuel out a, Does (Prog.heightLoop fuel out a) (heightLoop fuel out a) := by
  intro fuel
  induction fuel with
  | zero => intro _ _; exact Does.throw _
  | succ n ih =>
    intro out a
    unfold Prog.heightLoop heightLoop
    does [ih _ _, does_getChild _ _]

theorem does_nodeHeight (a : Nat) : Does (Prog.nodeHeight a) (nodeHeight a) := by
  unfold Prog.nodeHeight nodeHeight
  does [does_isLeaf _, does_getChild _ _, does_heightLoop _ _ _]

theorem does_height : Does Prog.height height := by
  unfold Prog.height height
  does [does_getRoot _, does_nodeHeight _]

theorem does_printLoop (h : Nat) : ∀ rs fs out, Does (Prog.printLoop h rs fs out) (printLoop h rs fs out) := by
  intro rs
  induction rs with
  | nil => intro _ _; rfl
  | cons r rs ih =>
    intro fs out
    unfold Prog.printLoop printLoop
    refine Does.bind (does_poll r fs) ?_
    rintro ⟨p, fs'⟩
    cases p with
    | pending w1 w2 => exact ih _ _
    | ready item w =>
      cases item with
      | none => rfl
      | some it =>
        obtain ⟨x, a⟩ := it
        refine Does.bind (does_nodeHeight a) fun n => ?_
        split
        · exact Does.throw _
        · cases x with
          | error e => exact Does.throw _
          | ok kv =>
            dsimp only
            split
            · exact ih _ _
            · exact Does.throw _

theorem does_print (rs : List Bool) : Does (Prog.print rs) (print rs) := by
  unfold Prog.print print Prog.printNode printNode
  does [does_getRoot _, does_nodeHeight _, does_printLoop _ _ _ _]

theorem run_said {p : Prog α} {m : M α} (h : Does p m) (f : α → Said) (s : St) :
    (Prog.said f p).run s = (.ok (saidOf f (m s).1), (m s).2) := by
  rw [← show p.run s = m s from congrFun h s]
  clear h m
  revert s
  induction p with
  | pure a => intro s; rfl
  | throw e => intro s; rfl
  | step x k ih => intro s; exact ih _ _

theorem run_ask (c : Ask) (hc : c ≠ .call .reopen) (s : St) : (Prog.ask c).run s = (.ok (ask c s).1, (ask c s).2) := by
  cases c with
  | call c =>
    have h := run_exec c (fun h => hc (by rw [h])) s
    have h2 := run_said (p := Prog.exec c) rfl Said.reply s
    rw [h] at h2
    exact h2
  | height => exact run_said does_height _ s
  | print rs => exact run_said (does_print rs) _ s

/-! ## Among readers -/

section
variable {s0 : St} {esc : Bool}

theorem sim_heightLoop : ∀ fuel out (Γ : Names) a i, Γ a = some i →
    Sim s0 esc (Prog.heightLoop fuel out a) (Prog.heightLoop fuel out i) Γ EqR := by
  intro fuel
  induction fuel with
  | zero => intro _ _ _ _ _; exact Sim.throw
  | succ n ih =>
    intro out Γ a i h
    unfold Prog.heightLoop
    refine Sim.bind (sim_readNode h) fun Γ1 n n' h1 hn => ?_
    cases hn
    split
    · exact Sim.eq
    · exact Sim.bind (sim_getChild (h1 _ _ h) 0) fun Γ2 b j h2 hb => ih _ _ _ _ hb

theorem sim_nodeHeight {Γ : Names} {a i : Nat} (h : Γ a = some i) :
    Sim s0 esc (Prog.nodeHeight a) (Prog.nodeHeight i) Γ EqR := by
  unfold Prog.nodeHeight
  refine Sim.bind (simLaws.isLeaf h) fun Γ1 l l' h1 hl => ?_
  cases hl
  split
  · exact Sim.eq
  · refine Sim.bind (sim_getChild (h1 _ _ h) 0) fun Γ2 b j h2 hb => ?_
    refine Sim.bind sim_descentFuel fun Γ3 n n' h3 hn => ?_
    cases hn
    exact sim_heightLoop _ _ _ _ _ (h3 _ _ hb)

theorem sim_height {Γ : Names} : Sim s0 esc Prog.height Prog.height Γ EqR := by
  unfold Prog.height
  refine Sim.bind sim_getRoot fun Γ1 r r' h1 hr => ?_
  cases hr with
  | none => exact Sim.eq
  | some ha => exact sim_nodeHeight ha

theorem sim_printLoop (H : Nat) : ∀ (rs : List Bool) (fs fs' : List Frame) (out : Bytes) (Γ : Names),
    List.Forall₂ (FrameR Γ) fs fs' → Sim s0 esc (Prog.printLoop H rs fs out) (Prog.printLoop H rs fs' out) Γ EqR := by
  intro rs
  induction rs with
  | nil => intro _ _ _ _ _; exact Sim.eq
  | cons r rs ih =>
    intro fs fs' out Γ h
    unfold Prog.printLoop
    refine Sim.bind (simLaws.poll r fs fs' Γ h) ?_
    rintro Γ1 ⟨p, gs⟩ ⟨p', gs'⟩ h1 ⟨hp, hg⟩
    cases hp with
    | pending w1 w2 => exact ih _ _ _ _ hg
    | done w => exact Sim.eq
    | item x ha w =>
      dsimp only
      refine Sim.bind (sim_nodeHeight ha) fun Γ2 n n' h2 hn => ?_
      cases hn
      split
      · exact Sim.throw
      · cases x with
        | error e => exact Sim.throw
        | ok kv =>
          dsimp only
          split
          · exact ih _ _ _ _ (frames_mono h2 hg)
          · exact Sim.throw

theorem sim_print {Γ : Names} (rs : List Bool) : Sim s0 esc (Prog.print rs) (Prog.print rs) Γ EqR := by
  unfold Prog.print Prog.printNode
  refine Sim.bind sim_getRoot fun Γ1 r r' h1 hr => ?_
  cases hr with
  | none => exact Sim.throw
  | some ha =>
    dsimp only
    refine Sim.bind (sim_nodeHeight ha) fun Γ2 n n' h2 hn => ?_
    cases hn
    exact sim_printLoop _ _ _ _ _ _ (.cons (frame_new (h2 _ _ ha) _) .nil)

theorem Sim.said {p p' : Prog α} {Γ : Names} {f : α → Said} (h : Sim s0 esc p p' Γ EqR) :
    Sim s0 esc (Prog.said f p) (Prog.said f p') Γ EqR := by
  unfold Sim at *
  have he : ideal s0 (Prog.said f p') = match ideal s0 p' with
      | .ok a => .ok (f a)
      | .error e => .ok (.error e) := by
    clear h
    induction p' with
    | pure a => rfl
    | throw e => rfl
    | step x k ih => exact ih _
  rw [he]
  generalize ideal s0 p' = r' at h
  clear he
  induction p generalizing Γ with
  | pure a =>
    intro Γ' hl
    have := h Γ' hl
    cases r' with
    | ok i => exact congrArg f this
    | error e => exact this.elim
  | throw e =>
    intro Γ' hl
    have := h Γ' hl
    cases r' with
    | ok i => exact this.elim
    | error e' => exact congrArg Said.error this
  | step x k ih =>
    rcases h with h | h
    · exact .inl h
    · refine .inr fun Γ' s hl hi => ?_
      obtain ⟨Γ'', h1, h2, h3⟩ := h Γ' s hl hi
      exact ⟨Γ'', h1, h2, ih _ h3⟩

theorem sim_ask {Γ : Names} {c : Ask} (hc : c.looks = true) : Sim s0 esc (Prog.ask c) (Prog.ask c) Γ EqR := by
  cases c with
  | call c => exact Sim.said (sim_exec hc)
  | height => exact Sim.said sim_height
  | print rs => exact Sim.said (sim_print rs)

end

/-! ## When reads fail -/

theorem RActs.heightLoop_ {P : ∀ α : Type, Prog α → Prop} (h : RActs P) : ∀ fuel out a, P _ (Prog.heightLoop fuel out a) := by
  intro fuel
  induction fuel with
  | zero => intro _ _; exact h.throw _
  | succ n ih => intro out a; unfold Prog.heightLoop; pacts h [ih _ _, h.getChild_ _ _]

theorem RActs.nodeHeight_ {P : ∀ α : Type, Prog α → Prop} (h : RActs P) (a : Nat) : P _ (Prog.nodeHeight a) := by
  unfold Prog.nodeHeight; pacts h [h.isLeaf_ _, h.getChild_ _ _, h.heightLoop_ _ _ _]

theorem RActs.height_ {P : ∀ α : Type, Prog α → Prop} (h : RActs P) : P _ Prog.height := by
  unfold Prog.height; pacts h [h.getRoot_, h.nodeHeight_ _]

/-- Whatever the program returns, whatever its steps do. -/
def OnlyGives (Q : α → Prop) : Prog α → Prop
  | .pure a => Q a
  | .throw _ => True
  | .step _ k => ∀ r, OnlyGives Q (k r)

theorem OnlyGives.bind {R : α → Prop} {Q : β → Prop} {p : Prog α} {f : α → Prog β} (h : OnlyGives R p)
    (hf : ∀ a, R a → OnlyGives Q (f a)) : OnlyGives Q (p >>= f) := by
  show OnlyGives Q (Prog.bind p f)
  induction p with
  | pure a => exact hf a h
  | throw e => trivial
  | step x k ih => exact fun r => ih r (h r)

theorem onlyGives_true (p : Prog α) : OnlyGives (fun _ => True) p := by
  induction p with
  | pure a => trivial
  | throw e => trivial
  | step x k ih => exact fun r => ih r

theorem OnlyGives.flakes {Q : α → Prop} {p : Prog α} (h : OnlyGives Q p) {s t : St} {a : α} (hf : Flakes p s (.ok a) t) : Q a := by
  generalize hr : (Except.ok a : Except Err α) = r at hf
  induction hf with
  | pure => cases hr; exact h
  | throw => cases hr
  | step _ ih => exact ih (h _) hr
  | fault _ _ ih => exact ih (h _) hr

/-- An item comes with the node of one of the frames. -/
def AtFrame (fs : List Frame) (x : PollR × List Frame) : Prop :=
  ∀ y a w, x.1 = .ready (some (y, a)) w → ∃ f ∈ fs, a = f.root

theorem onlyGives_pollSetup (ready : Bool) (f : Frame) : OnlyGives (AtFrame [f]) (Prog.pollSetup ready f) := by
  have pend : ∀ w1 w2 fs, AtFrame [f] (PollR.pending w1 w2, fs) := fun _ _ _ _ _ _ h => by cases h
  unfold Prog.pollSetup
  split
  · split
    · exact pend _ _ _
    · split
      · exact pend _ _ _
      · exact (onlyGives_true _).bind fun n _ => (onlyGives_true _).bind fun m _ => pend _ _ _
  · split
    · split
      · exact pend _ _ _
      · trivial
      · split
        · exact pend _ _ _
        · refine (onlyGives_true _).bind fun r _ => ?_
          cases r with
          | ok it => exact pend _ _ _
          | error e => intro y a w h; cases h; exact ⟨f, by simp, rfl⟩
    · intro y a w h; cases h
    · split <;> exact pend _ _ _

theorem onlyGives_poll (ready : Bool) : ∀ fs, OnlyGives (AtFrame fs) (Prog.poll ready fs) := by
  intro fs
  induction fs with
  | nil => trivial
  | cons f rest ih =>
    have pend : ∀ w1 w2 gs, AtFrame (f :: rest) (PollR.pending w1 w2, gs) := fun _ _ _ _ _ _ h => by cases h
    have here : ∀ x w gs, AtFrame (f :: rest) (PollR.ready (some (x, f.root)) w, gs) := fun _ _ _ _ _ _ h => by
      cases h; exact ⟨f, by simp, rfl⟩
    unfold Prog.poll
    split
    · split
      · trivial
      · split
        · exact pend _ _ _
        · refine (onlyGives_true _).bind fun r _ => ?_
          cases r with
          | ok kv =>
            dsimp only
            split
            · intro y a w h; cases h
            · exact here _ _ _
          | error e => exact here _ _ _
    · split
      · split
        · exact pend _ _ _
        · refine (onlyGives_true _).bind fun r _ => ?_
          cases r with
          | ok kv => exact pend _ _ _
          | error e => exact here _ _ _
      · cases rest with
        | nil => exact onlyGives_pollSetup ready f
        | cons c cs =>
          refine ih.bind ?_
          rintro ⟨p, gs⟩ hp
          cases p with
          | pending w1 w2 => exact pend _ _ _
          | ready item w =>
            cases item with
            | none => exact pend _ _ _
            | some it =>
              intro y a w' h
              cases h
              obtain ⟨g, h1, h2⟩ := hp _ _ _ rfl
              exact ⟨g, List.mem_cons_of_mem _ h1, h2⟩

/-- The nodes of a stream's frames are nodes of the tree. -/
theorem Strm.roots {s : St} {conf : TraverseConfig} {fs : List Frame} {n : T} {out : List Nat} {fuel : Nat}
    (h : Strm s conf fs n out fuel) : ∀ f ∈ fs, ∃ d m h', Under d m n ∧ addrOf s m.ref = some f.root ∧ Vw s h' m := by
  induction h with
  | setup v a => intro g hg; rw [List.mem_singleton.mp hg]; exact ⟨_, _, _, .top, a, v⟩
  | iter v a => intro g hg; rw [List.mem_singleton.mp hg]; exact ⟨_, _, _, .top, a, v⟩
  | key v a => intro g hg; rw [List.mem_singleton.mp hg]; exact ⟨_, _, _, .top, a, v⟩
  | child v a => intro g hg; rw [List.mem_singleton.mp hg]; exact ⟨_, _, _, .top, a, v⟩
  | sub v a _ _ _ _ _ ht _ _ ih =>
    intro g hg
    rcases List.mem_cons.mp hg with rfl | hg
    · exact ⟨_, _, _, .top, a, v⟩
    · obtain ⟨d, m, h', h1, h2⟩ := ih g hg
      exact ⟨_, m, h', .kid ht h1, h2⟩

/-- The error of a read that failed, as `print` returns it. -/
def PrintErr (e : Err) : Prop := Skipped e ∨ Broken e

theorem printLoop_flakes {c : List Bytes} {H : Nat} {n : T} (hsh : Shape H n) (hH : H < stepBound c) :
    ∀ (sched : List Bool) (s : St) (fs : List Frame) (out : List Nat) (acc : Bytes) (fuel : Nat), s.core = c →
    Strm s .default fs n out fuel → SWF s → ∀ r t, Flakes (Prog.printLoop (H + 1) sched fs acc) s r t →
    (r, t) = printLoop (H + 1) sched fs acc s ∨ ∃ e, PrintErr e ∧ r = .error e ∧ Ext s t := by
  intro sched
  induction sched with
  | nil => intro s fs out acc fuel _ _ _ r t hfl; cases hfl; exact .inl rfl
  | cons b bs ih =>
    intro s fs out acc fuel hcore h hw r t hfl
    obtain ⟨p, fs', s1, h1, e1, hp⟩ := poll_run default_sound h hw b
    have hrun : (Prog.poll b fs).run s = (.ok (p, fs'), s1) := by rw [← h1]; exact congrFun (does_poll b fs) s
    have hcore1 : s1.core = c := by rw [e1.core, hcore]
    unfold Prog.printLoop at hfl
    unfold printLoop
    rw [bind_ok h1]
    rcases hfl.bind with ⟨⟨p', gs⟩, u, h2, h3⟩ | ⟨e, h2, rfl⟩
    · rcases poll_flakes default_sound h hw b h2 with hs | ⟨eu, x, a, gs', hx, hx'⟩
      · rw [hrun] at hs
        simp only [Prod.mk.injEq, Except.ok.injEq] at hs
        obtain ⟨⟨rfl, rfl⟩, rfl⟩ := hs
        cases p' with
        | pending woken waiting =>
          obtain ⟨_, hp⟩ := hp
          have key : ∃ fuel', Strm u .default gs n out fuel' := by
            cases waiting with
            | true =>
              rw [if_pos rfl] at hp
              obtain ⟨rfl, rfl, rfl⟩ := hp
              exact ⟨fuel, h⟩
            | false =>
              rw [if_neg (by simp)] at hp
              obtain ⟨f', _, hst⟩ := hp
              exact ⟨f', hst⟩
          obtain ⟨f', hst⟩ := key
          rcases ih u gs out acc f' hcore1 hst e1.wf r t h3 with h4 | ⟨e, h4, h5, h6⟩
          · exact .inl h4
          · exact .inr ⟨e, h4, h5, e1.trans h6⟩
        | ready item woken =>
          cases item with
          | none => cases h3; exact .inl rfl
          | some it =>
            obtain ⟨x, a⟩ := it
            obtain ⟨q, out', f', rfl, ho, hlt, hst, d, m, h', hu, hq, hma, hvm⟩ := hp
            obtain ⟨H', hH', hs'⟩ := hu.shape hsh
            obtain ⟨s2, h4, e2⟩ := nodeHeight_run e1.wf hvm.rep hvm.coh hs' hma (by rw [hcore1]; omega)
            dsimp only at h3 ⊢
            rw [bind_ok h4, if_neg (by omega)]
            have hfr := (frail_acts.nodeHeight_ a u _ s2 e1.wf (by rw [← h4]; exact congrFun (does_nodeHeight a) u)).2
            rcases h3.bind with ⟨hn, u2, h5, h6⟩ | ⟨e, h5, rfl⟩
            · rcases hfr _ _ h5 with ⟨hn', rfl⟩ | ⟨e, _, he, _⟩
              · cases hn'
                rw [if_neg (by omega)] at h6
                split at h6
                · rename_i hv
                  rw [if_pos hv]
                  rcases ih u2 gs out' _ f' (by rw [e2.core, hcore1]) (hst.ext e1.wf e2) e2.wf r t h6 with h7 | ⟨e, h7, h8, h9⟩
                  · exact .inl h7
                  · exact .inr ⟨e, h7, h8, (e1.trans e2).trans h9⟩
                · rename_i hv
                  rw [if_neg hv]
                  cases h6
                  exact .inl rfl
              · cases he
            · rcases hfr _ _ h5 with ⟨hn', _⟩ | ⟨e', he', he, e3⟩
              · cases hn'
              · cases he
                exact .inr ⟨e, .inl (.inl he'), rfl, e1.trans e3⟩
      · obtain ⟨f, hf, rfl⟩ := (onlyGives_poll b fs).flakes h2 (.error x) a false (by
          simp only [Except.ok.injEq, Prod.mk.injEq] at hx; rw [hx.1])
        simp only [Except.ok.injEq, Prod.mk.injEq] at hx
        obtain ⟨rfl, rfl⟩ := hx
        obtain ⟨d, m, h', hu, hma, hvm⟩ := h.roots f hf
        obtain ⟨H', hH', hs'⟩ := hu.shape hsh
        have hvm' := hvm.ext hw eu
        obtain ⟨s2, h4, e2⟩ := nodeHeight_run eu.wf hvm'.rep hvm'.coh hs' (eu.addr hma) (by rw [eu.core, hcore]; omega)
        have hfr := (frail_acts.nodeHeight_ f.root u _ s2 eu.wf (by rw [← h4]; exact congrFun (does_nodeHeight _) u)).2
        have hx2 : PrintErr x := hx'.imp (fun h => h.1) fun h => h.1
        right
        dsimp only at h3
        rcases h3.bind with ⟨hn, u2, h5, h6⟩ | ⟨e, h5, rfl⟩
        · rcases hfr _ _ h5 with ⟨hn', rfl⟩ | ⟨e, _, he, _⟩
          · cases hn'
            rw [if_neg (by omega)] at h6
            cases h6
            exact ⟨x, hx2, rfl, eu.trans e2⟩
          · cases he
        · rcases hfr _ _ h5 with ⟨hn', _⟩ | ⟨e', he', he, e3⟩
          · cases hn'
          · cases he
            exact ⟨e, .inl (.inl he'), rfl, eu.trans e3⟩
    · rcases poll_flakes default_sound h hw b h2 with hs | ⟨_, x, a, gs', hx, _⟩
      · rw [hrun] at hs
        cases congrArg Prod.fst hs
      · cases hx

/-- `Tree::print` on a stored tree, when reads fail. -/
theorem print_flakes {s : St} {H : Nat} {n : T} (ht : TreeAt s.core H n) (hw : SWF s) (hc : Coh s (· ∈ n.refs))
    (sched : List Bool) {r : Except Err (Option Bytes)} {t : St} (hfl : Flakes (Prog.print sched) s r t) :
    (r, t) = print sched s ∨ ∃ e, PrintErr e ∧ r = .error e ∧ Ext s t := by
  obtain ⟨a, s1, h1, e1, ha⟩ := getRoot_run ht hw false
  have hlt : H < stepBound s1.core := by have := ht.height_lt; rw [e1.core]; unfold stepBound; omega
  obtain ⟨s2, h2, e2⟩ := nodeHeight_run e1.wf (by rw [e1.core]; exact ht.rep) (e1.coh hw hc) ht.good.shape ha hlt
  have hst := Strm.setup (s := s2) (conf := .default) (f := Frame.new a .default) (k := 3)
    ((ht.vw hc).ext hw (e1.trans e2)) (e2.addr ha) rfl rfl rfl rfl (.inl ⟨rfl, rfl, rfl, rfl⟩)
  have hcore : s2.core = s.core := by rw [e2.core, e1.core]
  have hroot := (frail_acts.getRoot_ s _ s1 hw (by rw [← h1]; exact congrFun (does_getRoot false) s)).2
  have hhigh := (frail_acts.nodeHeight_ a s1 _ s2 e1.wf (by rw [← h2]; exact congrFun (does_nodeHeight a) s1)).2
  unfold print
  rw [bind_ok h1]
  show _ = printNode sched a s1 ∨ _
  unfold printNode
  rw [bind_ok h2]
  unfold Prog.print at hfl
  rcases hfl.bind with ⟨o, u, h3, h4⟩ | ⟨e, h3, rfl⟩
  · rcases hroot _ _ h3 with ⟨ho, rfl⟩ | ⟨e, _, he, _⟩
    · cases ho
      dsimp only at h4
      unfold Prog.printNode at h4
      rcases h4.bind with ⟨m, u2, h5, h6⟩ | ⟨e, h5, rfl⟩
      · rcases hhigh _ _ h5 with ⟨hm, rfl⟩ | ⟨e, _, he, _⟩
        · cases hm
          rcases printLoop_flakes ht.good.shape (by rw [← e1.core]; exact hlt) sched u2 _ _ [] _ hcore hst e2.wf r t h6 with
            h7 | ⟨e, h7, h8, h9⟩
          · exact .inl h7
          · exact .inr ⟨e, h7, h8, (e1.trans e2).trans h9⟩
        · cases he
      · rcases hhigh _ _ h5 with ⟨hm, _⟩ | ⟨e', he', he, e3⟩
        · cases hm
        · cases he
          exact .inr ⟨e, .inl (.inl he'), rfl, e1.trans e3⟩
    · cases he
  · rcases hroot _ _ h3 with ⟨ho, _⟩ | ⟨e', he', he, e3⟩
    · cases ho
    · cases he
      exact .inr ⟨e, .inl (.inl he'), rfl, e3⟩

end Hyperbee
