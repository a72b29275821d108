import Verif.Proof.Laws
/-!
# Every reading program, with other readers in between
-/

namespace Hyperbee

variable {s0 : St} {esc : Bool}

theorem forall2_rel {α β : Type} {R : α → β → Prop} {l : List α} {l' : List β} (h : List.Forall₂ R l l') (i : Nat) :
    Option.Rel R l[i]? l'[i]? := by
  induction h generalizing i with
  | nil => simpa using Option.Rel.none
  | cons h _ ih =>
    cases i with
    | zero => simpa using Option.Rel.some h
    | succ i => simpa using ih i

theorem sim_getTreeNode {Γ : Names} {e e' : BlockEntry} (h : ERel Γ e e') (o : Nat) :
    Sim s0 esc (Prog.getTreeNode e o) (Prog.getTreeNode e' o) Γ NameR :=
  Sim.orPanic fun _ hl => forall2_rel (h.mono hl).nodes o

theorem sim_getChild {Γ : Names} {a i : Nat} (h : Γ a = some i) (j : Nat) :
    Sim s0 esc (Prog.getChild a j) (Prog.getChild i j) Γ NameR := by
  unfold Prog.getChild
  refine Sim.bind (sim_readNode h) fun Γ1 n n' h1 hn => ?_
  cases hn
  refine Sim.under a i .read (Sim.bind Sim.orPanic_eq fun Γ2 c c' h2 hc => ?_)
  cases hc
  exact Sim.bind (sim_blocksGet _) fun Γ3 e e' h3 he => sim_getTreeNode he _

theorem sim_getKeyValue {Γ : Names} {a i : Nat} (h : Γ a = some i) (j : Nat) :
    Sim s0 esc (Prog.getKeyValue a j) (Prog.getKeyValue i j) Γ EqR := by
  unfold Prog.getKeyValue
  refine Sim.bind (sim_readNode h) fun Γ1 n n' h1 hn => ?_
  cases hn
  refine Sim.under a i .read (Sim.bind Sim.orPanic_eq fun Γ2 q q' h2 hq => ?_)
  cases hq
  refine Sim.bind (sim_blocksGet _) fun Γ3 b1 b1' h3 he1 => ?_
  refine Sim.bind (sim_blocksGet _) fun Γ4 b2 b2' h4 he2 => ?_
  rw [he1.key, he2.value]
  exact Sim.eq

theorem simLaws : Laws fun _ p p' Γ R => Sim s0 esc p p' Γ R where
  pure h := Sim.pure h
  throw := Sim.throw
  bind h hf := Sim.bind h hf
  under a i m h := Sim.under a i m h
  tryResult h := Sim.tryResult h
  readNode h := sim_readNode h
  getChild h := sim_getChild h
  getKeyValue h := sim_getKeyValue h

theorem sim_nearestNode {Γ : Names} {a i : Nat} (h : Γ a = some i) (k : LimitValue) :
    Sim s0 esc (Prog.nearestNode a k) (Prog.nearestNode i k) Γ FoundR := by
  unfold Prog.nearestNode
  refine Sim.bind sim_descentFuel fun Γ1 n n' h1 hn => ?_
  cases hn
  exact simLaws.nearestLoop k _ _ _ _ _ _ (h1 _ _ h) .nil

/-- The same root, if there is one. -/
def RootR (Γ : Names) (o o' : Option Nat) : Prop := Option.Rel (fun a i => Γ a = some i) o o'

theorem sim_getRoot {Γ : Names} : Sim s0 esc (Prog.getRoot false) (Prog.getRoot false) Γ RootR := by
  unfold Prog.getRoot
  refine Sim.bind sim_version fun Γ1 v v' h1 hv => ?_
  cases hv
  split
  · split
    · rename_i h; simp at h
    · exact Sim.pure fun _ _ => Option.Rel.none
  · refine Sim.bind (sim_blocksGet _) fun Γ2 e e' h2 he => ?_
    refine Sim.bind (sim_getTreeNode he _) fun Γ3 a i h3 ha => ?_
    exact Sim.pure fun Γ4 h4 => Option.Rel.some (h4 _ _ ha)

theorem sim_get {Γ : Names} (k : Bytes) : Sim s0 esc (Prog.get k) (Prog.get k) Γ EqR := by
  unfold Prog.get
  refine Sim.bind sim_getRoot fun Γ1 r r' h1 hr => ?_
  cases hr with
  | none => exact Sim.eq
  | some ha =>
    refine Sim.bind (sim_nearestNode ha _) ?_
    rintro Γ2 ⟨m, p⟩ ⟨m', p'⟩ h2 ⟨hm, hp⟩
    cases hm
    cases m with
    | none => exact Sim.eq
    | some q =>
      refine Sim.bind (simLaws.head hp) ?_
      rintro Γ3 ⟨a, j⟩ ⟨i, j'⟩ h3 ⟨ha3, hj⟩
      cases hj
      refine Sim.bind (sim_getKeyValue ha3 _) fun Γ4 kv kv' h4 hkv => ?_
      cases hkv
      exact Sim.eq

theorem sim_traverse {Γ : Names} (conf : TraverseConfig) :
    Sim s0 esc (Prog.traverse conf) (Prog.traverse conf) Γ (fun Γ => List.Forall₂ (FrameR Γ)) := by
  unfold Prog.traverse
  refine Sim.bind sim_getRoot fun Γ1 r r' h1 hr => ?_
  cases hr with
  | none => exact Sim.throw
  | some ha => exact Sim.pure fun Γ2 h2 => .cons (frame_new (h2 _ _ ha) _) .nil

theorem sim_traverseSession {Γ : Names} (b : TraverseConfigBuilder) (rs : List Bool) :
    Sim s0 esc (Prog.traverseSession b rs) (Prog.traverseSession b rs) Γ EqR := by
  unfold Prog.traverseSession
  cases b.build with
  | error e => exact Sim.throw
  | ok conf =>
    dsimp only
    unfold Prog.collect
    refine Sim.bind (Sim.bind (sim_traverse conf) fun Γ1 fs fs' h1 hf => simLaws.drive rs fs fs' Γ1 hf) ?_
    rintro Γ2 ⟨xs, fin⟩ ⟨xs', fin'⟩ h2 ⟨hxs, hfin⟩
    cases hxs
    cases hfin with
    | none => exact Sim.eq
    | some hh => exact Sim.eq

theorem sim_exec {Γ : Names} {c : Cmd} (hc : c.looks = true) :
    Sim s0 esc (Prog.exec c) (Prog.exec c) Γ EqR := by
  cases c with
  | version => exact Sim.replyOf sim_version
  | get k => exact Sim.replyOf (sim_get k)
  | traverse b rs => exact Sim.replyOf (sim_traverseSession b rs)
  | _ => cases hc

end Hyperbee
