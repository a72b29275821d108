import Verif.Proof.Duet
/-!
# Writing programs in step with themselves
-/

namespace Hyperbee

variable {base : Nat} {strict : Bool}

theorem Twin.eq {a : α} {Γ : Names} : Twin (Duo base strict) (Pure.pure a) (Pure.pure a) Γ EqR := Twin.pure rfl

theorem Twin.orPanic {site : String} {o o' : Option α} {Γ : Names} {R : Names → α → α → Prop}
    (h : Option.Rel (R Γ) o o') : Twin (Duo base strict) (Prog.orPanic site o) (Prog.orPanic site o') Γ R := by
  cases h with
  | none => exact Twin.throw
  | some h => exact Twin.pure h

theorem Twin.orPanic_eq {site : String} {o : Option α} {Γ : Names} :
    Twin (Duo base strict) (Prog.orPanic site o) (Prog.orPanic site o) Γ EqR := by
  cases o
  · exact Twin.throw
  · exact Twin.eq

/-- The same changes, up to the names of the nodes. -/
structure ChangesR (Γ : Names) (ch ch' : Changes) : Prop where
  seq : ch.seq = ch'.seq
  key : ch.key = ch'.key
  value : ch.value = ch'.value
  nodes : List.Forall₂ (fun a i => Γ a = some i) ch.nodes ch'.nodes

theorem ChangesR.mono {Γ Γ' : Names} (h : Γ.le Γ') {ch ch' : Changes} (hc : ChangesR Γ ch ch') : ChangesR Γ' ch ch' :=
  ⟨hc.seq, hc.key, hc.value, hc.nodes.imp fun a i => h a i⟩

theorem ChangesR.new (Γ : Names) (q : Nat) (k : Bytes) (v : Option Bytes) :
    ChangesR Γ (Changes.new q k v) (Changes.new q k v) := ⟨rfl, rfl, rfl, .nil⟩

theorem ChangesR.add {Γ : Names} {ch ch' : Changes} (hc : ChangesR Γ ch ch') {a i : Nat} (h : Γ a = some i) :
    ChangesR Γ (ch.addNode a).1 (ch'.addNode i).1 ∧ (ch.addNode a).2 = (ch'.addNode i).2 := by
  refine ⟨⟨hc.seq, hc.key, hc.value, ?_⟩, ?_⟩
  · exact List.rel_append hc.nodes (.cons h .nil)
  · simp [Changes.addNode, hc.seq, hc.nodes.length_eq]

theorem twin_propagate : ∀ (p p' : NodePath) (Γ : Names) (ch ch' : Changes) (c : Child), PathR Γ p p' →
    ChangesR Γ ch ch' → Twin (Duo base strict) (Prog.propagate ch p c) (Prog.propagate ch' p' c) Γ ChangesR := by
  intro p
  induction p with
  | nil =>
    intro p' Γ ch ch' c hp hc
    cases hp
    exact Twin.pure hc
  | cons x p ih =>
    intro p' Γ ch ch' c hp hc
    cases hp with
    | cons hx hp =>
    rename_i x' p'
    obtain ⟨a, j⟩ := x
    obtain ⟨i, j'⟩ := x'
    obtain ⟨hx, rfl⟩ := hx
    unfold Prog.propagate
    refine Twin.bind (twin_edit hx _ _) fun Γ1 _ _ h1 _ => ?_
    obtain ⟨g1, g2⟩ := (hc.mono h1).add (h1 _ _ hx)
    dsimp only
    rw [g2]
    exact ih _ _ _ _ _ (PathR.mono h1 hp) g1

/-- The two halves and the key between them. -/
def SplitR (Γ : Names) (x x' : Nat × Nat × Nat) : Prop :=
  Γ x.1 = some x'.1 ∧ x.2.1 = x'.2.1 ∧ Γ x.2.2 = some x'.2.2

theorem twin_split {Γ : Names} {a i : Nat} (h : Γ a = some i) :
    Twin (Duo base strict) (Prog.split a) (Prog.split i) Γ SplitR := by
  unfold Prog.split
  refine Twin.bind (twin_edit h _ _) fun Γ1 x x' h1 hx => ?_
  cases hx
  obtain ⟨l, m, r⟩ := x
  dsimp only
  refine Twin.bind (twin_alloc l) fun Γ2 al al' h2 hl => ?_
  refine Twin.bind (twin_alloc r) fun Γ3 ar ar' h3 hr => ?_
  exact Twin.pure ⟨h3 _ _ hl, rfl, hr⟩

theorem twin_putLoop (m : Bool) : ∀ (p p' : NodePath) (Γ : Names) (ch ch' : Changes) (k : Nat) (cs : List Child),
    PathR Γ p p' → ChangesR Γ ch ch' →
    Twin (Duo base strict) (Prog.putLoop m p ch k cs) (Prog.putLoop m p' ch' k cs) Γ ChangesR := by
  intro p
  induction p with
  | nil =>
    intro p' Γ ch ch' k cs hp hc
    cases hp
    unfold Prog.putLoop
    refine Twin.bind (twin_alloc _) fun Γ1 a i h1 ha => ?_
    exact Twin.pure ((hc.mono h1).add ha).1
  | cons x p ih =>
    intro p' Γ ch ch' k cs hp hc
    cases hp with
    | cons hx hp =>
    rename_i x' p'
    obtain ⟨a, j⟩ := x
    obtain ⟨i, j'⟩ := x'
    obtain ⟨hx, rfl⟩ := hx
    unfold Prog.putLoop
    refine Twin.bind (twin_readNode hx) fun Γ1 n n' h1 hn => ?_
    cases hn
    dsimp only
    split
    · refine Twin.bind (twin_edit (h1 _ _ hx) _ _) fun Γ2 _ _ h2 _ => ?_
      obtain ⟨g1, g2⟩ := (hc.mono (h1.trans h2)).add (h2 _ _ (h1 _ _ hx))
      have hp2 := PathR.mono (h1.trans h2) hp
      have hemp : p.isEmpty = p'.isEmpty := by cases hp <;> rfl
      rw [hemp]
      split
      · exact Twin.pure g1
      · rw [g2]
        exact twin_propagate _ _ _ _ _ _ hp2 g1
    · refine Twin.bind (twin_edit (h1 _ _ hx) _ _) fun Γ2 _ _ h2 _ => ?_
      refine Twin.bind (twin_split (h2 _ _ (h1 _ _ hx))) fun Γ3 y y' h3 hy => ?_
      obtain ⟨l, mk, r⟩ := y
      obtain ⟨l', mk', r'⟩ := y'
      obtain ⟨hl, hm, hr⟩ := hy
      dsimp only at hl hm hr ⊢
      subst hm
      obtain ⟨g1, g2⟩ := (hc.mono ((h1.trans h2).trans h3)).add hl
      obtain ⟨g3, g4⟩ := g1.add hr
      rw [g2, g4]
      exact ih _ _ _ _ _ _ (PathR.mono ((h1.trans h2).trans h3) hp) g3

theorem twin_takeChildren {Γ : Names} {a i : Nat} (h : Γ a = some i) (q : Nat) :
    Twin (Duo base strict) (Prog.takeChildrenWithSeq a q) (Prog.takeChildrenWithSeq i q) Γ PathR := by
  unfold Prog.takeChildrenWithSeq
  refine Twin.bind (twin_readNode h) fun Γ1 n n' h1 hn => ?_
  cases hn
  refine Twin.pure ?_
  unfold PathR
  rw [List.forall₂_map_left_iff, List.forall₂_map_right_iff, List.forall₂_same]
  exact fun _ _ => ⟨h1 _ _ h, rfl⟩

/-- The same nodes. -/
def NodesR (Γ : Names) (l l' : List Nat) : Prop := List.Forall₂ (fun a i => Γ a = some i) l l'

theorem NodesR.mono {Γ Γ' : Names} (h : Γ.le Γ') {l l' : List Nat} (hl : NodesR Γ l l') : NodesR Γ' l l' :=
  List.Forall₂.imp (fun a i => h a i) hl

theorem twin_reorderLoop (q : Nat) (ns ns' : List Nat) : ∀ (fuel : Nat) (st st' : List (Nat × Nat)) (out out' : List Nat)
    (Γ : Names), NodesR Γ ns ns' → PathR Γ st st' → NodesR Γ out out' →
    Twin (Duo base strict) (Prog.reorderLoop q ns fuel st out) (Prog.reorderLoop q ns' fuel st' out') Γ NodesR := by
  intro fuel
  induction fuel with
  | zero =>
    intro st st' out out' Γ hn hs ho
    cases hs with
    | nil => exact Twin.pure ho
    | cons _ _ => exact Twin.throw
  | succ f ih =>
    intro st st' out out' Γ hn hs ho
    cases hs with
    | nil => exact Twin.pure ho
    | cons hx hs =>
    rename_i x x' st st'
    obtain ⟨a, j⟩ := x
    obtain ⟨i, j'⟩ := x'
    obtain ⟨hx, rfl⟩ := hx
    unfold Prog.reorderLoop
    refine Twin.bind (twin_readNode hx) fun Γ1 n n' h1 hnn => ?_
    cases hnn
    refine Twin.bind Twin.orPanic_eq fun Γ2 c c' h2 hc => ?_
    cases hc
    dsimp only
    rw [show out.length = out'.length from ho.length_eq]
    have h12 := h1.trans h2
    refine Twin.bind (twin_edit (h12 _ _ hx) _ _) fun Γ3 _ _ h3 _ => ?_
    have h13 := h12.trans h3
    refine Twin.bind (Twin.orPanic (R := NameR) (forall2_rel (hn.mono h13) _)) fun Γ4 d d' h4 hd => ?_
    refine Twin.bind (twin_takeChildren hd q) fun Γ5 more more' h5 hm => ?_
    have h15 := (h13.trans h4).trans h5
    exact ih _ _ _ _ _ (hn.mono h15) (List.rel_append hm (PathR.mono h15 hs))
      (List.rel_append (ho.mono h15) (.cons (h5 _ _ hd) .nil))

theorem forall2_getLast {α β : Type} {R : α → β → Prop} {l : List α} {l' : List β} (h : List.Forall₂ R l l') :
    Option.Rel R l.getLast? l'.getLast? := by
  rw [List.getLast?_eq_getElem?, List.getLast?_eq_getElem?, h.length_eq]
  exact forall2_rel h _

theorem twin_reorderNodes {Γ : Names} (q : Nat) {ns ns' : List Nat} (h : NodesR Γ ns ns') :
    Twin (Duo base strict) (Prog.reorderNodes q ns) (Prog.reorderNodes q ns') Γ NodesR := by
  unfold Prog.reorderNodes
  refine Twin.bind (Twin.orPanic (R := NameR) (forall2_getLast h)) fun Γ1 r r' h1 hr => ?_
  refine Twin.bind (twin_takeChildren hr q) fun Γ2 st st' h2 hs => ?_
  rw [show ns.length = ns'.length from h.length_eq]
  exact twin_reorderLoop q ns ns' _ _ _ _ _ _ (h.mono (h1.trans h2)) hs (.cons (h2 _ _ hr) .nil)

theorem twin_readNodes : ∀ (l l' : List Nat) (Γ : Names), NodesR Γ l l' →
    Twin (Duo base strict) (Prog.readNodes l) (Prog.readNodes l') Γ EqR := by
  intro l
  induction l with
  | nil => intro l' Γ h; cases h; exact Twin.eq
  | cons a l ih =>
    intro l' Γ h
    cases h with
    | cons ha h =>
    unfold Prog.readNodes
    refine Twin.bind (twin_readNode ha) fun Γ1 n n' h1 hn => ?_
    cases hn
    refine Twin.bind (ih _ _ (NodesR.mono h1 h)) fun Γ2 ns ns' h2 hns => ?_
    cases hns
    exact Twin.eq

theorem twin_addChanges {Γ : Names} {ch ch' : Changes} (h : ChangesR Γ ch ch') :
    Twin (Duo base strict) (Prog.addChanges ch) (Prog.addChanges ch') Γ EqR := by
  unfold Prog.addChanges
  rw [h.seq, h.key, h.value]
  refine Twin.bind (twin_reorderNodes _ h.nodes) fun Γ1 r r' h1 hr => ?_
  refine Twin.bind (twin_readNodes _ _ _ hr) fun Γ2 ns ns' h2 hns => ?_
  cases hns
  exact twin_append _

/-- The same preparations. -/
def PreparedR (Γ : Names) : Prepared α → Prepared α → Prop
  | .done a, .done i => a = i
  | .commit ch a, .commit ch' i => ChangesR Γ ch ch' ∧ a = i
  | _, _ => False

theorem twin_commit {Γ : Names} {p p' : Prepared α} (h : PreparedR Γ p p') :
    Twin (Duo base strict) (Prog.commitPrepared p) (Prog.commitPrepared p') Γ EqR := by
  cases p with
  | done a =>
    cases p' with
    | done i => cases h; exact Twin.eq
    | commit ch i => exact h.elim
  | commit ch a =>
    cases p' with
    | done i => exact h.elim
    | commit ch' i =>
      obtain ⟨h, rfl⟩ := h
      unfold Prog.commitPrepared
      exact Twin.bind (twin_addChanges h) fun Γ1 _ _ h1 _ => Twin.eq

theorem twin_catchExists {p p' : Prog Nat} {Γ : Names} (h : Twin (Duo base strict) p p' Γ EqR) :
    Twin (Duo base strict) (Prog.catchExists p) (Prog.catchExists p') Γ EqR := by
  intro sB Λ
  have h1 := h sB Λ
  have hrun : ∀ (p : Prog Nat) (s : St), (Prog.catchExists p).run s = ((match (p.run s).1 with
      | .ok _ => .ok true
      | .error .headerAlreadyExists => .ok false
      | .error e => .error e : Except Err Bool), (p.run s).2) := by
    intro p
    induction p with
    | pure a => intro s; rfl
    | throw e => intro s; cases e <;> rfl
    | step x k ih => intro s; exact ih _ _
  rw [hrun]
  clear h hrun
  generalize (p'.run sB).1 = r' at h1 ⊢
  generalize (p'.run sB).2 = s' at h1 ⊢
  induction p generalizing sB Γ Λ with
  | pure a =>
    obtain ⟨e1, h2⟩ := h1
    cases r' with
    | ok i => exact ⟨e1, rfl⟩
    | error e => exact h2.elim
  | throw e =>
    obtain ⟨e1, h2⟩ := h1
    cases r' with
    | ok i => exact h2.elim
    | error e' =>
      have h2 : e = e' := h2
      subst h2
      cases e <;> exact ⟨e1, rfl⟩
  | step x k ih =>
    intro Λ' sA hl hd
    obtain ⟨sB', Γ', Λ'', g1, g2, g3, g4⟩ := h1 Λ' sA hl hd
    exact ⟨sB', Γ', Λ'', g1, g2, g3, ih _ _ _ g4⟩

theorem twin_createHeader {Γ : Names} (m : Option Metadata) :
    Twin (Duo base strict) (Prog.createHeader m) (Prog.createHeader m) Γ EqR := by
  unfold Prog.createHeader
  refine Twin.bind twin_version fun Γ1 v v' h1 hv => ?_
  cases hv
  split
  · exact Twin.throw
  · exact twin_append _

theorem twin_replyOf {K : Names → Names → St → St → Prop} {p p' : Prog α} {Γ : Names} {f : α → Reply} (h : Twin K p p' Γ EqR) :
    Twin K (Prog.replyOf f p) (Prog.replyOf f p') Γ EqR := by
  intro sB Λ
  have h1 := h sB Λ
  rw [show (Prog.replyOf f p').run sB = ((match (p'.run sB).1 with
      | .ok a => .ok (f a)
      | .error e => .ok (.error e) : Except Err Reply), (p'.run sB).2) by
    clear h h1
    induction p' generalizing sB with
    | pure a => rfl
    | throw e => rfl
    | step x k ih => exact ih _ _]
  clear h
  generalize (p'.run sB).1 = r' at h1 ⊢
  generalize (p'.run sB).2 = s' at h1 ⊢
  induction p generalizing sB Γ Λ with
  | pure a =>
    obtain ⟨e1, h2⟩ := h1
    cases r' with
    | ok i => exact ⟨e1, congrArg f h2⟩
    | error e => exact h2.elim
  | throw e =>
    obtain ⟨e1, h2⟩ := h1
    cases r' with
    | ok i => exact h2.elim
    | error e' => exact ⟨e1, congrArg Reply.error h2⟩
  | step x k ih =>
    intro Λ' sA hl hd
    obtain ⟨sB', Γ', Λ'', g1, g2, g3, g4⟩ := h1 Λ' sA hl hd
    exact ⟨sB', Γ', Λ'', g1, g2, g3, ih _ _ _ g4⟩

end Hyperbee
