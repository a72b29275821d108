import Verif.Proof.DuetOps
/-!
# Deletions, and insertions with their search, in step with themselves
-/

namespace Hyperbee

variable {base : Nat}

theorem twin_getTreeNode {strict : Bool} {Γ : Names} {e e' : BlockEntry} (h : ERel Γ e e') (o : Nat) :
    Twin (Duo base strict) (Prog.getTreeNode e o) (Prog.getTreeNode e' o) Γ NameR :=
  Twin.orPanic (forall2_rel h.nodes o)

theorem twin_getChild {Γ : Names} {a i : Nat} (h : Γ a = some i) (j : Nat) :
    Twin (Duo base true) (Prog.getChild a j) (Prog.getChild i j) Γ NameR := by
  unfold Prog.getChild
  refine Twin.bind (twin_readNode h) fun Γ1 n n' h1 hn => ?_
  cases hn
  refine Twin.under _ _ _ ?_
  refine Twin.bind Twin.orPanic_eq fun Γ2 c c' h2 hc => ?_
  cases hc
  refine Twin.bind (twin_blocksGet _) fun Γ3 e e' h3 he => ?_
  exact twin_getTreeNode he _

theorem twin_getKeyValue {Γ : Names} {a i : Nat} (h : Γ a = some i) (j : Nat) :
    Twin (Duo base true) (Prog.getKeyValue a j) (Prog.getKeyValue i j) Γ EqR := by
  unfold Prog.getKeyValue
  refine Twin.bind (twin_readNode h) fun Γ1 n n' h1 hn => ?_
  cases hn
  refine Twin.under _ _ _ ?_
  refine Twin.bind Twin.orPanic_eq fun Γ2 c c' h2 hc => ?_
  cases hc
  refine Twin.bind (twin_blocksGet _) fun Γ3 e e' h3 he => ?_
  refine Twin.bind (twin_blocksGet _) fun Γ4 f f' h4 hf => ?_
  exact Twin.pure (by simp [EqR, he.key, hf.value])

theorem twinLaws : Laws fun _ p p' Γ R => Twin (Duo base true) p p' Γ R where
  pure h := Twin.pure (h _ (.refl _))
  throw := Twin.throw
  bind := Twin.bind
  under a i m h := h.under a i m
  tryResult := Twin.tryResult
  readNode := twin_readNode
  getChild := twin_getChild
  getKeyValue := twin_getKeyValue

theorem twin_nearestNode {Γ : Names} {a i : Nat} (h : Γ a = some i) (k : LimitValue) :
    Twin (Duo base true) (Prog.nearestNode a k) (Prog.nearestNode i k) Γ FoundR := by
  unfold Prog.nearestNode
  refine Twin.bind twin_descentFuel fun Γ1 f f' h1 hf => ?_
  cases hf
  exact twinLaws.nearestLoop k _ _ _ _ _ _ (h1 _ _ h) .nil

theorem twin_getRoot {Γ : Names} (b : Bool) : Twin (Duo base true) (Prog.getRoot b) (Prog.getRoot b) Γ RootR := by
  unfold Prog.getRoot
  refine Twin.bind twin_version fun Γ1 v v' h1 hv => ?_
  cases hv
  split
  · split
    · exact Twin.bind (twin_catchExists (twin_createHeader none)) fun Γ2 _ _ h2 _ => Twin.pure .none
    · exact Twin.pure .none
  · refine Twin.bind (twin_blocksGet _) fun Γ2 e e' h2 he => ?_
    refine Twin.bind (twin_getTreeNode he 0) fun Γ3 a i h3 ha => ?_
    exact Twin.pure (.some ha)

theorem twin_head {Γ : Names} {site : String} {p p' : NodePath} (h : PathR Γ p p') :
    Twin (Duo base true) (Prog.orPanic site p.head?) (Prog.orPanic site p'.head?) Γ
      (fun Γ x x' => Γ x.1 = some x'.1 ∧ x.2 = x'.2) := twinLaws.head h

/-! ## Deleting -/

theorem twin_replace {Γ : Names} {p p' : NodePath} {a i : Nat} (hp : PathR Γ p p') (ha : Γ a = some i) (k : Nat) :
    Twin (Duo base true) (Prog.replaceRemovedInternalKey p a k) (Prog.replaceRemovedInternalKey p' i k) Γ PathR := by
  unfold Prog.replaceRemovedInternalKey
  dsimp only
  refine Twin.bind (twin_getChild ha _) fun Γ1 l l' h1 hl => ?_
  refine Twin.bind (twin_nearestNode hl _) fun Γ2 x x' h2 hx => ?_
  obtain ⟨m, lp⟩ := x
  obtain ⟨m', lp'⟩ := x'
  obtain ⟨-, hlp⟩ := hx
  dsimp only at hlp ⊢
  refine Twin.bind (twin_head hlp) fun Γ3 y y' h3 hy => ?_
  obtain ⟨ll, _⟩ := y
  obtain ⟨ll', _⟩ := y'
  obtain ⟨hll, -⟩ := hy
  dsimp only at hll ⊢
  refine Twin.bind (twin_readNode hll) fun Γ4 n n' h4 hn => ?_
  cases hn
  have h14 := ((h1.trans h2).trans h3).trans h4
  refine Twin.bind (twin_getChild (h14 _ _ ha) _) fun Γ5 r r' h5 hr => ?_
  refine Twin.bind (twin_nearestNode hr _) fun Γ6 x x' h6 hx => ?_
  obtain ⟨mr, rp⟩ := x
  obtain ⟨mr', rp'⟩ := x'
  obtain ⟨-, hrp⟩ := hx
  dsimp only at hrp ⊢
  refine Twin.bind (twin_head hrp) fun Γ7 y y' h7 hy => ?_
  obtain ⟨rl, _⟩ := y
  obtain ⟨rl', _⟩ := y'
  obtain ⟨hrl, -⟩ := hy
  dsimp only at hrl ⊢
  refine Twin.bind (twin_readNode hrl) fun Γ8 n2 n2' h8 hn => ?_
  cases hn
  have h48 := ((h5.trans h6).trans h7).trans h8
  split
  · refine Twin.bind (twin_edit (h8 _ _ hrl) _ _) fun Γ9 d d' h9 hd => ?_
    cases hd
    have h19 := (h14.trans h48).trans h9
    refine Twin.bind (R := fun Γ x x' => Γ9.le Γ ∧ x = (k + 1, d, rp) ∧ x' = (k + 1, d, rp')) (Twin.pure ⟨.refl _, rfl, rfl⟩) fun Γ9' x x' h9' hx => ?_
    obtain ⟨-, rfl, rfl⟩ := hx
    replace h9 := h9.trans h9'
    replace h19 := h19.trans h9'
    refine Twin.bind (twin_edit (h19 _ _ ha) _ _) fun Γ10 _ _ h10 _ => ?_
    exact Twin.pure (List.rel_append (hrp.mono (((h7.trans h8).trans h9).trans h10))
      (.cons ⟨(h19.trans h10) _ _ ha, rfl⟩ (hp.mono (h19.trans h10))))
  · refine Twin.bind (twin_edit ((h4.trans h48) _ _ hll) _ _) fun Γ9 d d' h9 hd => ?_
    cases hd
    have h19 := (h14.trans h48).trans h9
    refine Twin.bind (R := fun Γ x x' => Γ9.le Γ ∧ x = (k, d, lp) ∧ x' = (k, d, lp')) (Twin.pure ⟨.refl _, rfl, rfl⟩) fun Γ9' x x' h9' hx => ?_
    obtain ⟨-, rfl, rfl⟩ := hx
    replace h9 := h9.trans h9'
    replace h19 := h19.trans h9'
    refine Twin.bind (twin_edit (h19 _ _ ha) _ _) fun Γ10 _ _ h10 _ => ?_
    exact Twin.pure (List.rel_append (hlp.mono (((h3.trans (h4.trans h48)).trans h9).trans h10))
      (.cons ⟨(h19.trans h10) _ _ ha, rfl⟩ (hp.mono (h19.trans h10))))

namespace Twin

theorem getDonorIndex {Γ : Names} {a i : Nat} (h : Γ a = some i) (side : Side) (j : Nat) :
    Twin (Duo base true) (Prog.Side.getDonorIndex side a j) (Prog.Side.getDonorIndex side i j) Γ EqR := by
  cases side with
  | left => exact Twin.eq
  | right =>
    unfold Prog.Side.getDonorIndex
    refine Twin.bind (twin_readNode h) fun Γ1 n n' h1 hn => ?_
    cases hn
    exact Twin.eq

theorem getDonorKey {Γ : Names} {a i : Nat} (h : Γ a = some i) (side : Side) :
    Twin (Duo base true) (Prog.Side.getDonorKey side a) (Prog.Side.getDonorKey side i) Γ EqR := by
  cases side <;> exact twin_edit h _ _

theorem getDonorChild {Γ : Names} {a i : Nat} (h : Γ a = some i) (side : Side) :
    Twin (Duo base true) (Prog.Side.getDonorChild side a) (Prog.Side.getDonorChild side i) Γ EqR := by
  unfold Prog.Side.getDonorChild
  refine Twin.bind (twinLaws.isLeaf h) fun Γ1 b b' h1 hb => ?_
  cases hb
  split
  · exact Twin.eq
  · cases side <;> exact twin_edit (h1 _ _ h) _ _

theorem insertDonations {Γ : Names} {a i : Nat} (h : Γ a = some i) (side : Side) (k : Nat) (c : Option Child) :
    Twin (Duo base true) (Prog.Side.insertDonations side a k c) (Prog.Side.insertDonations side i k c) Γ EqR := by
  unfold Prog.Side.insertDonations
  cases side <;>
  · dsimp only
    refine Twin.bind (twin_edit h _ _) fun Γ1 _ _ h1 _ => ?_
    cases c with
    | none => exact Twin.eq
    | some c => exact twin_edit (h1 _ _ h) _ _

/-- The same donor. -/
def DonorR (Γ : Names) (o o' : Option (Nat × Nat)) : Prop :=
  Option.Rel (fun x x' => x.1 = x'.1 ∧ Γ x.2 = some x'.2) o o'

theorem canRotate {Γ : Names} {a i : Nat} (h : Γ a = some i) (side : Side) (j o : Nat) :
    Twin (Duo base true) (Prog.Side.canRotate side a j o) (Prog.Side.canRotate side i j o) Γ DonorR := by
  unfold Prog.Side.canRotate
  refine Twin.bind (getDonorIndex h side j) fun Γ1 d d' h1 hd => ?_
  cases hd
  cases d with
  | none => exact Twin.pure .none
  | some d =>
    refine Twin.bind (twin_getChild (h1 _ _ h) _) fun Γ2 c c' h2 hc => ?_
    refine Twin.bind (twin_readNode hc) fun Γ3 n n' h3 hn => ?_
    cases hn
    split
    · exact Twin.pure (.some ⟨rfl, h3 _ _ hc⟩)
    · exact Twin.pure .none

theorem rotate {Γ : Names} {f f' c c' d d' : Nat} (hf : Γ f = some f') (hc : Γ c = some c') (hd : Γ d = some d')
    (side : Side) (j dj : Nat) {ch ch' : Changes} (hch : ChangesR Γ ch ch') :
    Twin (Duo base true) (Prog.Side.rotate side f j c dj d ch) (Prog.Side.rotate side f' j c' dj d' ch') Γ ChangesR := by
  unfold Prog.Side.rotate
  refine Twin.bind (getDonorKey hd side) fun Γ1 k k' h1 hk => ?_
  cases hk
  refine Twin.bind (getDonorChild (h1 _ _ hd) side) fun Γ2 o o' h2 ho => ?_
  cases ho
  have h12 := h1.trans h2
  refine Twin.bind (twin_edit (h12 _ _ hf) _ _) fun Γ3 k2 k2' h3 hk => ?_
  cases hk
  have h13 := h12.trans h3
  refine Twin.bind (insertDonations (h13 _ _ hc) side _ _) fun Γ4 _ _ h4 _ => ?_
  have h14 := h13.trans h4
  obtain ⟨g1, g2⟩ := (hch.mono h14).add (h14 _ _ hd)
  dsimp only
  rw [g2]
  refine Twin.bind (twin_edit (h14 _ _ hf) _ _) fun Γ5 _ _ h5 _ => ?_
  have h15 := h14.trans h5
  obtain ⟨g3, g4⟩ := (g1.mono h5).add (h15 _ _ hc)
  rw [g4]
  refine Twin.bind (twin_edit (h15 _ _ hf) _ _) fun Γ6 _ _ h6 _ => ?_
  exact Twin.pure (g3.mono h6)

/-- The same outcome of an attempt. -/
def TriedR (Γ : Names) (o o' : Option Changes) : Prop := Option.Rel (ChangesR Γ) o o'

theorem maybeRotate {Γ : Names} {f f' c c' : Nat} (hf : Γ f = some f') (hc : Γ c = some c') (side : Side) (j o : Nat)
    {ch ch' : Changes} (hch : ChangesR Γ ch ch') :
    Twin (Duo base true) (Prog.Side.maybeRotate side f j c o ch) (Prog.Side.maybeRotate side f' j c' o ch') Γ TriedR := by
  unfold Prog.Side.maybeRotate
  refine Twin.bind (canRotate hf side j o) fun Γ1 x x' h1 hx => ?_
  cases hx with
  | none => exact Twin.pure .none
  | some hx =>
    rename_i y y'
    obtain ⟨dj, d⟩ := y
    obtain ⟨dj', d'⟩ := y'
    obtain ⟨rfl, hd⟩ := hx
    refine Twin.bind (rotate (h1 _ _ hf) (h1 _ _ hc) hd side j _ (hch.mono h1)) fun Γ2 r r' h2 hr => ?_
    exact Twin.pure (.some hr)

theorem maybeMerge {Γ : Names} {f f' c c' : Nat} (hf : Γ f = some f') (hc : Γ c = some c') (side : Side) (j : Nat)
    {ch ch' : Changes} (hch : ChangesR Γ ch ch') :
    Twin (Duo base true) (Prog.Side.maybeMerge side f j c ch) (Prog.Side.maybeMerge side f' j c' ch') Γ TriedR := by
  unfold Prog.Side.maybeMerge
  refine Twin.bind (getDonorIndex hf side j) fun Γ1 x x' h1 hx => ?_
  cases hx
  cases x with
  | none => exact Twin.pure .none
  | some dj =>
    dsimp only
    refine Twin.bind (twin_getChild (h1 _ _ hf) _) fun Γ2 d d' h2 hd => ?_
    have h12 := h1.trans h2
    have hcc := h12 _ _ hc
    cases side with
    | left =>
      dsimp only
      refine Twin.bind (twin_edit (h12 _ _ hf) _ _) fun Γ3 k k' h3 hk => ?_
      cases hk
      have h13 := h12.trans h3
      refine Twin.bind (twin_edit (h13 _ _ hf) _ _) fun Γ4 _ _ h4 _ => ?_
      have h14 := h13.trans h4
      have h24 := h3.trans h4
      refine Twin.bind (twin_readNode (h24 _ _ hd)) fun Γ5 n n' h5 hn => ?_
      cases hn
      have h25 := h24.trans h5
      refine Twin.bind (twin_edit (h25 _ _ hcc) _ _) fun Γ6 ks ks' h6 hks => ?_
      cases hks
      have h26 := h25.trans h6
      refine Twin.bind (twin_edit (h26 _ _ hd) _ _) fun Γ7 _ _ h7 _ => ?_
      have h27 := h26.trans h7
      refine Twin.bind (twin_readNode (h27 _ _ hd)) fun Γ8 n n' h8 hn => ?_
      cases hn
      have h28 := h27.trans h8
      refine Twin.bind (twin_moveChildren (h28 _ _ hd) (h28 _ _ hcc) _) fun Γ9 _ _ h9 _ => ?_
      have h29 := h28.trans h9
      obtain ⟨g1, g2⟩ := (hch.mono (h12.trans h29)).add (h29 _ _ hd)
      rw [g2]
      refine Twin.bind (twin_edit ((h12.trans h29) _ _ hf) _ _) fun Γ10 _ _ h10 _ => ?_
      exact Twin.pure (.some (g1.mono h10))
    | right =>
      dsimp only
      refine Twin.bind (twin_edit (h12 _ _ hf) _ _) fun Γ3 k k' h3 hk => ?_
      cases hk
      have h13 := h12.trans h3
      refine Twin.bind (twin_edit (h13 _ _ hf) _ _) fun Γ4 _ _ h4 _ => ?_
      have h14 := h13.trans h4
      have h24 := h3.trans h4
      refine Twin.bind (twin_readNode (h24 _ _ hcc)) fun Γ5 n n' h5 hn => ?_
      cases hn
      have h25 := h24.trans h5
      refine Twin.bind (twin_edit (h25 _ _ hd) _ _) fun Γ6 ks ks' h6 hks => ?_
      cases hks
      have h26 := h25.trans h6
      refine Twin.bind (twin_edit (h26 _ _ hcc) _ _) fun Γ7 _ _ h7 _ => ?_
      have h27 := h26.trans h7
      refine Twin.bind (twin_readNode (h27 _ _ hcc)) fun Γ8 n n' h8 hn => ?_
      cases hn
      have h28 := h27.trans h8
      refine Twin.bind (twin_moveChildren (h28 _ _ hcc) (h28 _ _ hd) _) fun Γ9 _ _ h9 _ => ?_
      have h29 := h28.trans h9
      obtain ⟨g1, g2⟩ := (hch.mono (h12.trans h29)).add (h29 _ _ hcc)
      rw [g2]
      refine Twin.bind (twin_edit ((h12.trans h29) _ _ hf) _ _) fun Γ10 _ _ h10 _ => ?_
      exact Twin.pure (.some (g1.mono h10))

theorem repairOne {Γ : Names} {f f' c c' : Nat} (hf : Γ f = some f') (hc : Γ c = some c') (j o : Nat)
    {ch ch' : Changes} (hch : ChangesR Γ ch ch') :
    Twin (Duo base true) (Prog.repairOne f j c o ch) (Prog.repairOne f' j c' o ch') Γ ChangesR := by
  unfold Prog.repairOne
  refine Twin.bind (maybeRotate hf hc _ j o hch) fun Γ1 x x' h1 hx => ?_
  cases hx with
  | some hx => exact Twin.pure hx
  | none =>
  refine Twin.bind (maybeRotate (h1 _ _ hf) (h1 _ _ hc) _ j o (hch.mono h1)) fun Γ2 x x' h2 hx => ?_
  cases hx with
  | some hx => exact Twin.pure hx
  | none =>
  have h12 := h1.trans h2
  refine Twin.bind (maybeMerge (h12 _ _ hf) (h12 _ _ hc) _ j (hch.mono h12)) fun Γ3 x x' h3 hx => ?_
  cases hx with
  | some hx => exact Twin.pure hx
  | none =>
  have h13 := h12.trans h3
  refine Twin.bind (maybeMerge (h13 _ _ hf) (h13 _ _ hc) _ j (hch.mono h13)) fun Γ4 x x' h4 hx => ?_
  cases hx with
  | some hx => exact Twin.pure hx
  | none => exact Twin.throw

theorem rootIsEmpty {Γ : Names} {p p' : NodePath} {a i : Nat} (hp : PathR Γ p p') (ha : Γ a = some i) :
    Twin (Duo base true) (Prog.rootIsEmpty p a) (Prog.rootIsEmpty p' i) Γ EqR := by
  unfold Prog.rootIsEmpty
  rw [show p.isEmpty = p'.isEmpty by cases hp <;> rfl]
  split
  · refine Twin.bind (twin_readNode ha) fun Γ1 n n' h1 hn => ?_
    cases hn
    split
    · refine Twin.bind (twin_readNode (h1 _ _ ha)) fun Γ2 n n' h2 hn => ?_
      cases hn
      exact Twin.eq
    · exact Twin.eq
  · exact Twin.eq

/-- The same outcome of a repair. -/
def RepairedR (Γ : Names) (x x' : Child × NodePath × Changes) : Prop :=
  x.1 = x'.1 ∧ PathR Γ x.2.1 x'.2.1 ∧ ChangesR Γ x.2.2 x'.2.2

theorem repairLoop (o : Nat) : ∀ (p p' : NodePath) (f f' j c c' : Nat) (ch ch' : Changes) (Γ : Names), PathR Γ p p' →
    Γ f = some f' → Γ c = some c' → ChangesR Γ ch ch' →
    Twin (Duo base true) (Prog.repairLoop o p f j c ch) (Prog.repairLoop o p' f' j c' ch') Γ RepairedR := by
  intro p
  induction p with
  | nil =>
    intro p' f f' j c c' ch ch' Γ hp hf hc hch
    cases hp
    unfold Prog.repairLoop
    refine Twin.bind (repairOne hf hc j o hch) fun Γ1 ch1 ch1' h1 hch1 => ?_
    refine Twin.bind (rootIsEmpty (.nil : PathR Γ1 [] []) (h1 _ _ hf)) fun Γ2 b b' h2 hb => ?_
    cases hb
    have h12 := h1.trans h2
    split
    · refine Twin.bind (twin_readNode (h12 _ _ hf)) fun Γ3 n n' h3 hn => ?_
      cases hn
      refine Twin.bind Twin.orPanic_eq fun Γ4 k k' h4 hk => ?_
      cases hk
      exact Twin.pure ⟨rfl, .nil, hch1.mono ((h2.trans h3).trans h4)⟩
    · obtain ⟨g1, g2⟩ := (hch1.mono h2).add (h12 _ _ hf)
      dsimp only
      rw [g2]
      exact Twin.pure ⟨rfl, .nil, g1⟩
  | cons x p ih =>
    intro p' f f' j c c' ch ch' Γ hp hf hc hch
    cases hp with
    | cons hx hp =>
    rename_i x' p'
    obtain ⟨a, m⟩ := x
    obtain ⟨i, m'⟩ := x'
    obtain ⟨hx, hm⟩ := hx
    dsimp only at hx hm
    subst hm
    have hpp : ∀ {Γ' : Names}, Γ.le Γ' → PathR Γ' ((a, m) :: p) ((i, m) :: p') := fun hl =>
      .cons ⟨hl _ _ hx, rfl⟩ (PathR.mono hl hp)
    unfold Prog.repairLoop
    refine Twin.bind (repairOne hf hc j o hch) fun Γ1 ch1 ch1' h1 hch1 => ?_
    refine Twin.bind (rootIsEmpty (hpp h1) (h1 _ _ hf)) fun Γ2 b b' h2 hb => ?_
    cases hb
    have h12 := h1.trans h2
    split
    · refine Twin.bind (twin_readNode (h12 _ _ hf)) fun Γ3 n n' h3 hn => ?_
      cases hn
      refine Twin.bind Twin.orPanic_eq fun Γ4 k k' h4 hk => ?_
      cases hk
      exact Twin.pure ⟨rfl, hpp ((h12.trans h3).trans h4), hch1.mono ((h2.trans h3).trans h4)⟩
    · dsimp only
      refine Twin.bind (twin_readNode (h12 _ _ hf)) fun Γ3 n n' h3 hn => ?_
      cases hn
      have h13 := h12.trans h3
      split
      · obtain ⟨g1, g2⟩ := (hch1.mono (h2.trans h3)).add (h13 _ _ hf)
        rw [g2]
        exact Twin.pure ⟨rfl, hpp h13, g1⟩
      · exact ih _ _ _ _ _ _ _ _ _ (PathR.mono h13 hp) (h13 _ _ hx) (h13 _ _ hf) (hch1.mono (h2.trans h3))

theorem repair {Γ : Names} {p p' : NodePath} (hp : PathR Γ p p') (o : Nat) {ch ch' : Changes} (hch : ChangesR Γ ch ch') :
    Twin (Duo base true) (Prog.repair p o ch) (Prog.repair p' o ch') Γ RepairedR := by
  unfold Prog.repair
  cases hp with
  | nil => exact Twin.throw
  | cons hx hp =>
  rename_i x x' p p'
  obtain ⟨a, m⟩ := x
  obtain ⟨i, m'⟩ := x'
  obtain ⟨hx, hm⟩ := hx
  dsimp only at hx hm ⊢
  subst hm
  refine Twin.bind (twin_getChild hx _) fun Γ1 c c' h1 hc => ?_
  exact repairLoop o _ _ _ _ _ _ _ _ _ _ (PathR.mono h1 hp) (h1 _ _ hx) hc (hch.mono h1)

end Twin

/-- What a deletion does once the key is out of its node and the path ends in a leaf (src/del.rs:457-477). -/
def delRest (v : Nat) (k : Bytes) (path : NodePath) : Prog Changes :=
  match path with
  | [] => Prog.throw (.panic "del.rs:457 if/else above ensures path is not empty")
  | (bottomNode, _) :: path => do
    let bn ← Prog.readNode bottomNode
    let (childRef, path, ch) ←
      if path.isEmpty = false ∧ bn.keys.length < minKeys MAX_KEYS then Prog.repair path MAX_KEYS (Changes.new v k none)
      else
        let (ch, c) := (Changes.new v k none).addNode bottomNode
        Pure.pure (c, path, ch)
    if path.isEmpty = false then Prog.propagate ch path childRef else Pure.pure ch

/-- What a deletion does once the key is out of its leaf. -/
theorem twin_delRest {Γ : Names} (v : Nat) (k : Bytes) {p p' : NodePath} (hp : PathR Γ p p') :
    Twin (Duo base true) (delRest v k p) (delRest v k p') Γ ChangesR := by
  unfold delRest
  cases hp with
  | nil => exact Twin.throw
  | cons hy hp4 =>
  rename_i y y' p4 p4'
  obtain ⟨bn, mb⟩ := y
  obtain ⟨bn', mb'⟩ := y'
  obtain ⟨hy, -⟩ := hy
  dsimp only at hy ⊢
  refine Twin.bind (twin_readNode hy) fun Γ5 n n' h5 hn => ?_
  cases hn
  rw [show p4.isEmpty = p4'.isEmpty by cases hp4 <;> rfl]
  have last : ∀ {Γ6 : Names} {c : Child} {p6 p6' : NodePath} {ch6 ch6' : Changes}, PathR Γ6 p6 p6' → ChangesR Γ6 ch6 ch6' →
      Twin (Duo base true) (if p6.isEmpty = false then Prog.propagate ch6 p6 c else Pure.pure ch6)
        (if p6'.isEmpty = false then Prog.propagate ch6' p6' c else Pure.pure ch6') Γ6 ChangesR := by
    intro Γ6 c p6 p6' ch6 ch6' hp6 hch6
    rw [show p6.isEmpty = p6'.isEmpty by cases hp6 <;> rfl]
    split
    · exact twin_propagate _ _ _ _ _ _ hp6 hch6
    · exact Twin.pure hch6
  split
  · refine Twin.bind (Twin.repair (PathR.mono h5 hp4) _ (ChangesR.new _ _ _ _)) fun Γ6 z z' h6 hz => ?_
    obtain ⟨cr, p6, ch6⟩ := z
    obtain ⟨cr', p6', ch6'⟩ := z'
    obtain ⟨hcr, hp6, hch6⟩ := hz
    dsimp only at hcr hp6 hch6 ⊢
    subst hcr
    exact last hp6 hch6
  · obtain ⟨g1, g2⟩ := (ChangesR.new Γ5 v k none).add (h5 _ _ hy)
    rw [g2]
    exact last (PathR.mono h5 hp4) g1

theorem twin_delChanges {Γ : Names} (k : Bytes) {p p' : NodePath} (hp : PathR Γ p p') :
    Twin (Duo base true) (Prog.delChanges k p) (Prog.delChanges k p') Γ ChangesR := by
  unfold Prog.delChanges
  refine Twin.bind twin_version fun Γ1 v v' h1 hv => ?_
  cases hv
  dsimp only
  cases hp with
  | nil => exact Twin.throw
  | cons hx hp =>
  rename_i x x' p p'
  obtain ⟨a, m⟩ := x
  obtain ⟨i, m'⟩ := x'
  obtain ⟨hx, hm⟩ := hx
  dsimp only at hx hm ⊢
  subst hm
  refine Twin.bind (twin_edit (h1 _ _ hx) _ _) fun Γ2 _ _ h2 _ => ?_
  have h12 := h1.trans h2
  refine Twin.bind (twinLaws.isLeaf (h12 _ _ hx)) fun Γ3 l l' h3 hl => ?_
  cases hl
  have h13 := h12.trans h3
  split
  · exact twin_delRest v k (p := (a, m) :: p) (p' := (i, m) :: p') (.cons ⟨h13 _ _ hx, rfl⟩ (PathR.mono h13 hp))
  · exact Twin.bind (twin_replace (PathR.mono h13 hp) (h13 _ _ hx) _) fun Γ4 p4 p4' h4 hp4 => twin_delRest v k hp4

theorem twin_delPrepare {Γ : Names} (k : Bytes) (cas : KeyValueData → Bool) :
    Twin (Duo base true) (Prog.delPrepare k cas) (Prog.delPrepare k cas) Γ PreparedR := by
  unfold Prog.delPrepare
  refine Twin.bind (twin_getRoot false) fun Γ1 r r' h1 hr => ?_
  cases hr with
  | none => exact Twin.pure rfl
  | some hr =>
  refine Twin.bind (twin_nearestNode hr _) fun Γ2 x x' h2 hx => ?_
  obtain ⟨m, p⟩ := x
  obtain ⟨m', p'⟩ := x'
  obtain ⟨hm, hp⟩ := hx
  dsimp only at hm hp ⊢
  subst hm
  cases m with
  | none => exact Twin.pure rfl
  | some q =>
  dsimp only
  refine Twin.bind (twin_head hp) fun Γ3 y y' h3 hy => ?_
  obtain ⟨a, j⟩ := y
  obtain ⟨i, j'⟩ := y'
  obtain ⟨hy, hj⟩ := hy
  dsimp only at hy hj ⊢
  subst hj
  refine Twin.bind (twin_getKeyValue hy _) fun Γ4 kv kv' h4 hkv => ?_
  cases hkv
  split
  · exact Twin.pure rfl
  · refine Twin.bind (twin_delChanges k (hp.mono (h3.trans h4))) fun Γ5 ch ch' h5 hch => ?_
    exact Twin.pure ⟨hch, rfl⟩

theorem twin_delCas {Γ : Names} (k : Bytes) (cas : KeyValueData → Bool) :
    Twin (Duo base true) (Prog.delCompareAndSwap k cas) (Prog.delCompareAndSwap k cas) Γ EqR := by
  unfold Prog.delCompareAndSwap
  exact Twin.bind (twin_delPrepare k cas) fun Γ1 p p' h1 hp => twin_commit hp

theorem twin_del {Γ : Names} (k : Bytes) : Twin (Duo base true) (Prog.del k) (Prog.del k) Γ EqR := by
  unfold Prog.del
  refine Twin.bind (twin_delCas k _) fun Γ1 r r' h1 hr => ?_
  cases hr
  cases r with
  | none => exact Twin.eq
  | some x =>
    obtain ⟨d, q⟩ := x
    dsimp only
    split
    · exact Twin.eq
    · exact Twin.throw

end Hyperbee
