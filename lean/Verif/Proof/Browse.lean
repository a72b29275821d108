import Verif.Proof.DuetRun
/-!
# Looking at the tree among readers

While nobody changes a node of the tree, whichever copy of a node a program meets, it is a copy of
the same node; so it does not matter which one is in the cache.
-/

namespace Hyperbee

/-- The node is a copy of the one the reference refers to: the one the writer works on, or one loaded
from the core. -/
def Copy (base : Nat) (Γ Λ : Names) (sB : St) (a : Nat) (r : Child) : Prop :=
  (∃ i, Γ a = some i ∧ addrOf sB r = some i) ∨ (Γ a = none ∧ Λ a = some (nm base r))

/-- A set of references to nodes that are there, closed under children. -/
def Tame (C : List Bytes) (R : Child → Prop) : Prop :=
  ∀ r, R r → ∃ n, nodeAt C r = some n ∧ (∀ c ∈ n.children, R c) ∧ ∀ q ∈ n.keys, ∃ b, blockAt C q = some b

/-- The names `N` are of copies of nodes in `R`. -/
structure Valid (base : Nat) (Γ : Names) (R : Child → Prop) (C : List Bytes) (N Λ : Names) (sB : St) : Prop where
  core : sB.core = C
  coh : Coh sB R
  name : ∀ a i, N a = some i → ∃ r, R r ∧ Copy base Γ Λ sB a r ∧ addrOf sB r = some i

/-- Two handles on which the tree is looked at. -/
def Browse (base : Nat) (Γ : Names) (R : Child → Prop) (C : List Bytes) (N Λ : Names) (sA sB : St) : Prop :=
  Duo base false Γ Λ sA sB ∧ Valid base Γ R C N Λ sB

variable {base : Nat} {Γ N Λ : Names} {R : Child → Prop} {C : List Bytes} {sA sB sB' : St}

theorem Copy.mono {Λ' : Names} {a : Nat} {r : Child} (h : Copy base Γ Λ sB a r) (hl : Λ.le Λ') : Copy base Γ Λ' sB a r :=
  h.imp_right fun h => ⟨h.1, hl _ _ h.2⟩

theorem Copy.ext {a : Nat} {r : Child} (h : Copy base Γ Λ sB a r) (he : Ext sB sB') : Copy base Γ Λ sB' a r :=
  h.imp_left fun ⟨i, h1, h2⟩ => ⟨i, h1, he.addr h2⟩

theorem Copy.unique (hw : SWF sB) {a : Nat} {r r' : Child} (h : Copy base Γ Λ sB a r) (h' : Copy base Γ Λ sB a r') :
    r = r' := by
  rcases h with ⟨i, h1, h2⟩ | ⟨h1, h2⟩ <;> rcases h' with ⟨i', h1', h2'⟩ | ⟨h1', h2'⟩
  · rw [h1] at h1'; cases h1'; exact hw.inj _ _ _ h2 h2'
  · rw [h1] at h1'; cases h1'
  · rw [h1] at h1'; cases h1'
  · rw [h2] at h2'; exact nm_inj (Option.some.inj h2')

theorem Valid.mono {Λ' : Names} (h : Valid base Γ R C N Λ sB) (hl : Λ.le Λ') : Valid base Γ R C N Λ' sB :=
  ⟨h.core, h.coh, fun a i hi => by
    obtain ⟨r, h1, h2, h3⟩ := h.name a i hi
    exact ⟨r, h1, h2.mono hl, h3⟩⟩

open Classical in
/-- Names for all copies of nodes in `R` that the handle on which the call runs alone has in memory. -/
noncomputable def allNames (base : Nat) (Γ : Names) (R : Child → Prop) (Λ : Names) (sB : St) : Names := fun a =>
  if h : ∃ i r, R r ∧ Copy base Γ Λ sB a r ∧ addrOf sB r = some i then some h.choose else none

theorem allNames_of (hw : SWF sB) {a i : Nat} {r : Child} (hr : R r) (hc : Copy base Γ Λ sB a r) (hi : addrOf sB r = some i) :
    allNames base Γ R Λ sB a = some i := by
  have h : ∃ i r, R r ∧ Copy base Γ Λ sB a r ∧ addrOf sB r = some i := ⟨i, r, hr, hc, hi⟩
  unfold allNames
  rw [dif_pos h]
  obtain ⟨r', h1, h2, h3⟩ := h.choose_spec
  have := hc.unique hw h2
  subst this
  rw [hi] at h3
  exact h3.symm

theorem Valid.grow {Λ' : Names} (hw : SWF sB) (h : Valid base Γ R C N Λ sB) (hl : Λ.le Λ') (he : Ext sB sB') :
    N.le (allNames base Γ R Λ' sB') ∧ Valid base Γ R C (allNames base Γ R Λ' sB') Λ' sB' := by
  refine ⟨fun a i hi => ?_, he.core.trans h.core, he.coh hw h.coh, fun a i hi => ?_⟩
  · obtain ⟨r, h1, h2, h3⟩ := h.name a i hi
    exact allNames_of he.wf h1 ((h2.mono hl).ext he) (he.addr h3)
  · unfold allNames at hi
    split at hi
    · rename_i hx
      cases hi
      exact hx.choose_spec
    · cases hi

/-- The handle on which the call runs alone loads a block. -/
theorem Duo.extB (h : Duo base false Γ Λ sA sB) (he : Ext sB sB') : Duo base false Γ Λ sA sB' := by
  refine ⟨h.core.trans he.core.symm, h.io.trans he.io.symm, he.wf, ?_, h.inj, h.lt, h.cop, ?_, h.ent, ?_, fun h => by cases h⟩
  · intro a i hi
    obtain ⟨n, h1, h2⟩ := h.dom a i hi
    exact ⟨n, h1, by rw [he.get_lt (h.named hi).2]; exact h2⟩
  · exact fun a r i h1 h2 => he.addr (h.own a r i h1 h2)
  · exact fun r a ha => (h.adr r a ha).imp_left fun ⟨i, h1, h2⟩ => ⟨i, h1, he.addr h2⟩

/-- The entries agree on the nodes in `R`. -/
structure PartR (R : Child → Prop) (q : Nat) (N : Names) (e e' : BlockEntry) : Prop where
  key : e.key = e'.key
  value : e.value = e'.value
  node : ∀ j, R ⟨q, j⟩ → Option.Rel (fun a i => N a = some i) e.nodes[j]? e'.nodes[j]?

theorem browse_blocksGet {q : Nat} {b : Blk} (hb : blockAt C q = some b) :
    Twin (Browse base Γ R C) (Prog.blocksGet q) (Prog.blocksGet q) N (PartR R q) := by
  intro sB Λ
  rw [show (Prog.blocksGet q).run = Hyperbee.blocksGet q from does_blocksGet q]
  intro Λ1 s1 hl1 ⟨hd1, hv1⟩
  have hbB : blockAt sB.core q = some b := by rw [hv1.core]; exact hb
  obtain ⟨e', sB', g1, g2, g3, g4, g5, g6⟩ := blocksGet_run hd1.wf hbB
  rw [g1]
  have hB : ∀ j i, e'.nodes[j]? = some i → addrOf sB' ⟨q, j⟩ = some i := fun j i h => by simp [addrOf, g3, h]
  rw [show (Atom.cacheGet q).run s1 = (.ok (s1.cache q), s1) from rfl]
  cases hc : s1.cache q with
  | some e =>
    obtain ⟨m1, m2⟩ := hv1.grow hd1.wf (.refl Λ1) g2
    have hd2 := hd1.extB g2
    refine ⟨sB', _, Λ1, m1, .refl Λ1, ⟨hd2, m2⟩, rfl, ?_⟩
    obtain ⟨b', h1, h2, h3, h4⟩ := hd1.ent q e hc
    rw [hd1.core, hbB] at h1
    cases h1
    refine ⟨h2.trans g4.symm, h3.trans g5.symm, fun j hj => ?_⟩
    cases hn : e.nodes[j]? with
    | none =>
      have : e'.nodes[j]? = none := by
        rw [List.getElem?_eq_none_iff] at hn ⊢
        omega
      rw [this]
      exact .none
    | some a =>
      have hlt : j < e'.nodes.length := by
        have := (List.getElem?_eq_some_iff.mp hn).1
        omega
      rw [List.getElem?_eq_getElem hlt]
      refine .some (allNames_of g2.wf hj (hd2.adr _ _ (by simp [addrOf, hc, hn])) (hB j _ (List.getElem?_eq_getElem hlt)))
  | none =>
    refine ⟨sB, N, Λ1, .refl N, .refl Λ1, ⟨hd1, hv1⟩, ?_⟩
    intro Λ2 s2 hl2 ⟨hd2, hv2⟩
    rw [show (Atom.coreFetch q).run s2 = getFromCore q s2 from rfl]
    have hr2 : s2.io.readable q = true := by rw [hd2.io]; exact hd2.wf.rd q
    have hbA : blockAt s2.core q = some b := by rw [hd2.core]; exact hbB
    rw [getFromCore_run hr2 hbA]
    obtain ⟨hle, hd3⟩ := hd2.load hbA
    obtain ⟨m1, m2⟩ := hv2.grow hd2.wf hle g2
    refine ⟨sB', _, _, m1, hle, ⟨hd3.extB g2, m2⟩, ?_⟩
    intro Λ4 s4 hl4 ⟨hd4, hv4⟩
    have her : ERel Λ4 ⟨List.range' s2.heap.length b.nodes.length, b.key, b.value⟩
        ⟨(List.range b.nodes.length).map fun j => base + Nat.pair q j, b.key, b.value⟩ :=
      ERel.mono hl4 ⟨rfl, rfl, forall2_load _ _ _ _⟩
    have hd5 := hd4.file (by rw [hd4.core, g2.core]; exact hbB) her (fun h => by cases h)
    refine ⟨sB', _, Λ4, .refl _, .refl Λ4, ⟨hd5, hv4⟩, rfl, g4.symm, g5.symm, fun j hj => ?_⟩
    show Option.Rel _ (List.range' s2.heap.length b.nodes.length)[j]? _
    by_cases hlt : j < b.nodes.length
    · rw [List.getElem?_eq_getElem (by simpa using hlt), List.getElem?_eq_getElem (by rw [g6]; exact hlt)]
      refine .some (allNames_of g2.wf hj (.inr ⟨?_, ?_⟩) (hB j _ (List.getElem?_eq_getElem _)))
      · simp only [List.getElem_range', Nat.one_mul]
        cases hg : Γ (s2.heap.length + j) with
        | none => rfl
        | some i => have := (hd2.named hg).1; omega
      · simp only [List.getElem_range', Nat.one_mul, Names.load, nm]
        rw [if_pos (by omega)]
        simp
    · rw [List.getElem?_eq_none (by simpa using hlt), List.getElem?_eq_none (by rw [g6]; omega)]
      exact .none

theorem browse_version : Twin (Browse base Γ R C) Prog.version Prog.version N (fun _ v v' => v = v' ∧ v = C.length) := by
  refine twin_lift fun Λ sA sB hd => ⟨N, .refl N, hd, ?_⟩
  show sA.core.length = sB.core.length ∧ sA.core.length = C.length
  rw [hd.1.core, hd.2.core]
  exact ⟨rfl, rfl⟩

theorem browse_descentFuel : Twin (Browse base Γ R C) Prog.descentFuel Prog.descentFuel N EqR := by
  refine twin_lift fun Λ sA sB hd => ⟨N, .refl N, hd, ?_⟩
  show stepBound sA.core = stepBound sB.core
  rw [hd.1.core]

/-- A node of the tree is the same on both handles, and what it refers to is there. -/
theorem browse_readNode' (ht : Tame C R) {a i : Nat} (h : N a = some i) :
    Twin (Browse base Γ R C) (Prog.readNode a) (Prog.readNode i) N (fun _ n n' => n = n' ∧ (∀ c ∈ n.children, R c) ∧
      ∀ q ∈ n.keys, ∃ b, blockAt C q = some b) := by
  refine twin_lift fun Λ sA sB hd => ⟨N, .refl N, ?_⟩
  obtain ⟨r, h1, h2, h3⟩ := hd.2.name a i h
  obtain ⟨n, n1, n2, n3⟩ := ht r h1
  have hB : sB.heap[i]? = some n := by rw [hd.2.coh r h1 i h3, hd.2.core]; exact n1
  have hA : sA.heap[a]? = some n := by
    rcases h2 with ⟨i', h4, h5⟩ | ⟨h4, h5⟩
    · rw [h3] at h5
      cases h5
      obtain ⟨n', h6, h7⟩ := hd.1.dom a i h4
      rw [hB] at h7
      cases h7
      exact h6
    · rw [hd.1.cop a r h5 h4, hd.1.core, hd.2.core]
      exact n1
  rw [show (Atom.readNode a).run sA = (.ok n, sA) from readNode_some hA,
    show (Atom.readNode i).run sB = (.ok n, sB) from readNode_some hB]
  exact ⟨hd, rfl, n2, n3⟩

theorem Twin.conseq {K : Names → Names → St → St → Prop} {p p' : Prog α} {Γ : Names} {R R' : Names → α → α → Prop}
    (h : Twin K p p' Γ R) (hr : ∀ Γ' a i, R Γ' a i → R' Γ' a i) : Twin K p p' Γ R' := by
  intro sB Λ
  refine Duet.imp (h sB Λ) fun sB' Γ' r _ hq => ⟨hq.1, ?_⟩
  have h2 := hq.2
  revert h2
  generalize (p'.run sB).1 = r'
  cases r <;> cases r' <;> intro h2
  · exact h2
  · exact h2.elim
  · exact h2.elim
  · exact hr _ _ _ h2

theorem browse_getChild (ht : Tame C R) {a i : Nat} (h : N a = some i) (j : Nat) :
    Twin (Browse base Γ R C) (Prog.getChild a j) (Prog.getChild i j) N NameR := by
  unfold Prog.getChild
  refine Twin.bind (browse_readNode' ht h) fun Γ1 n n' h1 hn => ?_
  obtain ⟨rfl, hn, -⟩ := hn
  refine Twin.under _ _ _ ?_
  cases hj : n.children[j]? with
  | none => exact Twin.throw
  | some c =>
    have hc := hn c (List.mem_of_getElem? hj)
    obtain ⟨m, hm, _⟩ := ht c hc
    obtain ⟨b, hb, _⟩ := nodeAt_block hm
    refine Twin.bind (R := fun _ x x' => x = c ∧ x' = c) (Twin.pure ⟨rfl, rfl⟩) fun Γ2 x x' h2 hx => ?_
    rw [hx.1, hx.2]
    refine Twin.bind (browse_blocksGet hb) fun Γ3 e e' h3 he => ?_
    have := he.node c.offset hc
    unfold Prog.getTreeNode
    revert this
    cases e.nodes[c.offset]? with
    | none =>
      cases e'.nodes[c.offset]? with
      | none => exact fun _ => Twin.throw
      | some _ => exact fun h => nomatch h
    | some x =>
      cases e'.nodes[c.offset]? with
      | none => exact fun h => nomatch h
      | some y => exact fun h => by cases h with | some h => exact Twin.pure h

theorem browse_getKeyValue (ht : Tame C R) {a i : Nat} (h : N a = some i) (j : Nat) :
    Twin (Browse base Γ R C) (Prog.getKeyValue a j) (Prog.getKeyValue i j) N EqR := by
  unfold Prog.getKeyValue
  refine Twin.bind (browse_readNode' ht h) fun Γ1 n n' h1 hn => ?_
  obtain ⟨rfl, -, hn⟩ := hn
  refine Twin.under _ _ _ ?_
  cases hj : n.keys[j]? with
  | none => exact Twin.throw
  | some q =>
    obtain ⟨b, hb⟩ := hn q (List.mem_of_getElem? hj)
    refine Twin.bind (R := fun _ x x' => x = q ∧ x' = q) (Twin.pure ⟨rfl, rfl⟩) fun Γ2 _ _ h2 hx => ?_
    obtain ⟨rfl, rfl⟩ := hx
    refine Twin.bind (browse_blocksGet hb) fun Γ3 e e' h3 he => ?_
    refine Twin.bind (browse_blocksGet hb) fun Γ4 f f' h4 hf => ?_
    exact Twin.pure (by simp [EqR, he.key, hf.value])

theorem browseLaws (ht : Tame C R) : Laws fun _ p p' N T => Twin (Browse base Γ R C) p p' N T where
  pure h := Twin.pure (h _ (.refl _))
  throw := Twin.throw
  bind := Twin.bind
  under a i m h := h.under a i m
  tryResult := Twin.tryResult
  readNode h := (browse_readNode' ht h).conseq fun _ _ _ h => h.1
  getChild h j := browse_getChild ht h j
  getKeyValue h j := browse_getKeyValue ht h j

theorem browse_nearestNode (ht : Tame C R) {a i : Nat} (h : N a = some i) (k : LimitValue) :
    Twin (Browse base Γ R C) (Prog.nearestNode a k) (Prog.nearestNode i k) N FoundR := by
  unfold Prog.nearestNode
  refine Twin.bind browse_descentFuel fun Γ1 f f' h1 hf => ?_
  cases hf
  exact (browseLaws ht).nearestLoop k _ _ _ _ _ _ (h1 _ _ h) .nil

/-- The root of a core with a tree. -/
theorem browse_root (ht : Tame C R) (h2 : 2 ≤ C.length) (hr : R ⟨C.length - 1, 0⟩) (b : Bool) :
    Twin (Browse base Γ R C) (Prog.getRoot b) (Prog.getRoot b) N RootR := by
  unfold Prog.getRoot
  refine Twin.bind browse_version fun Γ1 v v' h1 hv => ?_
  obtain ⟨rfl, rfl⟩ := hv
  rw [if_neg (by omega)]
  obtain ⟨m, hm, _⟩ := ht _ hr
  obtain ⟨bl, hb, _⟩ := nodeAt_block hm
  refine Twin.bind (browse_blocksGet hb) fun Γ2 e e' h2 he => ?_
  refine Twin.bind (R := NameR) ?_ fun Γ3 a i h3 ha => Twin.pure (.some ha)
  have := he.node 0 hr
  unfold Prog.getTreeNode
  revert this
  cases e.nodes[0]? with
  | none =>
    cases e'.nodes[0]? with
    | none => exact fun _ => Twin.throw
    | some _ => exact fun h => nomatch h
  | some x =>
    cases e'.nodes[0]? with
    | none => exact fun h => nomatch h
    | some y => exact fun h => by cases h with | some h => exact Twin.pure h

/-- The root, for readers. -/
theorem browse_getRoot (ht : Tame C R) (hr : 2 ≤ C.length → R ⟨C.length - 1, 0⟩) :
    Twin (Browse base Γ R C) (Prog.getRoot false) (Prog.getRoot false) N RootR := by
  by_cases h2 : 2 ≤ C.length
  · exact browse_root ht h2 (hr h2) false
  · unfold Prog.getRoot
    refine Twin.bind browse_version fun Γ1 v v' h1 hv => ?_
    obtain ⟨rfl, rfl⟩ := hv
    rw [if_pos (by omega), if_neg (by simp)]
    exact Twin.pure .none

end Hyperbee
