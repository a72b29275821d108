import Verif.Proof.Duo
import Verif.Proof.Load
/-!
# The write in step with itself

`Duet`: whatever is read in between, each step of the program on the first handle keeps the two
handles related, the second one taking steps of its own at the right moments, and a condition holds
when the program ends.  `Twin`: it ends as the other program does when it runs alone.
-/

namespace Hyperbee

/-- See above. -/
def Duet (K : Names → Names → St → St → Prop) : Prog α → St → Names → Names → (St → Names → Except Err α → Prop) → Prop
  | .pure a, sB, Γ, _, Q => Q sB Γ (.ok a)
  | .throw e, sB, Γ, _, Q => Q sB Γ (.error e)
  | .step x k, sB, Γ, Λ, Q => ∀ Λ' sA, Λ.le Λ' → K Γ Λ' sA sB →
      ∃ sB' Γ' Λ'', Γ.le Γ' ∧ Λ'.le Λ'' ∧ K Γ' Λ'' (x.run sA).2 sB' ∧
        Duet K (k (x.run sA).1) sB' Γ' Λ'' Q

variable {K : Names → Names → St → St → Prop}

theorem Duet.mono {p : Prog α} {sB : St} {Γ Λ Λ' : Names} {Q : St → Names → Except Err α → Prop}
    (h : Duet K p sB Γ Λ Q) (hl : Λ.le Λ') : Duet K p sB Γ Λ' Q := by
  cases p with
  | pure a => exact h
  | throw e => exact h
  | step x k => exact fun Λ'' sA hl' => h Λ'' sA (hl.trans hl')

theorem Duet.bind {p : Prog α} {f : α → Prog β} {sB : St} {Γ Λ : Names} {Q : St → Names → Except Err α → Prop}
    {R : St → Names → Except Err β → Prop} (h : Duet K p sB Γ Λ Q)
    (hf : ∀ sB' Γ' Λ' a, Γ.le Γ' → Q sB' Γ' (.ok a) → Duet K (f a) sB' Γ' Λ' R)
    (he : ∀ sB' Γ' e, Γ.le Γ' → Q sB' Γ' (.error e) → R sB' Γ' (.error e)) :
    Duet K (p >>= f) sB Γ Λ R := by
  show Duet K (Prog.bind p f) sB Γ Λ R
  induction p generalizing sB Γ Λ with
  | pure a => exact hf sB Γ Λ a (.refl Γ) h
  | throw e => exact he sB Γ e (.refl Γ) h
  | step x k ih =>
    intro Λ' sA hl hd
    obtain ⟨sB', Γ', Λ'', h1, h2, h3, h4⟩ := h Λ' sA hl hd
    exact ⟨sB', Γ', Λ'', h1, h2, h3, ih _ h4 (fun sB'' Γ'' Λ3 a hg => hf sB'' Γ'' Λ3 a (h1.trans hg))
      fun sB'' Γ'' e hg => he sB'' Γ'' e (h1.trans hg)⟩

theorem Duet.imp {p : Prog α} {sB : St} {Γ Λ : Names} {Q R : St → Names → Except Err α → Prop}
    (h : Duet K p sB Γ Λ Q) (hq : ∀ sB' Γ' r, Γ.le Γ' → Q sB' Γ' r → R sB' Γ' r) :
    Duet K p sB Γ Λ R := by
  induction p generalizing sB Γ Λ with
  | pure a => exact hq _ _ _ (.refl Γ) h
  | throw e => exact hq _ _ _ (.refl Γ) h
  | step x k ih =>
    intro Λ' sA hl hd
    obtain ⟨sB', Γ', Λ'', h1, h2, h3, h4⟩ := h Λ' sA hl hd
    exact ⟨sB', Γ', Λ'', h1, h2, h3, ih _ h4 fun sB'' Γ'' r hg => hq sB'' Γ'' r (h1.trans hg)⟩

theorem Duet.under {p : Prog α} {sB : St} {Γ Λ : Names} {Q : St → Names → Except Err α → Prop}
    (h : Duet K p sB Γ Λ Q) (a : Nat) (m : Mode) : Duet K (Prog.under a m p) sB Γ Λ Q := by
  induction p generalizing sB Γ Λ with
  | pure a => exact h
  | throw e => exact h
  | step x k ih =>
    intro Λ' sA hl hd
    obtain ⟨sB', Γ', Λ'', h1, h2, h3, h4⟩ := h Λ' sA hl hd
    exact ⟨sB', Γ', Λ'', h1, h2, h3, ih _ h4⟩

/-- The next step. -/
theorem Duet.next {p : Prog α} {sA sB : St} {Γ Λ : Names} {Q : St → Names → Except Err α → Prop}
    (h : Duet K p sB Γ Λ Q) (hd : K Γ Λ sA sB) :
    ∃ sB' Γ' Λ', Γ.le Γ' ∧ Λ.le Λ' ∧ K Γ' Λ' (p.next sA).2 sB' ∧
      Duet K (p.next sA).1 sB' Γ' Λ' Q := by
  cases p with
  | pure a => exact ⟨sB, Γ, Λ, .refl Γ, .refl Λ, hd, h⟩
  | throw e => exact ⟨sB, Γ, Λ, .refl Γ, .refl Λ, hd, h⟩
  | step x k => exact h Λ sA (.refl Λ) hd

/-- `p`, while others read, ends as `p'` does when it runs alone. -/
def Twin (K : Names → Names → St → St → Prop) (p p' : Prog α) (Γ : Names) (R : Names → α → α → Prop) : Prop :=
  ∀ sB Λ, Duet K p sB Γ Λ fun sB' Γ' r => sB' = (p'.run sB).2 ∧ RR R Γ' r (p'.run sB).1

theorem Twin.pure {a i : α} {Γ : Names} {R : Names → α → α → Prop} (h : R Γ a i) :
    Twin K (Pure.pure a) (Pure.pure i) Γ R := fun _ _ => ⟨rfl, h⟩

theorem Twin.throw {e : Err} {Γ : Names} {R : Names → α → α → Prop} :
    Twin K (Prog.throw e) (Prog.throw e) Γ R := fun _ _ => ⟨rfl, rfl⟩

theorem Twin.bind {p p' : Prog α} {f f' : α → Prog β} {Γ : Names} {R : Names → α → α → Prop}
    {T : Names → β → β → Prop} (h : Twin K p p' Γ R)
    (hf : ∀ Γ' a i, Γ.le Γ' → R Γ' a i → Twin K (f a) (f' i) Γ' T) :
    Twin K (p >>= f) (p' >>= f') Γ T := by
  intro sB Λ
  refine Duet.bind (h sB Λ) ?_ ?_
  · rintro sB' Γ' Λ' a hg ⟨rfl, hr⟩
    rw [Prog.run_bind, bind_run]
    cases hp : p'.run sB with
    | mk r s =>
      rw [hp] at hr
      cases r with
      | error e => exact hr.elim
      | ok i => exact hf Γ' a i hg hr s Λ'
  · rintro sB' Γ' e hg ⟨rfl, hr⟩
    rw [Prog.run_bind, bind_run]
    cases hp : p'.run sB with
    | mk r s =>
      rw [hp] at hr
      cases r with
      | error e' => exact ⟨rfl, hr⟩
      | ok i => exact hr.elim

theorem run_under (a : Nat) (m : Mode) (p : Prog α) : (Prog.under a m p).run = p.run :=
  Does.under a m rfl

theorem Twin.under {p p' : Prog α} {Γ : Names} {R : Names → α → α → Prop} (a i : Nat) (m : Mode)
    (h : Twin K p p' Γ R) : Twin K (Prog.under a m p) (Prog.under i m p') Γ R := by
  intro sB Λ
  rw [run_under]
  exact (h sB Λ).under a m

theorem Twin.tryResult {p p' : Prog α} {Γ : Names} {R : Names → α → α → Prop} (h : Twin K p p' Γ R) :
    Twin K p.tryResult p'.tryResult Γ (RR R) := by
  intro sB Λ
  rw [show p'.tryResult.run = Hyperbee.tryResult p'.run from Does.tryResult rfl]
  have h1 := h sB Λ
  have : Hyperbee.tryResult p'.run sB = (match (p'.run sB).1 with
      | .ok a => .ok (.ok a)
      | .error (.panic site) => .error (.panic site)
      | .error .diverge => .error .diverge
      | .error e => .ok (.error e), (p'.run sB).2) := by
    unfold Hyperbee.tryResult
    cases p'.run sB with
    | mk r s =>
      cases r with
      | ok a => rfl
      | error e => cases e <;> rfl
  rw [this]
  clear this h
  generalize (p'.run sB).1 = r' at h1 ⊢
  generalize (p'.run sB).2 = s' at h1 ⊢
  induction p generalizing sB Γ Λ with
  | pure a =>
    obtain ⟨e1, h2⟩ := h1
    refine ⟨e1, ?_⟩
    cases r' with
    | ok i => exact h2
    | error e => exact h2.elim
  | throw e =>
    obtain ⟨e1, h2⟩ := h1
    cases r' with
    | ok i => exact h2.elim
    | error e' =>
      have h2 : e = e' := h2
      subst h2
      cases e <;> exact ⟨e1, rfl⟩
  | step x k ih =>
    intro Λ' sA hl hd
    obtain ⟨sB', Γ', Λ'', g1, g2, g3, g4⟩ := h1 Λ' sA hl hd
    exact ⟨sB', Γ', Λ'', g1, g2, g3, ih _ _ _ g4⟩

/-- A single step on both handles. -/
theorem twin_lift {x y : Atom α} {Γ : Names} {R : Names → α → α → Prop}
    (h : ∀ Λ sA sB, K Γ Λ sA sB → ∃ Γ', Γ.le Γ' ∧ K Γ' Λ (x.run sA).2 (y.run sB).2 ∧
      RR R Γ' (x.run sA).1 (y.run sB).1) : Twin K (Prog.lift x) (Prog.lift y) Γ R := by
  intro sB Λ Λ' sA hl hd
  obtain ⟨Γ', h1, h2, h3⟩ := h Λ' sA sB hd
  refine ⟨(y.run sB).2, Γ', Λ', h1, .refl Λ', h2, ?_⟩
  rw [show (Prog.lift y).run = y.run from Does.lift y]
  revert h3
  cases (x.run sA).1 with
  | ok a => exact fun h3 => ⟨rfl, h3⟩
  | error e => exact fun h3 => ⟨rfl, h3⟩

variable {base : Nat} {strict : Bool}

theorem twin_version {Γ : Names} : Twin (Duo base strict) Prog.version Prog.version Γ EqR := by
  refine twin_lift fun Λ sA sB hd => ⟨Γ, .refl Γ, hd, ?_⟩
  show sA.core.length = sB.core.length
  rw [hd.core]

theorem twin_descentFuel {Γ : Names} : Twin (Duo base strict) Prog.descentFuel Prog.descentFuel Γ EqR := by
  refine twin_lift fun Λ sA sB hd => ⟨Γ, .refl Γ, hd, ?_⟩
  show stepBound sA.core = stepBound sB.core
  rw [hd.core]

theorem twin_readNode {Γ : Names} {a i : Nat} (h : Γ a = some i) :
    Twin (Duo base strict) (Prog.readNode a) (Prog.readNode i) Γ EqR := by
  refine twin_lift fun Λ sA sB hd => ⟨Γ, .refl Γ, ?_⟩
  obtain ⟨n, h1, h2⟩ := hd.dom a i h
  rw [show (Atom.readNode a).run sA = (.ok n, sA) from readNode_some h1,
    show (Atom.readNode i).run sB = (.ok n, sB) from readNode_some h2]
  exact ⟨hd, rfl⟩

theorem twin_edit {Γ : Names} {a i : Nat} (h : Γ a = some i) (m : Mode) (f : Node → Except Err (β × Node)) :
    Twin (Duo base strict) (Prog.edit m a f) (Prog.edit m i f) Γ EqR := by
  refine twin_lift fun Λ sA sB hd => ⟨Γ, .refl Γ, ?_⟩
  obtain ⟨n, h1, h2⟩ := hd.dom a i h
  have he : ∀ (s : St) (c : Nat), s.heap[c]? = some n → Hyperbee.edit c f s = match f n with
      | .ok (b, n') => (.ok b, { s with heap := s.heap.set c n' })
      | .error e => (.error e, s) := by
    intro s c hc
    unfold Hyperbee.edit
    rw [bind_ok (readNode_some hc)]
    cases f n <;> rfl
  rw [show (Atom.edit m a f).run sA = _ from he sA a h1, show (Atom.edit m i f).run sB = _ from he sB i h2]
  cases f n with
  | ok x => exact ⟨hd.write h x.2, rfl⟩
  | error e => exact ⟨hd, rfl⟩

theorem twin_alloc {Γ : Names} (n : Node) : Twin (Duo base strict) (Prog.alloc n) (Prog.alloc n) Γ NameR := by
  refine twin_lift fun Λ sA sB hd => ?_
  obtain ⟨Γ', h1, h2, h3⟩ := hd.alloc n
  exact ⟨Γ', h1, h3, h2⟩

theorem twin_append {Γ : Names} (x : Bytes) : Twin (Duo base strict) (Prog.coreAppend x) (Prog.coreAppend x) Γ EqR := by
  refine twin_lift fun Λ sA sB hd => ⟨Γ, .refl Γ, ?_⟩
  show Duo base strict Γ Λ (Hyperbee.coreAppend x sA).2 (Hyperbee.coreAppend x sB).2 ∧
    RR EqR Γ (Hyperbee.coreAppend x sA).1 (Hyperbee.coreAppend x sB).1
  unfold Hyperbee.coreAppend
  have hio : sA.io.appendOk = sB.io.appendOk := by rw [hd.io]
  rw [hio]
  split
  · refine ⟨hd.append x, ?_⟩
    show sA.core.length + 1 = sB.core.length + 1
    rw [hd.core]
  · exact ⟨hd, rfl⟩

theorem moveChildren_cases (l r n : Nat) {s : St} {ln rn : Node} (hl : s.heap[l]? = some ln) (hr : s.heap[r]? = some rn)
    (hne : l ≠ r) : Hyperbee.Side.moveChildren l r n s =
      match vecSplice ln.children n n rn.children with
      | some cs => (.ok (), { s with heap := (s.heap.set r { rn with children := [] }).set l { ln with children := cs } })
      | none => (.error (.panic "del.rs:278 children.splice"), { s with heap := s.heap.set r { rn with children := [] } }) := by
  unfold Hyperbee.Side.moveChildren
  rw [if_neg hne, bind_ok (readNode_some hr), bind_run, writeNode_run]
  dsimp only
  rw [bind_ok (readNode_some (n := ln) (by simp [Ne.symm hne, hl]))]
  cases vecSplice ln.children n n rn.children <;> rfl

theorem twin_moveChildren {Γ : Names} {l l' r r' : Nat} (hl : Γ l = some l') (hr : Γ r = some r') (n : Nat) :
    Twin (Duo base strict) (Prog.Side.moveChildren l r n) (Prog.Side.moveChildren l' r' n) Γ fun _ _ _ => True := by
  unfold Prog.Side.moveChildren
  refine Twin.bind (R := EqR) (twin_lift fun Λ sA sB hd => ⟨Γ, .refl Γ, hd, rfl⟩) fun Γ1 _ _ h1 _ => ?_
  refine Twin.under _ _ _ (twin_lift fun Λ sA sB hd => ⟨Γ1, .refl Γ1, ?_⟩)
  have gl := h1 _ _ hl
  have gr := h1 _ _ hr
  obtain ⟨ln, a1, a2⟩ := hd.dom _ _ gl
  obtain ⟨rn, b1, b2⟩ := hd.dom _ _ gr
  show Duo base strict Γ1 Λ (Hyperbee.Side.moveChildren l r n sA).2 (Hyperbee.Side.moveChildren l' r' n sB).2 ∧
    RR _ Γ1 (Hyperbee.Side.moveChildren l r n sA).1 (Hyperbee.Side.moveChildren l' r' n sB).1
  by_cases hlr : l = r
  · subst hlr
    have : l' = r' := by rw [gl] at gr; exact Option.some.inj gr
    subst this
    unfold Hyperbee.Side.moveChildren
    rw [if_pos rfl, if_pos rfl]
    exact ⟨hd, rfl⟩
  · have hlr' : l' ≠ r' := by
      rintro rfl
      exact hlr (hd.inj _ _ _ gl gr)
    rw [moveChildren_cases l r n a1 b1 hlr, moveChildren_cases l' r' n a2 b2 hlr']
    cases vecSplice ln.children n n rn.children with
    | some cs => exact ⟨(hd.write gr _).write gl _, trivial⟩
    | none => exact ⟨hd.write gr _, rfl⟩

/-! ## Looking up a block -/

theorem blocksGet_miss {s : St} {q : Nat} {b : Blk} (hr : s.io.readable q = true) (hq : s.cache q = none)
    (hb : blockAt s.core q = some b) : Hyperbee.blocksGet q s =
      (.ok ⟨List.range' s.heap.length b.nodes.length, b.key, b.value⟩, loaded s q b) := by
  rcases blocksGet_cases q s with ⟨e, g1, _⟩ | ⟨_, ⟨g, _⟩ | ⟨_, ⟨b', g1, g2⟩ | ⟨_, g1, _⟩⟩⟩
  · rw [hq] at g1; cases g1
  · rcases g with g | g
    · rw [hr] at g; cases g
    · have := blockAt_lt hb; omega
  · rw [hb] at g1; cases g1; exact g2
  · rw [hb] at g1; cases g1

theorem twin_blocksGet {Γ : Names} (q : Nat) :
    Twin (Duo base true) (Prog.blocksGet q) (Prog.blocksGet q) Γ ERel := by
  intro sB Λ
  rw [show (Prog.blocksGet q).run = Hyperbee.blocksGet q from does_blocksGet q]
  intro Λ1 s1 hl1 hd1
  rw [show (Atom.cacheGet q).run s1 = (.ok (s1.cache q), s1) from rfl]
  cases hc : s1.cache q with
  | some e =>
    cases hB : sB.cache q with
    | some e' =>
      obtain ⟨e1, h1, h2⟩ := hd1.has rfl q e' hB
      rw [hc] at h1
      cases h1
      refine ⟨sB, Γ, Λ1, .refl Γ, .refl Λ1, hd1, ?_⟩
      rcases blocksGet_cases q sB with ⟨e2, g1, g2⟩ | ⟨g1, _⟩
      · rw [hB] at g1
        cases g1
        rw [g2]
        exact ⟨rfl, h2⟩
      · rw [hB] at g1; cases g1
    | none =>
      obtain ⟨b, hb, _⟩ := hd1.ent q e hc
      rw [hd1.core] at hb
      obtain ⟨Γ', g1, g2, g3⟩ := hd1.join hc hB hb
      refine ⟨loaded sB q b, Γ', Λ1, g1, .refl Λ1, g2, ?_⟩
      rw [blocksGet_miss (hd1.wf.rd q) hB hb]
      exact ⟨rfl, g3⟩
  | none =>
    have hB : sB.cache q = none := by
      cases hB : sB.cache q with
      | none => rfl
      | some e' =>
        obtain ⟨e1, h1, _⟩ := hd1.has rfl q e' hB
        rw [hc] at h1
        cases h1
    refine ⟨sB, Γ, Λ1, .refl Γ, .refl Λ1, hd1, ?_⟩
    intro Λ2 s2 hl2 hd2
    rw [show (Atom.coreFetch q).run s2 = getFromCore q s2 from rfl]
    have hr2 : s2.io.readable q = true := by rw [hd2.io]; exact hd2.wf.rd q
    have hrB : sB.io.readable q = true := hd2.wf.rd q
    cases hx : sB.core[q]? with
    | none =>
      have hcg : coreGet q s2 = (.ok none, s2) := by simp [coreGet, hd2.core, hx]
      have hf : getFromCore q s2 = (.ok none, s2) := by unfold getFromCore; rw [bind_ok hcg]; rfl
      rw [hf]
      refine ⟨sB, Γ, Λ2, .refl Γ, .refl Λ2, hd2, ?_⟩
      have hcB : coreGet q sB = (.ok none, sB) := by simp [coreGet, hx]
      have hfB : getFromCore q sB = (.ok none, sB) := by unfold getFromCore; rw [bind_ok hcB]; rfl
      have : Hyperbee.blocksGet q sB = (.error (.noBlockAtSeq q), sB) := by
        unfold Hyperbee.blocksGet
        rw [bind_ok (show getFromCache q sB = (.ok none, sB) by simp [getFromCache, hB])]
        dsimp only
        rw [bind_ok hfB]
        rfl
      rw [this]
      exact ⟨rfl, rfl⟩
    | some x =>
      cases hbl : blockOf x with
      | none =>
        obtain ⟨xs, hf⟩ := getFromCore_err hr2 (by rw [hd2.core]; exact hx) hbl
        obtain ⟨ys, hfB⟩ := getFromCore_err hrB hx hbl
        rw [hf]
        refine ⟨{ sB with heap := sB.heap ++ ys }, Γ, Λ2, .refl Γ, .refl Λ2, (hd2.grow xs).growB ys, ?_⟩
        have : Hyperbee.blocksGet q sB = (.error (blockErr x), { sB with heap := sB.heap ++ ys }) := by
          unfold Hyperbee.blocksGet
          rw [bind_ok (show getFromCache q sB = (.ok none, sB) by simp [getFromCache, hB])]
          dsimp only
          rw [bind_run, hfB]
        rw [this]
        exact ⟨rfl, rfl⟩
      | some b =>
        have hbB : blockAt sB.core q = some b := by simp [blockAt, hx, hbl]
        have hbA : blockAt s2.core q = some b := by rw [hd2.core]; exact hbB
        rw [getFromCore_run hr2 hbA]
        obtain ⟨hle, hd3⟩ := hd2.load hbA
        refine ⟨sB, Γ, _, .refl Γ, hle, hd3, ?_⟩
        intro Λ4 s4 hl4 hd4
        have her : ERel Λ4 ⟨List.range' s2.heap.length b.nodes.length, b.key, b.value⟩
            ⟨(List.range b.nodes.length).map fun j => base + Nat.pair q j, b.key, b.value⟩ :=
          ERel.mono hl4 ⟨rfl, rfl, forall2_load _ _ _ _⟩
        have hd5 := hd4.file (by rw [hd4.core]; exact hbB) her fun _ => hB
        obtain ⟨Γ', g1, g2, g3⟩ := hd5.join (q := q) (e := ⟨List.range' s2.heap.length b.nodes.length, b.key, b.value⟩)
          (by simp [cacheInsert]) hB hbB
        refine ⟨loaded sB q b, Γ', Λ4, g1, .refl Λ4, g2, ?_⟩
        rw [blocksGet_miss hrB hB hbB]
        exact ⟨rfl, g3⟩

end Hyperbee
