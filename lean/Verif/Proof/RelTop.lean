import Verif.Proof.RelOps
import Verif.Model.Prefixed
/-!
# Two handles on the same core: writing the block, streams, and whole calls
-/

namespace Hyperbee

/-! ## Collecting and writing the block -/

/-- Corresponding nodes have equal contents; nothing is said about blocks. -/
structure HR (β : Nat → Nat → Prop) (s1 s2 : St) : Prop where
  core : s1.core = s2.core
  ap : s1.io.appendOk = s2.io.appendOk
  pair : ∀ a1 a2, β a1 a2 → ∃ n, s1.heap[a1]? = some n ∧ s2.heap[a2]? = some n
  fn : ∀ a1 a2 a2', β a1 a2 → β a1 a2' → a2 = a2'
  inj : ∀ a1 a1' a2, β a1 a2 → β a1' a2 → a1 = a1'

theorem Rel.hr {c : List Bytes} {L : Live} {ρ : Nat → Bool} {β : Nat → Nat → Prop} {s1 s2 : St}
    (h : Rel c L ρ β s1 s2) : HR β s1 s2 :=
  ⟨h.c1.trans h.c2.symm, h.ap, fun a1 a2 hb => by
    obtain ⟨n, x, y, _⟩ := h.pair a1 a2 hb
    exact ⟨n, x, y⟩, h.fn, h.inj⟩

def HTPost (β : Nat → Nat → Prop) (Q : α → α' → Prop) : Except Err α × St → Except Err α' × St → Prop
  | (.ok a, s1), (.ok a', s2) => HR β s1 s2 ∧ Q a a'
  | (.error e, s1), (.error e', s2) => HR β s1 s2 ∧ e = e'
  | _, _ => False

def HT (β : Nat → Nat → Prop) (m1 : M α) (m2 : M α') (Q : α → α' → Prop) : Prop :=
  ∀ s1 s2, HR β s1 s2 → HTPost β Q (m1 s1) (m2 s2)

section

variable {β : Nat → Nat → Prop}

theorem HT.pure {a : α} {a' : α'} {Q : α → α' → Prop} (h : Q a a') :
    HT β (Pure.pure a : M α) (Pure.pure a' : M α') Q := fun _ _ hr => ⟨hr, h⟩

theorem HT.throw {e : Err} {Q : α → α' → Prop} : HT β (Hyperbee.throw e : M α) (Hyperbee.throw e : M α') Q :=
  fun _ _ hr => ⟨hr, rfl⟩

theorem HT.bind {m1 : M α} {m2 : M α'} {f1 : α → M γ} {f2 : α' → M γ'} {Q : α → α' → Prop} {R : γ → γ' → Prop}
    (h : HT β m1 m2 Q) (hf : ∀ a a', Q a a' → HT β (f1 a) (f2 a') R) : HT β (m1 >>= f1) (m2 >>= f2) R := by
  intro s1 s2 hr
  have hp := h s1 s2 hr
  rw [bind_run, bind_run]
  cases h1 : m1 s1 with
  | mk r1 t1 =>
    cases h2 : m2 s2 with
    | mk r2 t2 =>
      rw [h1, h2] at hp
      cases r1 <;> cases r2
      · exact hp
      · exact hp.elim
      · exact hp.elim
      · exact hf _ _ hp.2 t1 t2 hp.1

theorem HT.orPanic {site : String} {o : Option α} {o' : Option α'} {Q : α → α' → Prop}
    (h0 : o.isSome = o'.isSome) (h : ∀ a a', o = some a → o' = some a' → Q a a') :
    HT β (orPanic site o) (orPanic site o') Q := by
  cases o with
  | none =>
    cases o' with
    | none => exact HT.throw
    | some a' => simp at h0
  | some a =>
    cases o' with
    | none => simp at h0
    | some a' => exact HT.pure (h a a' rfl rfl)

theorem HT.orPanicE {site : String} {o : Option α} :
    HT β (Hyperbee.orPanic site o) (Hyperbee.orPanic site o) (fun a a' => a = a') :=
  HT.orPanic rfl fun a a' h h' => by rw [h] at h'; exact Option.some.inj h'

theorem HT.readNode {a1 a2 : Nat} (h : β a1 a2) : HT β (readNode a1) (readNode a2) (fun n n' => n = n') := by
  intro s1 s2 hr
  obtain ⟨n, h1, h2⟩ := hr.pair a1 a2 h
  rw [readNode_some h1, readNode_some h2]
  exact ⟨hr, rfl⟩

theorem HT.writeNode {a1 a2 : Nat} {n : Node} (h : β a1 a2) :
    HT β (writeNode a1 n) (writeNode a2 n) (fun _ _ => True) := by
  intro s1 s2 hr
  rw [writeNode_run, writeNode_run]
  refine ⟨⟨hr.core, hr.ap, ?_, hr.fn, hr.inj⟩, trivial⟩
  intro x1 x2 hx
  obtain ⟨m, h1, h2⟩ := hr.pair x1 x2 hx
  by_cases e : x1 = a1
  · subst e
    obtain rfl := hr.fn x1 x2 a2 hx h
    refine ⟨n, ?_, ?_⟩
    · simp [(List.getElem?_eq_some_iff.mp h1).1]
    · simp [(List.getElem?_eq_some_iff.mp h2).1]
  · have e2 : x2 ≠ a2 := by
      intro e2; subst e2
      exact e (hr.inj x1 a1 x2 hx h)
    exact ⟨m, by rw [← h1]; exact List.getElem?_set_ne (Ne.symm e),
      by rw [← h2]; exact List.getElem?_set_ne (Ne.symm e2)⟩

theorem HT.coreAppend {b : Bytes} : HT β (coreAppend b) (coreAppend b) (fun a a' => a = a') := by
  intro s1 s2 hr
  simp only [Hyperbee.coreAppend]
  rw [hr.ap]
  split
  · refine ⟨⟨?_, hr.ap, hr.pair, hr.fn, hr.inj⟩, ?_⟩
    · show s1.core ++ [b] = s2.core ++ [b]
      rw [hr.core]
    · show s1.core.length + 1 = s2.core.length + 1
      rw [hr.core]
  · exact ⟨hr, rfl⟩

theorem HT.takeChildrenWithSeq {a1 a2 seq : Nat} (h : β a1 a2) :
    HT β (takeChildrenWithSeq a1 seq) (takeChildrenWithSeq a2 seq) (fun x y => PathRel β x y) := by
  unfold Hyperbee.takeChildrenWithSeq
  refine HT.bind (HT.readNode h) ?_
  rintro n _ rfl
  refine HT.pure ?_
  generalize indicesWithSeq seq 0 n.children = l
  induction l with
  | nil => exact .nil
  | cons i l ih => exact .cons ⟨h, rfl⟩ ih

theorem forall2_get {l l' : List Nat} (h : List.Forall₂ β l l') (i : Nat) :
    (l[i]?.isSome = l'[i]?.isSome) ∧ ∀ a a', l[i]? = some a → l'[i]? = some a' → β a a' := by
  induction h generalizing i with
  | nil => simp
  | cons hx _ ih =>
    cases i with
    | zero => simp; exact hx
    | succ i => simpa using ih i

theorem HT.reorderLoop {seq : Nat} {nodes nodes' : List Nat} (hn : List.Forall₂ β nodes nodes') : ∀ (fuel : Nat)
    {stack stack' : List (Addr × Nat)} {out out' : List Nat}, PathRel β stack stack' → List.Forall₂ β out out' →
    HT β (reorderLoop seq nodes fuel stack out) (reorderLoop seq nodes' fuel stack' out')
      (fun x y => List.Forall₂ β x y) := by
  intro fuel
  induction fuel with
  | zero =>
    intro stack stack' out out' hs ho
    cases hs with
    | nil => exact HT.pure ho
    | cons _ _ => exact HT.throw
  | succ fuel ih =>
    intro stack stack' out out' hs ho
    cases hs with
    | nil => exact HT.pure ho
    | @cons x y p p' hxy hpp =>
      obtain ⟨a1, i⟩ := x
      obtain ⟨a2, i'⟩ := y
      obtain ⟨hb, rfl⟩ := hxy
      simp only [Hyperbee.reorderLoop]
      refine HT.bind (HT.readNode hb) ?_
      rintro n _ rfl
      refine HT.bind HT.orPanicE ?_
      rintro r _ rfl
      rw [List.Forall₂.length_eq ho]
      refine HT.bind HT.orPanicE ?_
      rintro cs _ rfl
      refine HT.bind (HT.writeNode hb) ?_
      intro _ _ _
      refine HT.bind (HT.orPanic (forall2_get hn r.offset).1 (forall2_get hn r.offset).2) ?_
      intro k k' hk
      refine HT.bind (HT.takeChildrenWithSeq hk) ?_
      intro more more' hm
      exact ih (List.rel_append hm hpp) (List.rel_append ho (.cons hk .nil))

theorem HT.readNodes : ∀ {l l' : List Nat}, List.Forall₂ β l l' →
    HT β (readNodes l) (readNodes l') (fun x y => x = y) := by
  intro l l' h
  induction h with
  | nil => exact HT.pure rfl
  | cons hx _ ih =>
    simp only [Hyperbee.readNodes]
    refine HT.bind (HT.readNode hx) ?_
    rintro n _ rfl
    refine HT.bind ih ?_
    rintro ns _ rfl
    exact HT.pure rfl

theorem forall2_last {l l' : List Nat} (h : List.Forall₂ β l l') :
    (l.getLast?.isSome = l'.getLast?.isSome) ∧ ∀ a a', l.getLast? = some a → l'.getLast? = some a' → β a a' := by
  rw [List.getLast?_eq_getElem?, List.getLast?_eq_getElem?, List.Forall₂.length_eq h]
  exact forall2_get h _

theorem HT.addChanges {c : List Bytes} {ch ch' : Changes} (h : ChRel c β ch ch') :
    HT β (addChanges ch) (addChanges ch') (fun a a' => a = a') := by
  unfold Hyperbee.addChanges
  refine HT.bind (Q := fun x y => List.Forall₂ β x y) ?_ ?_
  · unfold reorderNodes
    refine HT.bind (HT.orPanic (forall2_last h.nodes).1 (forall2_last h.nodes).2) ?_
    intro r r' hr
    rw [h.seq]
    refine HT.bind (HT.takeChildrenWithSeq hr) ?_
    intro st st' hst
    rw [List.Forall₂.length_eq h.nodes]
    exact HT.reorderLoop h.nodes _ hst (.cons hr .nil)
  · intro l l' hl
    refine HT.bind (HT.readNodes hl) ?_
    rintro ns _ rfl
    rw [h.key, h.value]
    exact HT.coreAppend

/-! ## Whole calls -/

/-- Prepared writes that will produce the same bytes. -/
def PrepRel (c : List Bytes) (β : Nat → Nat → Prop) (p p' : Prepared α) : Prop :=
  (∃ a, p = .done a ∧ p' = .done a) ∨
    ∃ ch ch' a, p = .commit ch a ∧ p' = .commit ch' a ∧ ChRel c β ch ch'

theorem HT.commitPrepared {c : List Bytes} {p p' : Prepared α} (h : PrepRel c β p p') :
    HT β (commitPrepared p) (commitPrepared p') (fun a a' => a = a') := by
  rcases h with ⟨a, rfl, rfl⟩ | ⟨ch, ch', a, rfl, rfl, h⟩
  · exact HT.pure rfl
  · refine HT.bind (HT.addChanges h) ?_
    intro _ _ _
    exact HT.pure rfl

/-- The two calls ended alike: same result, same core. The second may instead have stopped at a block
it lacks. -/
def Same (c : List Bytes) (L : Live) (ρ : Nat → Bool) (o1 o2 : Except Err α × St) : Prop :=
  (o1.1 = o2.1 ∧ o1.2.core = o2.2.core) ∨ ∃ e, o2.1 = .error e ∧ Missing c L ρ e

variable {c : List Bytes} {L : Live} {ρ : Nat → Bool}

theorem RT.same {m1 m2 : M α} (h : RT c L ρ β m1 m2 (fun _ a a' => a = a')) {s1 s2 : St}
    (hr : Rel c L ρ β s1 s2) : Same c L ρ (m1 s1) (m2 s2) := by
  have hp := h s1 s2 hr
  cases h1 : m1 s1 with
  | mk r1 t1 =>
    cases h2 : m2 s2 with
    | mk r2 t2 =>
      rw [h1, h2] at hp
      cases r1 <;> cases r2
      · rcases hp with ⟨rfl, _, _, hr'⟩ | hm
        · exact .inl ⟨rfl, hr'.c1.trans hr'.c2.symm⟩
        · exact .inr ⟨_, rfl, hm⟩
      · exact hp.elim
      · exact .inr ⟨_, rfl, hp⟩
      · obtain ⟨_, _, hr', rfl⟩ := hp
        exact .inl ⟨rfl, hr'.c1.trans hr'.c2.symm⟩

theorem RT.thenH {m1 m2 : M α} {f1 f2 : α → M γ} {Q : (Nat → Nat → Prop) → α → α → Prop}
    (h : RT c L ρ β m1 m2 Q) (hf : ∀ β' a a', Q β' a a' → HT β' (f1 a) (f2 a') (fun x y => x = y)) {s1 s2 : St}
    (hr : Rel c L ρ β s1 s2) : Same c L ρ ((m1 >>= f1) s1) ((m2 >>= f2) s2) := by
  have hp := h s1 s2 hr
  rw [bind_run, bind_run]
  cases h1 : m1 s1 with
  | mk r1 t1 =>
    cases h2 : m2 s2 with
    | mk r2 t2 =>
      rw [h1, h2] at hp
      cases r1 <;> cases r2
      · rcases hp with ⟨rfl, _, _, hr'⟩ | hm
        · exact .inl ⟨rfl, hr'.c1.trans hr'.c2.symm⟩
        · exact .inr ⟨_, rfl, hm⟩
      · exact hp.elim
      · exact .inr ⟨_, rfl, hp⟩
      · obtain ⟨β', _, hr', hq⟩ := hp
        have := hf β' _ _ hq t1 t2 hr'.hr
        simp only []
        cases h3 : f1 _ t1 with
        | mk r3 t3 =>
          cases h4 : f2 _ t2 with
          | mk r4 t4 =>
            rw [h3, h4] at this
            cases r3 <;> cases r4
            · obtain ⟨x, rfl⟩ := this
              exact .inl ⟨rfl, x.core⟩
            · exact this.elim
            · exact this.elim
            · obtain ⟨x, rfl⟩ := this
              exact .inl ⟨rfl, x.core⟩

/-- The root of the core is a live node, if there is a tree. -/
def Rooted (c : List Bytes) (L : Live) : Prop := c.length ≤ 1 ∨ L ⟨c.length - 1, 0⟩

/-- Both handles found the root, or neither did. -/
def RootRel (β : Nat → Nat → Prop) (x y : Option Nat) : Prop :=
  (x = none ∧ y = none) ∨ ∃ a a', x = some a ∧ y = some a' ∧ β a a'

theorem RT.getRoot (hL : Closed c L) (h : Rooted c L) {ens : Bool} (h0 : ens = true → c ≠ []) :
    RT c L ρ β (getRoot ens) (getRoot ens) RootRel := by
  unfold Hyperbee.getRoot
  refine RT.bind RT.version ?_
  rintro β1 v _ h1 ⟨rfl, rfl⟩
  split
  · rw [if_neg]
    · exact RT.pure (.inl ⟨rfl, rfl⟩)
    · rintro ⟨x, y⟩
      exact h0 y (List.length_eq_zero_iff.mp x)
  · rename_i hlt
    have hroot : L ⟨c.length - 1, 0⟩ := by
      rcases h with h | h
      · exact absurd h hlt
      · exact h
    obtain ⟨m, hm, _⟩ := hL _ hroot
    obtain ⟨b, hb, _⟩ := nodeAt_block hm
    refine RT.bind (RT.blocksGet (.inl ⟨⟨b, hb⟩, .inr ⟨0, hroot⟩⟩)) ?_
    rintro β2 e e' h2 ⟨_, _, hlen, _, hn⟩
    refine RT.bind (Q := fun β' x y => β' x y) (RT.orPanic ?_ ?_) ?_
    · rw [Bool.eq_iff_iff]; simp [hlen]
    · intro x y hx hy
      exact hn 0 hroot x y hx hy
    · intro β3 x y h3 hxy
      exact RT.pure (.inr ⟨x, y, rfl, rfl, hxy⟩)

theorem RT.get (hL : Closed c L) (h : Rooted c L) (k : Bytes) :
    RT c L ρ β (get k) (get k) (fun _ a a' => a = a') := by
  unfold Hyperbee.get
  refine RT.bind (RT.getRoot hL h (by simp)) ?_
  rintro β1 _ _ h1 (⟨rfl, rfl⟩ | ⟨a, a', rfl, rfl, ha⟩)
  · exact RT.pure rfl
  · simp only []
    refine RT.bind (RT.nearestNode ha) ?_
    rintro β2 ⟨m, p⟩ ⟨m', p'⟩ h2 ⟨he, hp, _⟩
    simp only at he hp ⊢
    subst he
    split
    · refine RT.bind (hp.head _) ?_
      rintro β3 ⟨x, i⟩ ⟨y, i'⟩ h3 ⟨hxy, he⟩
      simp only at hxy he ⊢
      subst he
      refine RT.bind (RT.getKeyValue (h3 _ _ hxy)) ?_
      rintro β4 kv _ h4 rfl
      exact RT.pure rfl
    · exact RT.pure rfl

/-- `put_compare_and_swap` after `get_root`, src/put.rs:82-188. -/
def putAfter (key : Bytes) (value : Option Bytes) (cas : Option KeyValueData → KeyValueData → Bool)
    (maybeRoot : Option Addr) : M (Prepared (Option Nat × Option Nat)) := do
  let seq ← version
  let changes := Changes.new seq key value
  let newKeyData : KeyValueData := ⟨seq, key, value⟩
  match maybeRoot with
  | none =>
    if cas none newKeyData = false then pure (.done (none, none))
    else do
      let ch ← putLoop false [] changes seq []
      pure (.commit ch (none, some seq))
  | some root => do
    let (matched, path) ← nearestNode root (.finite key)
    let oldKeyData ←
      if matched.isSome then do
        let (node, index) ← orPanic "put.rs:109 path[path.len() - 1]" path.head?
        let kv ← getKeyValue node index
        pure (some kv)
      else pure none
    if cas oldKeyData newKeyData = false then pure (.done (matched, none))
    else do
      let ch ← putLoop matched.isSome path changes seq []
      pure (.commit ch (matched, some seq))

theorem putPrepare_eq (k : Bytes) (v : Option Bytes) (cas : Option KeyValueData → KeyValueData → Bool) :
    putPrepare k v cas = getRoot true >>= putAfter k v cas := rfl

theorem RT.putAfter {k : Bytes} {v : Option Bytes} {cas : Option KeyValueData → KeyValueData → Bool}
    {x y : Option Nat} (h : RootRel β x y) :
    RT c L ρ β (putAfter k v cas x) (putAfter k v cas y) (fun β' p p' => PrepRel c β' p p') := by
  unfold Hyperbee.putAfter
  refine RT.bind RT.version ?_
  rintro β1 n _ h1 ⟨rfl, rfl⟩
  have hc : ∀ β', ChRel c β' (Changes.new c.length k v) (Changes.new c.length k v) :=
    fun β' => ⟨rfl, rfl, rfl, .nil, rfl⟩
  rcases h with ⟨rfl, rfl⟩ | ⟨a, a', rfl, rfl, ha⟩
  · simp only []
    split
    · exact RT.pure (.inl ⟨_, rfl, rfl⟩)
    · refine RT.bind (RT.putLoop .nil (hc _) (.inr (Nat.le_refl _)) (by simp)) ?_
      intro β2 ch ch' h2 hch
      exact RT.pure (.inr ⟨ch, ch', _, rfl, rfl, hch⟩)
  · simp only []
    refine RT.bind (RT.nearestNode (h1 _ _ ha)) ?_
    rintro β2 ⟨m, p⟩ ⟨m', p'⟩ h2 ⟨he, hp, _⟩
    simp only at he hp ⊢
    subst he
    have hcont : ∀ {β3 : Nat → Nat → Prop} {o : Option KeyValueData}, (∀ x y, β2 x y → β3 x y) →
        RT c L ρ β3
          (if cas o ⟨c.length, k, v⟩ = false then Pure.pure (Prepared.done (m, none))
            else do
              let ch ← Hyperbee.putLoop m.isSome p (Changes.new c.length k v) c.length []
              Pure.pure (Prepared.commit ch (m, some c.length)))
          (if cas o ⟨c.length, k, v⟩ = false then Pure.pure (Prepared.done (m, none))
            else do
              let ch ← Hyperbee.putLoop m.isSome p' (Changes.new c.length k v) c.length []
              Pure.pure (Prepared.commit ch (m, some c.length)))
          (fun β' p p' => PrepRel c β' p p') := by
      intro β3 o h3
      split
      · exact RT.pure (.inl ⟨_, rfl, rfl⟩)
      · refine RT.bind (RT.putLoop (PathRel.mono' hp h3) (hc _) (.inr (Nat.le_refl _)) (by simp)) ?_
        intro β4 ch ch' h4 hch
        exact RT.pure (.inr ⟨ch, ch', _, rfl, rfl, hch⟩)
    split
    · refine RT.bind (hp.head _) ?_
      rintro β3 ⟨x, i⟩ ⟨y, i'⟩ h3 ⟨hxy, he⟩
      simp only at hxy he ⊢
      subst he
      refine RT.bind (RT.getKeyValue (h3 _ _ hxy)) ?_
      rintro β4 kv _ h4 rfl
      exact hcont (fun x y h => h4 _ _ (h3 x y h))
    · exact hcont (fun x y h => h)

theorem RT.putPrepare (hL : Closed c L) (h : Rooted c L) (h0 : c ≠ []) {k : Bytes} {v : Option Bytes}
    {cas : Option KeyValueData → KeyValueData → Bool} :
    RT c L ρ β (putPrepare k v cas) (putPrepare k v cas) (fun β' p p' => PrepRel c β' p p') := by
  rw [putPrepare_eq]
  refine RT.bind (RT.getRoot hL h (fun _ => h0)) ?_
  intro β1 x y h1 hxy
  exact RT.putAfter hxy

theorem RT.delPrepare (hL : Closed c L) (h : Rooted c L) {k : Bytes} {cas : KeyValueData → Bool} :
    RT c L ρ β (delPrepare k cas) (delPrepare k cas) (fun β' p p' => PrepRel c β' p p') := by
  unfold Hyperbee.delPrepare
  refine RT.bind (RT.getRoot hL h (by simp)) ?_
  rintro β1 _ _ h1 (⟨rfl, rfl⟩ | ⟨a, a', rfl, rfl, ha⟩)
  · exact RT.pure (.inl ⟨_, rfl, rfl⟩)
  · simp only []
    refine RT.bind (RT.nearestNode ha) ?_
    rintro β2 ⟨m, p⟩ ⟨m', p'⟩ h2 ⟨he, hp, _⟩
    simp only at he hp ⊢
    subst he
    cases m with
    | none => exact RT.pure (.inl ⟨_, rfl, rfl⟩)
    | some q =>
      simp only []
      refine RT.bind (hp.head _) ?_
      rintro β3 ⟨x, i⟩ ⟨y, i'⟩ h3 ⟨hxy, he⟩
      simp only at hxy he ⊢
      subst he
      refine RT.bind (RT.getKeyValue (h3 _ _ hxy)) ?_
      rintro β4 kv _ h4 rfl
      split
      · exact RT.pure (.inl ⟨_, rfl, rfl⟩)
      · refine RT.bind (RT.delChanges (PathRel.mono' hp fun x y h => h4 _ _ (h3 x y h))) ?_
        intro β5 ch ch' h5 hch
        exact RT.pure (.inr ⟨ch, ch', _, rfl, rfl, hch⟩)

theorem Same.bind_pure {o1 o2 : Except Err α × St} (h : Same c L ρ o1 o2) {f : α → M γ}
    (hf : ∀ a, (∃ b, ∀ s, f a s = (.ok b, s)) ∨ ∃ e, ∀ s, f a s = (.error e, s)) {m1 m2 : M α} {s1 s2 : St}
    (h1 : m1 s1 = o1) (h2 : m2 s2 = o2) : Same c L ρ ((m1 >>= f) s1) ((m2 >>= f) s2) := by
  rw [bind_run, bind_run, h1, h2]
  obtain ⟨r1, t1⟩ := o1
  obtain ⟨r2, t2⟩ := o2
  rcases h with ⟨h, hc⟩ | ⟨e, he, hm⟩
  · simp only at h hc
    subst h
    cases r1 with
    | error e => exact .inl ⟨rfl, hc⟩
    | ok a =>
      simp only []
      rcases hf a with ⟨b, hb⟩ | ⟨e, hb⟩
      · rw [hb, hb]; exact .inl ⟨rfl, hc⟩
      · rw [hb, hb]; exact .inl ⟨rfl, hc⟩
  · simp only at he
    subst he
    exact .inr ⟨e, rfl, hm⟩

/-! ## Streams -/

/-- Results of a future. -/
def ResRel (Q : (Nat → Nat → Prop) → α → α' → Prop) (β : Nat → Nat → Prop) : Except Err α → Except Err α' → Prop
  | .ok a, .ok a' => Q β a a'
  | .error e, .error e' => e = e'
  | _, _ => False

theorem RT.tryResult (hρ : ∀ q, L.needs q → ρ q = true) {m1 : M α} {m2 : M α'} {Q : (Nat → Nat → Prop) → α → α' → Prop}
    (h : RT c L ρ β m1 m2 Q) : RT c L ρ β (tryResult m1) (tryResult m2) (ResRel Q) := by
  intro s1 s2 hr
  have hp := h s1 s2 hr
  have nomiss : ∀ e, ¬ Missing c L ρ e := by
    rintro e ⟨q, _, _, hq, hn⟩
    rw [hρ q hn] at hq; cases hq
  unfold Hyperbee.tryResult
  cases h1 : m1 s1 with
  | mk r1 t1 =>
    cases h2 : m2 s2 with
    | mk r2 t2 =>
      rw [h1, h2] at hp
      cases r1 with
      | ok a =>
        cases r2 with
        | ok a' =>
          obtain ⟨β', hle, hr', hq⟩ := hp
          exact ⟨β', hle, hr', hq⟩
        | error e' => exact absurd hp (nomiss e')
      | error e =>
        cases r2 with
        | ok a' => exact hp.elim
        | error e' =>
          rcases hp with ⟨rfl, β', hle, hr'⟩ | hm
          · cases e with
            | panic site => exact .inl ⟨rfl, β', hle, hr'⟩
            | diverge => exact .inl ⟨rfl, β', hle, hr'⟩
            | core => exact ⟨β', hle, hr', rfl⟩
            | decode => exact ⟨β', hle, hr', rfl⟩
            | noBlockAtSeq q => exact ⟨β', hle, hr', rfl⟩
            | noRoot => exact ⟨β', hle, hr', rfl⟩
            | headerAlreadyExists => exact ⟨β', hle, hr', rfl⟩
            | getChildInTraverse e => exact ⟨β', hle, hr', rfl⟩
            | buildIteratorInTraverse e => exact ⟨β', hle, hr', rfl⟩
            | traverseConfigBuilder => exact ⟨β', hle, hr', rfl⟩
            | keyFromUtf8 => exact ⟨β', hle, hr', rfl⟩
            | u64ToUsize n => exact ⟨β', hle, hr', rfl⟩
          · exact absurd hm (nomiss e')

theorem RT.makeIter {conf : TraverseConfig} {a1 a2 nk nc : Nat} (h : β a1 a2) :
    RT c L ρ β (makeChildKeyIndexIter conf a1 nk nc) (makeChildKeyIndexIter conf a2 nk nc) (fun _ x y => x = y) := by
  unfold makeChildKeyIndexIter
  simp only []
  refine RT.bind (RT.getIndexOfKey h) ?_
  rintro β1 ⟨m, i⟩ _ h1 rfl
  simp only []
  split
  · exact RT.pure rfl
  · exact RT.pure rfl

/-- Corresponding stages of a stream. -/
inductive FrameRel (β : Nat → Nat → Prop) : Frame → Frame → Prop where
  | mk {cf : TraverseConfig} {a1 a2 : Nat} {nf : Bool} {nk : Option (Nat × Nat)} {itf : Option Bool}
      {it : Option (List Nat)} {nky : Option (Nat × Bool)} {nch : Option Nat} : β a1 a2 →
      FrameRel β ⟨cf, a1, nf, nk, itf, it, nky, nch⟩ ⟨cf, a2, nf, nk, itf, it, nky, nch⟩

theorem FrameRel.mono {β' : Nat → Nat → Prop} (h : ∀ x y, β x y → β' x y) {f f' : Frame} (hf : FrameRel β f f') :
    FrameRel β' f f' := by
  cases hf with
  | mk hb => exact .mk (h _ _ hb)

abbrev FramesRel (β : Nat → Nat → Prop) (fs fs' : List Frame) : Prop := List.Forall₂ (FrameRel β) fs fs'

theorem FramesRel.mono {β' : Nat → Nat → Prop} (h : ∀ x y, β x y → β' x y) {f f' : List Frame}
    (hf : FramesRel β f f') : FramesRel β' f f' := List.Forall₂.imp (fun _ _ hx => hx.mono h) hf

inductive PollRel : PollR → PollR → Prop where
  | pending {w g : Bool} : PollRel (.pending w g) (.pending w g)
  | ended {w : Bool} : PollRel (.ready none w) (.ready none w)
  | item {r : Except Err KeyValueData} {a1 a2 : Nat} {w : Bool} :
      PollRel (.ready (some (r, a1)) w) (.ready (some (r, a2)) w)

theorem RT.pollSetup (hρ : ∀ q, L.needs q → ρ q = true) {ready : Bool} {f f' : Frame} (hf : FrameRel β f f') :
    RT c L ρ β (pollSetup ready f) (pollSetup ready f')
      (fun β' x y => PollRel x.1 y.1 ∧ FramesRel β' x.2 y.2) := by
  cases hf with
  | @mk cf a1 a2 nf nk itf it nky nch hb =>
    unfold Hyperbee.pollSetup
    simp only []
    cases nk with
    | none =>
      simp only []
      split
      · exact RT.pure ⟨.pending, .cons (.mk hb) .nil⟩
      · split
        · exact RT.pure ⟨.pending, .cons (.mk hb) .nil⟩
        · refine RT.bind (RT.readNode hb) ?_
          rintro β1 n _ h1 ⟨rfl, _⟩
          exact RT.pure ⟨.pending, .cons (.mk (h1 _ _ hb)) .nil⟩
    | some nkc =>
      obtain ⟨nKeys, nCh⟩ := nkc
      simp only []
      cases it with
      | none =>
        simp only []
        cases itf with
        | none => exact RT.pure ⟨.pending, .cons (.mk hb) .nil⟩
        | some done =>
          cases done with
          | true => exact RT.throw
          | false =>
            simp only []
            split
            · exact RT.pure ⟨.pending, .cons (.mk hb) .nil⟩
            · refine RT.bind (RT.tryResult hρ (RT.makeIter hb)) ?_
              intro β1 x y h1 hxy
              cases x with
              | ok l =>
                cases y with
                | ok l' =>
                  obtain rfl : l = l' := hxy
                  exact RT.pure ⟨.pending, .cons (.mk (h1 _ _ hb)) .nil⟩
                | error _ => exact hxy.elim
              | error e =>
                cases y with
                | ok _ => exact hxy.elim
                | error e' =>
                  obtain rfl : e = e' := hxy
                  exact RT.pure ⟨.item, .cons (.mk (h1 _ _ hb)) .nil⟩
      | some l =>
        cases l with
        | nil => exact RT.pure ⟨.ended, .cons (.mk hb) .nil⟩
        | cons i rest =>
          simp only []
          split
          · exact RT.pure ⟨.pending, .cons (.mk hb) .nil⟩
          · exact RT.pure ⟨.pending, .cons (.mk hb) .nil⟩

theorem RT.poll (hρ : ∀ q, L.needs q → ρ q = true) {ready : Bool} : ∀ {fs fs' : List Frame} {β : Nat → Nat → Prop},
    FramesRel β fs fs' →
    RT c L ρ β (poll ready fs) (poll ready fs') (fun β' x y => PollRel x.1 y.1 ∧ FramesRel β' x.2 y.2) := by
  intro fs
  induction fs with
  | nil =>
    intro fs' β h
    cases h
    exact RT.throw
  | cons f rest ih =>
    intro fs' β h
    cases h with
    | @cons _ f' _ rest' hf hrest =>
      have hf0 := hf
      cases hf with
      | @mk cf a1 a2 nf nk itf it nky nch hb =>
        unfold Hyperbee.poll
        simp only []
        cases nky with
        | some ic =>
          obtain ⟨i, done⟩ := ic
          simp only []
          split
          · exact RT.throw
          · split
            · exact RT.pure ⟨.pending, .cons hf0 hrest⟩
            · refine RT.bind (RT.tryResult hρ (RT.getKeyValue hb)) ?_
              intro β1 x y h1 hxy
              cases x with
              | ok kv =>
                cases y with
                | ok kv' =>
                  obtain rfl : kv = kv' := hxy
                  simp only []
                  split
                  · exact RT.pure ⟨.ended, .cons (.mk (h1 _ _ hb)) (FramesRel.mono h1 hrest)⟩
                  · exact RT.pure ⟨.item, .cons (.mk (h1 _ _ hb)) (FramesRel.mono h1 hrest)⟩
                | error _ => exact hxy.elim
              | error e =>
                cases y with
                | ok _ => exact hxy.elim
                | error e' =>
                  obtain rfl : e = e' := hxy
                  exact RT.pure ⟨.item, .cons (.mk (h1 _ _ hb)) (FramesRel.mono h1 hrest)⟩
        | none =>
          simp only []
          cases nch with
          | some i =>
            simp only []
            split
            · exact RT.pure ⟨.pending, .cons hf0 hrest⟩
            · refine RT.bind (RT.tryResult hρ (RT.getChild hb)) ?_
              intro β1 x y h1 hxy
              cases x with
              | ok ch =>
                cases y with
                | ok ch' => exact RT.pure ⟨.pending, .cons (.mk (h1 _ _ hb)) (.cons (.mk hxy) .nil)⟩
                | error _ => exact hxy.elim
              | error e =>
                cases y with
                | ok _ => exact hxy.elim
                | error e' =>
                  obtain rfl : e = e' := hxy
                  exact RT.pure ⟨.item, .cons (.mk (h1 _ _ hb)) (FramesRel.mono h1 hrest)⟩
          | none =>
            simp only []
            cases hrest with
            | nil => exact RT.pollSetup hρ hf0
            | @cons g g' gs gs' hg hgs =>
              simp only []
              refine RT.bind (ih (.cons hg hgs)) ?_
              rintro β1 ⟨p, r⟩ ⟨p', r'⟩ h1 ⟨hp, hr⟩
              simp only at hp hr
              cases hp with
              | pending => exact RT.pure ⟨.pending, .cons (.mk (h1 _ _ hb)) hr⟩
              | ended => exact RT.pure ⟨.pending, .cons (.mk (h1 _ _ hb)) .nil⟩
              | item => exact RT.pure ⟨.item, .cons (.mk (h1 _ _ hb)) hr⟩

/-- Streams that ended, or stand at corresponding stages. -/
def FinRel (β : Nat → Nat → Prop) (x y : Option (List Frame)) : Prop :=
  (x = none ∧ y = none) ∨ ∃ fs fs', x = some fs ∧ y = some fs' ∧ FramesRel β fs fs'

theorem RT.drive (hρ : ∀ q, L.needs q → ρ q = true) {post : Except Err KeyValueData → M γ}
    (hpost : ∀ β r, RT c L ρ β (post r) (post r) (fun _ x y => x = y)) :
    ∀ (sched : List Bool) {fs fs' : List Frame} {β : Nat → Nat → Prop}, FramesRel β fs fs' →
    RT c L ρ β (drive post sched fs) (drive post sched fs') (fun β' x y => x.1 = y.1 ∧ FinRel β' x.2 y.2) := by
  intro sched
  induction sched with
  | nil =>
    intro fs fs' β h
    exact RT.pure ⟨rfl, .inr ⟨_, _, rfl, rfl, h⟩⟩
  | cons r rs ih =>
    intro fs fs' β h
    simp only [Hyperbee.drive]
    refine RT.bind (RT.poll hρ h) ?_
    rintro β1 ⟨p, r⟩ ⟨p', r'⟩ h1 ⟨hp, hr⟩
    simp only at hp hr
    cases hp with
    | pending => exact ih hr
    | ended => exact RT.pure ⟨rfl, .inl ⟨rfl, rfl⟩⟩
    | item =>
      simp only []
      refine RT.bind (hpost _ _) ?_
      rintro β2 x _ h2 rfl
      refine RT.bind (ih (FramesRel.mono h2 hr)) ?_
      rintro β3 ⟨xs, fin⟩ ⟨xs', fin'⟩ h3 ⟨he, hfin⟩
      simp only at he hfin
      subst he
      exact RT.pure ⟨rfl, hfin⟩

theorem RT.traverse (hL : Closed c L) (h : Rooted c L) {conf : TraverseConfig} :
    RT c L ρ β (traverse conf) (traverse conf) FramesRel := by
  unfold Hyperbee.traverse
  refine RT.bind (RT.getRoot hL h (by simp)) ?_
  rintro β1 _ _ h1 (⟨rfl, rfl⟩ | ⟨a, a', rfl, rfl, ha⟩)
  · exact RT.throw
  · exact RT.pure (.cons (.mk ha) .nil)

theorem RT.collect (hρ : ∀ q, L.needs q → ρ q = true) (hL : Closed c L) (h : Rooted c L) {conf : TraverseConfig}
    {sched : List Bool} :
    RT c L ρ β (collect sched conf) (collect sched conf) (fun β' x y => x.1 = y.1 ∧ FinRel β' x.2 y.2) := by
  unfold Hyperbee.collect
  refine RT.bind (RT.traverse hL h) ?_
  intro β1 fs fs' h1 hfs
  exact RT.drive hρ (fun β r => RT.pure rfl) sched hfs

theorem RT.prefixedCollect (hρ : ∀ q, L.needs q → ρ q = true) (hL : Closed c L) (h : Rooted c L) {conf : TraverseConfig}
    {sched : List Bool} {p : Prefixed} :
    RT c L ρ β (p.collect sched conf) (p.collect sched conf) (fun β' x y => x.1 = y.1 ∧ FinRel β' x.2 y.2) := by
  unfold Prefixed.collect
  refine RT.bind (RT.traverse hL h) ?_
  intro β1 fs fs' h1 hfs
  refine RT.drive hρ (fun β r => ?_) sched hfs
  cases r with
  | error e => exact RT.pure rfl
  | ok x =>
    simp only [Prefixed.strip]
    split
    · exact RT.pure rfl
    · exact RT.throw

theorem RT.traverseSession (hρ : ∀ q, L.needs q → ρ q = true) (hL : Closed c L) (h : Rooted c L) {b : TraverseConfigBuilder}
    {sched : List Bool} :
    RT c L ρ β (traverseSession b sched) (traverseSession b sched) (fun _ x y => x = y) := by
  unfold Hyperbee.traverseSession
  split
  · exact RT.throw
  · refine RT.bind (RT.collect hρ hL h) ?_
    rintro β3 ⟨xs, fin⟩ ⟨xs', fin'⟩ h3 ⟨he, hfin⟩
    simp only at he hfin
    subst he
    rcases hfin with ⟨rfl, rfl⟩ | ⟨_, _, rfl, rfl, _⟩
    · exact RT.pure rfl
    · exact RT.pure rfl

end

/-! ## Calls on two handles of one core -/

theorem Rep.unique {N : Child → Option Node} : ∀ (t : T) {t' : T}, Rep N t → Rep N t' → t.ref = t'.ref → t = t' := by
  intro t
  induction t using T.ind with
  | h r ks ts ih =>
    intro t' h h' he
    obtain ⟨r', ks', ts'⟩ := t'
    cases h with
    | mk hn hk =>
      cases h' with
      | mk hn' hk' =>
        simp only [T.ref] at he
        subst he
        rw [hn] at hn'
        simp only [Option.some.injEq, Node.mk.injEq] at hn'
        obtain ⟨rfl, hm⟩ := hn'
        have : ts = ts' := by
          clear hn
          induction ts generalizing ts' with
          | nil =>
            cases ts' with
            | nil => rfl
            | cons _ _ => simp at hm
          | cons u us ihl =>
            cases ts' with
            | nil => simp at hm
            | cons u' us' =>
              simp only [List.map_cons, List.cons.injEq] at hm
              rw [ih u (by simp) (hk u (by simp)) (hk' u' (by simp)) hm.1,
                ihl (fun t ht => ih t (List.mem_cons_of_mem _ ht)) us' (fun t ht => hk t (List.mem_cons_of_mem _ ht))
                  (fun t ht => hk' t (List.mem_cons_of_mem _ ht)) hm.2]
        rw [this]

theorem TreeAt.unique {c : List Bytes} {H H' : Nat} {t t' : T} (h : TreeAt c H t) (h' : TreeAt c H' t') : t = t' :=
  Rep.unique t h.rep h'.rep (h.ref.trans h'.ref.symm)

theorem mem_flatL {q : Nat} : ∀ {ks : List Nat} {ts : List T}, (q ∈ ks ∨ ∃ u ∈ ts, q ∈ u.flat) → q ∈ flatL ks ts
  | ks, [], h => by
    rw [flatL_nil]
    rcases h with h | ⟨u, hu, _⟩
    · exact h
    · simp at hu
  | [], t :: ts, h => by
    rcases h with h | ⟨u, hu, hq⟩
    · simp at h
    · simp only [flatL, List.mem_append]
      rcases List.mem_cons.mp hu with rfl | hu
      · exact .inl hq
      · exact .inr (mem_flatL (.inr ⟨u, hu, hq⟩))
  | k :: ks, t :: ts, h => by
    simp only [flatL, List.mem_append, List.mem_cons]
    rcases h with h | ⟨u, hu, hq⟩
    · rcases List.mem_cons.mp h with rfl | h
      · exact .inr (.inl rfl)
      · exact .inr (.inr (mem_flatL (.inl h)))
    · rcases List.mem_cons.mp hu with rfl | hu
      · exact .inl hq
      · exact .inr (.inr (mem_flatL (.inr ⟨u, hu, hq⟩)))

theorem TreeAt.closed {c : List Bytes} {H : Nat} {t : T} (h : TreeAt c H t) : Closed c ⟨(· ∈ t.refs), (· ∈ t.flat)⟩ := by
  have key : ∀ u : T, Rep (nodeAt c) u → (∀ q ∈ u.flat, q ∈ t.flat) → (∀ r ∈ u.refs, r ∈ t.refs) →
      ∀ r ∈ u.refs, ∃ n, nodeAt c r = some n ∧ NodeOK c ⟨(· ∈ t.refs), (· ∈ t.flat)⟩ n := by
    intro u
    induction u using T.ind with
    | h r0 ks ts ih =>
      intro hr hf hs r hm
      cases hr with
      | mk hn hk =>
        simp only [T.refs, List.mem_cons] at hm
        rcases hm with rfl | hm
        · refine ⟨_, hn, ?_, ?_⟩
          · intro q hq
            left
            have hqt := hf q (by simp only [T.flat]; exact mem_flatL (.inl hq))
            exact ⟨h.dfd q hqt, hqt⟩
          · intro r' hr'
            left
            obtain ⟨u, hu, rfl⟩ := List.mem_map.mp hr'
            exact hs _ (by simp only [T.refs, List.mem_cons]; exact .inr (mem_refsL.mpr ⟨u, hu, u.ref_mem_refs⟩))
        · obtain ⟨u, hu, hm⟩ := mem_refsL.mp hm
          refine ih u hu (hk u hu) ?_ ?_ r hm
          · intro q hq
            exact hf q (by simp only [T.flat]; exact mem_flatL (.inr ⟨u, hu, hq⟩))
          · intro r' hr'
            exact hs _ (by simp only [T.refs, List.mem_cons]; exact .inr (mem_refsL.mpr ⟨u, hu, hr'⟩))
  intro r hr
  exact key t h.rep (fun q hq => hq) (fun r hr => hr) r hr

/-- A handle some blocks of which may be missing locally, consistent with the core. -/
structure Sparse (s : St) : Prop where
  wf : SWF s.full
  coh : ∀ H t, TreeAt s.core H t → Coh s (· ∈ t.refs)

theorem Holds.sparse {s : St} {d : Db} (h : Holds s d) : Sparse s := by
  refine ⟨⟨fun _ => rfl, h.wf.ent, h.wf.lt, h.wf.inj⟩, fun H t ht => ?_⟩
  rcases h.store with hb | ⟨H', t', ht', hc, _⟩
  · have := ht.two
    have := hb.1
    omega
  · obtain rfl := ht.unique ht'
    exact hc

theorem Sparse.open (c : List Bytes) : Sparse (St.open c) := ⟨open_wf c, fun _ _ _ => open_coh c _⟩

/-- Block `q` holds a node or a key of the tree. -/
def InTree (c : List Bytes) (q : Nat) : Prop := ∃ H t, TreeAt c H t ∧ (q ∈ t.flat ∨ ∃ i, ⟨q, i⟩ ∈ t.refs)

/-- Nothing is in use. -/
def Live.none : Live := ⟨fun _ => False, fun _ => False⟩

theorem Live.not_none (q : Nat) : ¬ Live.none.needs q := by rintro (h | ⟨_, h⟩) <;> exact h

/-- A handle and a sparse one on the same core are related. -/
theorem Holds.rel {s1 s2 : St} {d : Db} (h : Holds s1 d) (h2 : Sparse s2) (hc : s2.core = s1.core)
    (ap : s2.io.appendOk = true) :
    ∃ L β, Closed s1.core L ∧ Rooted s1.core L ∧ Rel s1.core L s2.io.readable β s1 s2 ∧
      ∀ q, L.needs q → InTree s1.core q := by
  rcases h.store with hb | ⟨H, t, ht, hcoh, _⟩
  · refine ⟨.none, _, fun r hr => hr.elim, .inl hb.1,
      Rel.of_coh hc (h.ok.trans ap.symm) h.wf h2.wf (fun r hr => hr.elim) (fun r hr => hr.elim) (fun r hr => hr.elim),
      fun q hq => (Live.not_none q hq).elim⟩
  · refine ⟨⟨(· ∈ t.refs), (· ∈ t.flat)⟩, _, ht.closed, .inr ?_,
      Rel.of_coh hc (h.ok.trans ap.symm) h.wf h2.wf ht.closed hcoh (h2.coh H t (by rw [hc]; exact ht)),
      fun q hq => ⟨H, t, ht, hq⟩⟩
    have := t.ref_mem_refs
    rwa [ht.ref] at this

theorem Same.reply {c : List Bytes} {L : Live} {ρ : Nat → Bool} (hρ : ∀ q, L.needs q → ρ q = true) {m : M α}
    {s1 s2 : St} (h : Same c L ρ (m s1) (m s2)) (f : α → Reply) :
    (replyOf m f s1).1 = (replyOf m f s2).1 ∧ (replyOf m f s1).2.core = (replyOf m f s2).2.core := by
  unfold replyOf
  cases h1 : m s1 with
  | mk r1 t1 =>
    cases h2 : m s2 with
    | mk r2 t2 =>
      rw [h1, h2] at h
      rcases h with ⟨h, hc⟩ | ⟨e, _, q, _, _, hq, hn⟩
      · simp only at h hc
        subst h
        cases r1 <;> exact ⟨rfl, hc⟩
      · rw [hρ q hn] at hq; cases hq

section

variable {c : List Bytes} {L : Live} {ρ : Nat → Bool} {β : Nat → Nat → Prop} {s1 s2 : St}

theorem putCAS_same (h : Rel c L ρ β s1 s2) (hrt : Rooted c L) (hok : s1.io.appendOk = true) (k : Bytes)
    (v : Option Bytes) (cas : Option KeyValueData → KeyValueData → Bool) :
    Same c L ρ (putCompareAndSwap k v cas s1) (putCompareAndSwap k v cas s2) ∨
      ∃ c', Same c' .none ρ (putCompareAndSwap k v cas s1) (putCompareAndSwap k v cas s2) := by
  by_cases h0 : c = []
  · right
    have l1 : s1.core.length = 0 := by rw [h.c1, h0]; rfl
    have l2 : s2.core.length = 0 := by rw [h.c2, h0]; rfl
    have hp : ∀ s : St, s.core.length = 0 → s.io.appendOk = true →
        putCompareAndSwap k v cas s = (putAfter k v cas none >>= commitPrepared) s.withHeader := by
      intro s hl ho
      unfold putCompareAndSwap
      rw [putPrepare_eq, bind_run, bind_ok (getRoot_zero hl ho), bind_run]
    rw [hp s1 l1 hok, hp s2 l2 (h.ap ▸ hok)]
    refine ⟨c ++ [headerBlock], ?_⟩
    have hr : Rel (c ++ [headerBlock]) .none ρ (fun _ _ => False) s1.withHeader s2.withHeader :=
      ⟨by simp only [St.withHeader, h.c1], by simp only [St.withHeader, h.c2], h.rd, h.ap, h.w1.append _,
        (h.w2.append _ : SWF { s2.full with core := s2.full.core ++ [headerBlock] }), fun r hr => hr.elim,
        fun _ _ hf => hf.elim, fun _ _ _ hf => hf.elim, fun _ _ _ hf => hf.elim, fun _ _ _ hf => hf.elim,
        fun _ _ hf => hf.elim, fun _ _ hf => hf.elim⟩
    exact RT.thenH (RT.putAfter (.inl ⟨rfl, rfl⟩)) (fun β' p p' hpp => HT.commitPrepared hpp) hr
  · left
    exact RT.thenH (RT.putPrepare h.closed hrt h0) (fun β' p p' hpp => HT.commitPrepared hpp) h

theorem delCAS_same (h : Rel c L ρ β s1 s2) (hrt : Rooted c L) (k : Bytes) (cas : KeyValueData → Bool) :
    Same c L ρ (delCompareAndSwap k cas s1) (delCompareAndSwap k cas s2) :=
  RT.thenH (RT.delPrepare h.closed hrt) (fun β' p p' hpp => HT.commitPrepared hpp) h

theorem createHeader_same (h : Rel c L ρ β s1 s2) (m : Option Metadata) :
    Same c L ρ (createHeader m s1) (createHeader m s2) := by
  refine RT.thenH (Q := fun _ a a' => a = a') (m1 := version) (m2 := version)
    (RT.version.mono fun β' a a' _ hq => hq.1) (fun β' a a' he => ?_) h
  subst he
  split
  · exact HT.throw
  · exact HT.coreAppend

end

/-- A handle that lacks only blocks outside of the tree gives the same replies as one that lacks none. -/
theorem sparse_same {s1 s2 : St} {d1 : Db} (h1 : Holds s1 d1) (h2 : Sparse s2) (hc : s2.core = s1.core)
    (ap : s2.io.appendOk = true) (hin : ∀ q, InTree s1.core q → s2.io.readable q = true) (cmd : Cmd) :
    (exec cmd s1).1 = (exec cmd s2).1 ∧ (exec cmd s1).2.core = (exec cmd s2).2.core := by
  obtain ⟨L, β, hcl, hrt, hr, hL⟩ := h1.rel h2 hc ap
  have hρ : ∀ q, L.needs q → s2.io.readable q = true := fun q hq => hin q (hL q hq)
  have put_same : ∀ k v cas, ∃ c' L', (∀ q, Live.needs L' q → s2.io.readable q = true) ∧
      Same c' L' s2.io.readable (putCompareAndSwap k v cas s1) (putCompareAndSwap k v cas s2) := by
    intro k v cas
    rcases putCAS_same hr hrt h1.ok k v cas with h | ⟨c', h⟩
    · exact ⟨_, L, hρ, h⟩
    · exact ⟨c', .none, fun q hq => (Live.not_none q hq).elim, h⟩
  cases cmd with
  | version => simp only [exec]; exact Same.reply hρ (RT.same (RT.version.mono fun β' a a' _ hq => hq.1) hr) _
  | get k => simp only [exec]; exact Same.reply hρ (RT.same (RT.get hcl hrt k) hr) _
  | put k v =>
    simp only [exec]
    obtain ⟨c', L', hρ', hs⟩ := put_same k v (fun _ _ => true)
    refine Same.reply hρ' (c := c') ?_ _
    unfold put
    refine Same.bind_pure hs (fun a => ?_) rfl rfl
    obtain ⟨old, new⟩ := a
    cases new with
    | none => exact .inr ⟨_, fun s => rfl⟩
    | some n => exact .inl ⟨_, fun s => rfl⟩
  | putCas k v cas =>
    simp only [exec]
    obtain ⟨c', L', hρ', hs⟩ := put_same k v cas
    exact Same.reply hρ' hs _
  | del k =>
    simp only [exec]
    refine Same.reply hρ (c := s1.core) ?_ _
    unfold del
    refine Same.bind_pure (delCAS_same hr hrt k _) (fun a => ?_) rfl rfl
    cases a with
    | none => exact .inl ⟨_, fun s => rfl⟩
    | some x =>
      obtain ⟨b, q⟩ := x
      cases b
      · exact .inr ⟨_, fun s => rfl⟩
      · exact .inl ⟨_, fun s => rfl⟩
  | delCas k cas => simp only [exec]; exact Same.reply hρ (delCAS_same hr hrt k cas) _
  | createHeader m => simp only [exec]; exact Same.reply hρ (createHeader_same hr m) _
  | traverse b sched => simp only [exec]; exact Same.reply hρ (RT.same (RT.traverseSession hρ hcl hrt) hr) _
  | reopen => exact ⟨rfl, hc.symm⟩

/-- **Two handles on the same core give the same replies and append the same bytes.** -/
theorem calls_same {s1 s2 : St} {d1 d2 : Db} (h1 : Holds s1 d1) (h2 : Holds s2 d2) (hc : s2.core = s1.core)
    (cmd : Cmd) :
    (exec cmd s1).1 = (exec cmd s2).1 ∧ (exec cmd s1).2.core = (exec cmd s2).2.core :=
  sparse_same h1 h2.sparse hc h2.ok (fun q _ => h2.wf.rd q) cmd

/-- Two handles on the same core give the same replies for ever after. -/
theorem runs_same : ∀ (cs : List Cmd) {s1 s2 : St} {d1 d2 : Db}, Holds s1 d1 → Holds s2 d2 → s2.core = s1.core →
    runReplies cs s1 = runReplies cs s2 ∧ (runSt cs s1).core = (runSt cs s2).core := by
  intro cs
  induction cs with
  | nil => intro s1 s2 d1 d2 _ _ hc; exact ⟨rfl, hc.symm⟩
  | cons c cs ih =>
    intro s1 s2 d1 d2 h1 h2 hc
    obtain ⟨e1, e2⟩ := calls_same h1 h2 hc c
    obtain ⟨i1, i2⟩ := ih (exec_refines h1 c).2 (exec_refines h2 c).2 e2.symm
    refine ⟨?_, i2⟩
    simp only [runReplies, run]
    exact congrArg₂ List.cons e1 i1

end Hyperbee
