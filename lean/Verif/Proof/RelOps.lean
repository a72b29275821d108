import Verif.Proof.Rel
import Mathlib.Data.List.Forall2
/-!
# Two handles on the same core: every operation runs in step
-/

namespace Hyperbee

abbrev PathRel (β : Nat → Nat → Prop) (p1 p2 : NodePath) : Prop :=
  List.Forall₂ (fun x y => β x.1 y.1 ∧ x.2 = y.2) p1 p2

theorem PathRel.mono {β β' : Nat → Nat → Prop} (h : ∀ x y, β x y → β' x y) {p1 p2 : NodePath}
    (hp : PathRel β p1 p2) : PathRel β' p1 p2 :=
  List.Forall₂.imp (fun _ _ hx => ⟨h _ _ hx.1, hx.2⟩) hp

theorem PathRel.mono' {β β' : Nat → Nat → Prop} {p1 p2 : NodePath}
    (hp : PathRel β p1 p2) (h : ∀ x y, β x y → β' x y) : PathRel β' p1 p2 := PathRel.mono h hp

structure ChRel (c : List Bytes) (β : Nat → Nat → Prop) (ch ch' : Changes) : Prop where
  seq : ch.seq = ch'.seq
  key : ch.key = ch'.key
  value : ch.value = ch'.value
  nodes : List.Forall₂ β ch.nodes ch'.nodes
  new : ch.seq = c.length

theorem ChRel.mono {c : List Bytes} {β β' : Nat → Nat → Prop} (h : ∀ x y, β x y → β' x y) {p1 p2 : Changes}
    (hp : ChRel c β p1 p2) : ChRel c β' p1 p2 :=
  ⟨hp.seq, hp.key, hp.value, List.Forall₂.imp (fun _ _ hx => h _ _ hx) hp.nodes, hp.new⟩

section

variable {c : List Bytes} {L : Live} {ρ : Nat → Bool} {β : Nat → Nat → Prop}

theorem ChRel.addNode {ch ch' : Changes} (h : ChRel c β ch ch') {a a' : Nat} (ha : β a a') :
    ChRel c β (ch.addNode a).1 (ch'.addNode a').1 ∧ (ch.addNode a).2 = (ch'.addNode a').2 ∧
      c.length ≤ (ch.addNode a).2.seq := by
  refine ⟨⟨h.seq, h.key, h.value, ?_, h.new⟩, ?_, ?_⟩
  · exact List.rel_append h.nodes (.cons ha .nil)
  · simp only [Changes.addNode, h.seq, List.Forall₂.length_eq h.nodes]
  · simp only [Changes.addNode, h.new]; exact Nat.le_refl _

theorem NodeOK.keys {n : Node} (h : NodeOK c L n) {ks : List Nat}
    (hk : ∀ q ∈ ks, ((∃ b, blockAt c q = some b) ∧ L.blocks q) ∨ c.length ≤ q) : NodeOK c L { n with keys := ks } :=
  ⟨hk, h.2⟩

theorem NodeOK.children {n : Node} (h : NodeOK c L n) {cs : List Child}
    (hk : ∀ r ∈ cs, L r ∨ c.length ≤ r.seq) : NodeOK c L { n with children := cs } :=
  ⟨h.1, hk⟩

/-- `bind` of a conditional whose continuation was pushed into the branches. -/
theorem RT.iteBind {p : Prop} {inst : Decidable p} {m1 n1 : M α} {m2 n2 : M α'} {f1 : α → M γ} {f2 : α' → M γ'}
    {Q : (Nat → Nat → Prop) → α → α' → Prop} {R : (Nat → Nat → Prop) → γ → γ' → Prop}
    (h : RT c L ρ β (if p then m1 else n1) (if p then m2 else n2) Q)
    (hf : ∀ β' a a', (∀ x y, β x y → β' x y) → Q β' a a' → RT c L ρ β' (f1 a) (f2 a') R) :
    RT c L ρ β (if p then m1 >>= f1 else n1 >>= f1) (if p then m2 >>= f2 else n2 >>= f2) R := by
  have := RT.bind h hf
  split
  · simpa [*] using this
  · simpa [*] using this

theorem RT.getChild {a1 a2 i : Nat} (h : β a1 a2) :
    RT c L ρ β (getChild a1 i) (getChild a2 i) (fun β' x y => β' x y) := by
  suffices Closed c L → RT c L ρ β (Hyperbee.getChild a1 i) (Hyperbee.getChild a2 i) (fun β' x y => β' x y) from
    fun s1 s2 hr => this hr.closed s1 s2 hr
  intro hcl
  unfold Hyperbee.getChild
  refine RT.bind (RT.readNode h) ?_
  rintro β1 n _ h1 ⟨rfl, ok⟩
  refine RT.bind RT.orPanicE ?_
  rintro β2 r _ h2 ⟨rfl, hr⟩
  have hrok := ok.2 r (List.mem_of_getElem? hr)
  have hq : ((∃ b, blockAt c r.seq = some b) ∧ L.needs r.seq) ∨ c.length ≤ r.seq := by
    rcases hrok with hL | hle
    · obtain ⟨m, hm, _⟩ := hcl r hL
      left
      cases hb : blockAt c r.seq with
      | none => simp [nodeAt, hb] at hm
      | some b => exact ⟨⟨b, rfl⟩, .inr ⟨r.offset, hL⟩⟩
    · exact .inr hle
  refine RT.bind (RT.blocksGet hq) ?_
  rintro β3 e e' h3 ⟨_, _, hlen, ⟨b, hb⟩, hn⟩
  have hL : L r := by
    rcases hrok with hL | hle
    · exact hL
    · have := blockAt_lt hb; omega
  refine RT.orPanic ?_ ?_
  · rw [Bool.eq_iff_iff]; simp [hlen]
  · intro x y hx hy
    exact hn r.offset hL x y hx hy

theorem RT.isLeaf {a1 a2 : Nat} (h : β a1 a2) :
    RT c L ρ β (isLeaf a1) (isLeaf a2) (fun _ x y => x = y) := by
  unfold Hyperbee.isLeaf
  refine RT.bind (RT.readNode h) ?_
  rintro β1 n _ h1 ⟨rfl, ok⟩
  exact RT.pure rfl

theorem RT.getKeyValue {a1 a2 i : Nat} (h : β a1 a2) :
    RT c L ρ β (getKeyValue a1 i) (getKeyValue a2 i) (fun _ x y => x = y) := by
  unfold Hyperbee.getKeyValue
  refine RT.bind (RT.readNode h) ?_
  rintro β1 n _ h1 ⟨rfl, ok⟩
  refine RT.bind RT.orPanicE ?_
  rintro β2 q _ h2 ⟨rfl, hq⟩
  have hqok : ((∃ b, blockAt c q = some b) ∧ L.needs q) ∨ c.length ≤ q :=
    (ok.1 q (List.mem_of_getElem? hq)).imp_left fun h => ⟨h.1, .inl h.2⟩
  refine RT.bind (RT.blocksGet hqok) ?_
  rintro β3 e e' h3 ⟨hk, _⟩
  refine RT.bind (RT.blocksGet hqok) ?_
  rintro β4 e4 e4' h4 ⟨_, hv, _⟩
  exact RT.pure (by rw [hk, hv])

theorem RT.searchLoop {a1 a2 : Nat} {key : LimitValue} (h : β a1 a2) : ∀ (fuel low high : Nat),
    RT c L ρ β (searchLoop a1 key fuel low high) (searchLoop a2 key fuel low high) (fun _ x y => x = y) := by
  intro fuel
  induction fuel generalizing β with
  | zero => intro low high; exact RT.throw
  | succ fuel ih =>
    intro low high
    unfold Hyperbee.searchLoop
    split
    · refine RT.bind (RT.getKeyValue h) ?_
      rintro β1 kv _ h1 rfl
      split
      · exact RT.pure rfl
      · split
        · split
          · exact RT.pure rfl
          · exact ih (h1 _ _ h) _ _
        · exact ih (h1 _ _ h) _ _
    · exact RT.pure rfl

theorem RT.getIndexOfKey {a1 a2 : Nat} {key : LimitValue} (h : β a1 a2) :
    RT c L ρ β (getIndexOfKey a1 key) (getIndexOfKey a2 key) (fun _ x y => x = y) := by
  unfold Hyperbee.getIndexOfKey
  refine RT.bind (RT.readNode h) ?_
  rintro β1 n _ h1 ⟨rfl, ok⟩
  simp only []
  split
  · exact RT.pure rfl
  · exact RT.searchLoop (h1 _ _ h) _ _ _

theorem RT.nearestLoop {key : LimitValue} : ∀ (fuel : Nat) {β : Nat → Nat → Prop} {a1 a2 : Nat} {p1 p2 : NodePath},
    β a1 a2 → PathRel β p1 p2 →
    RT c L ρ β (nearestLoop key fuel a1 p1) (nearestLoop key fuel a2 p2)
      (fun β' x y => x.1 = y.1 ∧ PathRel β' x.2 y.2 ∧ x.2 ≠ []) := by
  intro fuel
  induction fuel with
  | zero => intros; exact RT.throw
  | succ fuel ih =>
    intro β a1 a2 p1 p2 h hp
    unfold Hyperbee.nearestLoop
    refine RT.bind (RT.getIndexOfKey h) ?_
    rintro β1 ⟨m, i⟩ _ h1 rfl
    simp only []
    refine RT.bind (RT.isLeaf (h1 _ _ h)) ?_
    rintro β2 lf _ h2 rfl
    have hp2 : PathRel β2 ((a1, i) :: p1) ((a2, i) :: p2) :=
      .cons ⟨h2 _ _ (h1 _ _ h), rfl⟩ (PathRel.mono (fun x y hx => h2 _ _ (h1 _ _ hx)) hp)
    split
    · exact RT.pure ⟨rfl, hp2, by simp⟩
    · refine RT.bind (RT.getChild (h2 _ _ (h1 _ _ h))) ?_
      intro β3 b1 b2 h3 hb
      exact ih hb (hp2.mono h3)

theorem RT.nearestNode {a1 a2 : Nat} {key : LimitValue} (h : β a1 a2) :
    RT c L ρ β (nearestNode a1 key) (nearestNode a2 key)
      (fun β' x y => x.1 = y.1 ∧ PathRel β' x.2 y.2 ∧ x.2 ≠ []) := by
  unfold Hyperbee.nearestNode
  refine RT.bind RT.descentFuel ?_
  rintro β1 n _ h1 rfl
  exact RT.nearestLoop _ (h1 _ _ h) .nil

/-! ## Vectors -/

theorem vecSplice_mem {l l' new : List α} {i j : Nat} (h : vecSplice l i j new = some l') {x : α} (hx : x ∈ l') :
    x ∈ l ∨ x ∈ new := by
  unfold vecSplice at h
  split at h
  · cases h
    simp only [List.mem_append] at hx
    rcases hx with (hx | hx) | hx
    · exact .inl (List.mem_of_mem_take hx)
    · exact .inr hx
    · exact .inl (List.mem_of_mem_drop hx)
  · cases h

theorem vecSet_mem {l l' : List α} {i : Nat} {y : α} (h : vecSet l i y = some l') {x : α} (hx : x ∈ l') :
    x ∈ l ∨ x = y := by
  unfold vecSet at h
  split at h
  · cases h; exact List.mem_or_eq_of_mem_set hx
  · cases h

theorem vecRemove_mem {l l' : List α} {i : Nat} {y : α} (h : vecRemove l i = some (y, l')) :
    y ∈ l ∧ ∀ x ∈ l', x ∈ l := by
  unfold vecRemove at h
  split at h
  · rename_i a ha
    cases h
    refine ⟨List.mem_of_getElem? ha, fun x hx => ?_⟩
    simp only [List.mem_append] at hx
    rcases hx with hx | hx
    · exact List.mem_of_mem_take hx
    · exact List.mem_of_mem_drop hx
  · cases h

theorem vecInsert_mem {l l' : List α} {i : Nat} {y : α} (h : vecInsert l i y = some l') {x : α} (hx : x ∈ l') :
    x ∈ l ∨ x = y := by
  unfold vecInsert at h
  split at h
  · cases h
    simp only [List.mem_append, List.mem_cons] at hx
    rcases hx with hx | hx | hx
    · exact .inl (List.mem_of_mem_take hx)
    · exact .inr hx
    · exact .inl (List.mem_of_mem_drop hx)
  · cases h

theorem vecPop_mem {l l' : List α} {y : α} (h : vecPop l = some (y, l')) : y ∈ l ∧ ∀ x ∈ l', x ∈ l := by
  unfold vecPop at h
  split at h
  · rename_i a ha
    cases h
    exact ⟨List.mem_of_getLast? ha, fun x hx => (List.dropLast_sublist l).mem hx⟩
  · cases h

theorem childrenInsert_mem {l l' new : List Child} {i : Nat} (h : childrenInsert l i new = some l') {x : Child}
    (hx : x ∈ l') : x ∈ l ∨ x ∈ new := by
  unfold childrenInsert at h
  split at h
  · cases h; exact .inl hx
  · exact vecSplice_mem h hx

/-! ## Writing -/

theorem RT.nodeInsert {a1 a2 k start stop : Nat} {cs : List Child} (h : β a1 a2)
    (hk : ((∃ b, blockAt c k = some b) ∧ L.blocks k) ∨ c.length ≤ k) (hcs : ∀ r ∈ cs, L r ∨ c.length ≤ r.seq) :
    RT c L ρ β (nodeInsert a1 k cs start stop) (nodeInsert a2 k cs start stop) (fun _ _ _ => True) := by
  unfold Hyperbee.nodeInsert
  refine RT.bind (RT.readNode h) ?_
  rintro β1 n _ h1 ⟨rfl, ok⟩
  refine RT.bind RT.orPanicE ?_
  rintro β2 ks _ h2 ⟨rfl, hks⟩
  refine RT.bind RT.orPanicE ?_
  rintro β3 cs' _ h3 ⟨rfl, hcs'⟩
  refine RT.writeNode (h3 _ _ (h2 _ _ (h1 _ _ h))) ⟨?_, ?_⟩
  · intro q hq
    rcases vecSplice_mem hks hq with hq | hq
    · exact ok.1 q hq
    · rw [List.mem_singleton.mp hq]; exact hk
  · intro r hr
    rcases childrenInsert_mem hcs' hr with hr | hr
    · exact ok.2 r hr
    · exact hcs r hr

theorem RT.setChild {a1 a2 i : Nat} {r : Child} (h : β a1 a2) (hr : L r ∨ c.length ≤ r.seq) :
    RT c L ρ β (setChild a1 i r) (setChild a2 i r) (fun _ _ _ => True) := by
  unfold Hyperbee.setChild
  refine RT.bind (RT.readNode h) ?_
  rintro β1 n _ h1 ⟨rfl, ok⟩
  refine RT.bind RT.orPanicE ?_
  rintro β2 cs _ h2 ⟨rfl, hcs⟩
  refine RT.writeNode (h2 _ _ (h1 _ _ h)) (ok.children ?_)
  intro x hx
  rcases vecSet_mem hcs hx with hx | rfl
  · exact ok.2 x hx
  · exact hr

theorem RT.propagate : ∀ {p1 p2 : NodePath} {β : Nat → Nat → Prop} {ch ch' : Changes} {r : Child},
    PathRel β p1 p2 → ChRel c β ch ch' → (L r ∨ c.length ≤ r.seq) →
    RT c L ρ β (propagate ch p1 r) (propagate ch' p2 r) (fun β' x y => ChRel c β' x y) := by
  intro p1
  induction p1 with
  | nil =>
    intro p2 β ch ch' r hp hc hr
    cases hp
    exact RT.pure hc
  | cons x p ih =>
    intro p2 β ch ch' r hp hc hr
    obtain ⟨a1, i⟩ := x
    cases hp with
    | @cons _ y _ p' hxy hpp =>
      obtain ⟨a2, i'⟩ := y
      obtain ⟨hb, rfl⟩ := hxy
      simp only [Hyperbee.propagate]
      refine RT.bind (RT.setChild hb hr) ?_
      intro β1 _ _ h1 _
      obtain ⟨q1, q2, q3⟩ := (hc.mono h1).addNode (h1 _ _ hb)
      have := ih (r := (ch.addNode a1).2) (PathRel.mono' hpp h1) q1 (.inr q3)
      rw [q2] at this
      rw [q2]
      exact this

theorem RT.split {a1 a2 : Nat} (h : β a1 a2) :
    RT c L ρ β (split a1) (split a2) (fun β' x y => β' x.1 y.1 ∧ x.2.1 = y.2.1 ∧ β' x.2.2 y.2.2 ∧
      (((∃ b, blockAt c x.2.1 = some b) ∧ L.blocks x.2.1) ∨ c.length ≤ x.2.1)) := by
  unfold Hyperbee.split
  refine RT.bind (RT.readNode h) ?_
  rintro β1 n _ h1 ⟨rfl, ok⟩
  refine RT.bind RT.orPanicE ?_
  rintro β2 ⟨mid, rest⟩ _ h2 ⟨rfl, hm⟩
  obtain ⟨hm1, hm2⟩ := vecRemove_mem hm
  simp only []
  refine RT.bind (RT.writeNode (h2 _ _ (h1 _ _ h)) ⟨by simp, by simp⟩) ?_
  intro β3 _ _ h3 _
  refine RT.bind (RT.alloc ⟨fun q hq => ok.1 q (List.mem_of_mem_take hq),
    fun r hr => ok.2 r (List.mem_of_mem_take hr)⟩) ?_
  intro β4 l l' h4 hl
  refine RT.bind (RT.alloc ⟨fun q hq => ok.1 q (List.mem_of_mem_drop (hm2 q hq)),
    fun r hr => ok.2 r (List.mem_of_mem_drop hr)⟩) ?_
  intro β5 r r' h5 hr
  exact RT.pure ⟨h5 _ _ hl, rfl, hr, ok.1 mid (List.mem_of_mem_drop hm1)⟩

theorem RT.putLoop {matched : Bool} : ∀ {p1 p2 : NodePath} {β : Nat → Nat → Prop} {ch ch' : Changes} {k : Nat}
    {cs : List Child}, PathRel β p1 p2 → ChRel c β ch ch' → (((∃ b, blockAt c k = some b) ∧ L.blocks k) ∨ c.length ≤ k) →
    (∀ r ∈ cs, L r ∨ c.length ≤ r.seq) →
    RT c L ρ β (putLoop matched p1 ch k cs) (putLoop matched p2 ch' k cs) (fun β' x y => ChRel c β' x y) := by
  intro p1
  induction p1 with
  | nil =>
    intro p2 β ch ch' k cs hp hc hk hcs
    cases hp
    simp only [Hyperbee.putLoop]
    refine RT.bind (RT.alloc ⟨by simpa using hk, hcs⟩) ?_
    intro β1 a a' h1 ha
    exact RT.pure ((hc.mono h1).addNode ha).1
  | cons x p ih =>
    intro p2 β ch ch' k cs hp hc hk hcs
    obtain ⟨a1, i⟩ := x
    cases hp with
    | @cons _ y _ p' hxy hpp =>
      obtain ⟨a2, i'⟩ := y
      obtain ⟨hb, rfl⟩ := hxy
      simp only [Hyperbee.putLoop]
      refine RT.bind (RT.readNode hb) ?_
      rintro β1 n _ h1 ⟨rfl, ok⟩
      split
      · refine RT.bind (RT.nodeInsert (h1 _ _ hb) hk hcs) ?_
        intro β2 _ _ h2 _
        obtain ⟨q1, q2, q3⟩ := (hc.mono (fun x y h => h2 _ _ (h1 x y h))).addNode (h2 _ _ (h1 _ _ hb))
        have he : p.isEmpty = p'.isEmpty := by cases hpp <;> rfl
        rw [he]
        split
        · exact RT.pure q1
        · rw [q2]
          refine RT.propagate (PathRel.mono' hpp (fun x y h => h2 _ _ (h1 x y h))) q1 (.inr ?_)
          rw [← q2]; exact q3
      · refine RT.bind (RT.nodeInsert (h1 _ _ hb) hk hcs) ?_
        intro β2 _ _ h2 _
        refine RT.bind (RT.split (h2 _ _ (h1 _ _ hb))) ?_
        rintro β3 ⟨l, mid, r⟩ ⟨l', mid', r'⟩ h3 ⟨hl, hmid, hr, hmk⟩
        simp only at hl hmid hr hmk
        subst hmid
        simp only []
        have h03 : ∀ x y, β x y → β3 x y := fun x y h => h3 _ _ (h2 _ _ (h1 x y h))
        obtain ⟨q1, q2, q3⟩ := (hc.mono h03).addNode hl
        obtain ⟨q4, q5, q6⟩ := q1.addNode hr
        rw [q2, q5]
        rw [q2] at q3
        rw [q5] at q6
        refine ih (PathRel.mono' hpp h03) q4 hmk ?_
        intro x hx
        simp only [List.mem_cons, List.not_mem_nil, or_false] at hx
        rcases hx with rfl | rfl
        · exact .inr q3
        · exact .inr q6

/-! ## Deletion -/

theorem PathRel.head {p1 p2 : NodePath} (h : PathRel β p1 p2) (site : String) :
    RT c L ρ β (orPanic site p1.head?) (orPanic site p2.head?) (fun _ x y => β x.1 y.1 ∧ x.2 = y.2) := by
  cases h with
  | nil => exact RT.throw
  | cons h _ => exact RT.pure h

theorem RT.replaceRemovedInternalKey {p1 p2 : NodePath} {a1 a2 i : Nat} (hp : PathRel β p1 p2) (h : β a1 a2) :
    RT c L ρ β (replaceRemovedInternalKey p1 a1 i) (replaceRemovedInternalKey p2 a2 i)
      (fun β' x y => PathRel β' x y) := by
  unfold Hyperbee.replaceRemovedInternalKey
  simp only []
  refine RT.bind (RT.getChild h) ?_
  intro β1 l l' h1 hl
  refine RT.bind (RT.nearestNode hl) ?_
  rintro β2 ⟨_, lp⟩ ⟨_, lp'⟩ h2 ⟨_, hlp, hln⟩
  simp only at hlp hln ⊢
  refine RT.bind (hlp.head _) ?_
  rintro β3 ⟨ll, li⟩ ⟨ll', li'⟩ h3 ⟨hll, _⟩
  simp only at hll ⊢
  refine RT.bind (RT.readNode (h3 _ _ hll)) ?_
  rintro β4 ln _ h4 ⟨rfl, lok⟩
  have h04 : ∀ x y, β x y → β4 x y := fun x y h => h4 _ _ (h3 _ _ (h2 _ _ (h1 x y h)))
  refine RT.bind (RT.getChild (h04 _ _ h)) ?_
  intro β5 r r' h5 hr
  refine RT.bind (RT.nearestNode hr) ?_
  rintro β6 ⟨_, rp⟩ ⟨_, rp'⟩ h6 ⟨_, hrp, hrn⟩
  simp only at hrp hrn ⊢
  refine RT.bind (hrp.head _) ?_
  rintro β7 ⟨rl, ri⟩ ⟨rl', ri'⟩ h7 ⟨hrl, _⟩
  simp only at hrl ⊢
  refine RT.bind (RT.readNode (h7 _ _ hrl)) ?_
  rintro β8 rn _ h8 ⟨rfl, rok⟩
  have h28 : ∀ x y, β2 x y → β8 x y := fun x y h => h8 _ _ (h7 _ _ (h6 _ _ (h5 _ _ (h4 _ _ (h3 x y h)))))
  have h08 : ∀ x y, β x y → β8 x y := fun x y h => h28 _ _ (h2 _ _ (h1 x y h))
  have h68 : ∀ x y, β6 x y → β8 x y := fun x y h => h8 _ _ (h7 x y h)
  have hcont : ∀ {β9 : Nat → Nat → Prop} {ci k : Nat} {pb pb' : NodePath}, (∀ x y, β8 x y → β9 x y) →
      (((∃ b, blockAt c k = some b) ∧ L.blocks k) ∨ c.length ≤ k) → PathRel β9 pb pb' →
      RT c L ρ β9
        (do
          let n ← Hyperbee.readNode a1
          let ks ← Hyperbee.orPanic "del.rs:65 keys.insert" (vecInsert n.keys i k)
          Hyperbee.writeNode a1 { n with keys := ks }
          Pure.pure (pb ++ (a1, ci) :: p1))
        (do
          let n ← Hyperbee.readNode a2
          let ks ← Hyperbee.orPanic "del.rs:65 keys.insert" (vecInsert n.keys i k)
          Hyperbee.writeNode a2 { n with keys := ks }
          Pure.pure (pb' ++ (a2, ci) :: p2))
        (fun β' x y => PathRel β' x y) := by
    intro β9 ci k pb pb' h9 hk hpb
    refine RT.bind (RT.readNode (h9 _ _ (h08 _ _ h))) ?_
    rintro β10 n _ h10 ⟨rfl, ok⟩
    refine RT.bind RT.orPanicE ?_
    rintro β11 ks _ h11 ⟨rfl, hks⟩
    have h9' : ∀ x y, β9 x y → β11 x y := fun x y h => h11 _ _ (h10 x y h)
    refine RT.bind (RT.writeNode (h9' _ _ (h9 _ _ (h08 _ _ h))) (ok.keys fun q hq => ?_)) ?_
    · rcases vecInsert_mem hks hq with hq | rfl
      · exact ok.1 q hq
      · exact hk
    · intro β12 _ _ h12 _
      have h9'' : ∀ x y, β9 x y → β12 x y := fun x y h => h12 _ _ (h9' x y h)
      refine RT.pure (List.rel_append (hpb.mono h9'') (.cons ⟨h9'' _ _ (h9 _ _ (h08 _ _ h)), rfl⟩
        (hp.mono fun x y h => h9'' _ _ (h9 _ _ (h08 x y h)))))
  split
  · refine RT.bind (RT.readNode (h68 _ _ hrl)) ?_
    rintro β9 n _ h9 ⟨rfl, ok⟩
    refine RT.bind RT.orPanicE ?_
    rintro β10 ⟨d, ks⟩ _ h10 ⟨rfl, hd⟩
    obtain ⟨hd1, hd2⟩ := vecRemove_mem hd
    simp only []
    refine RT.bind (RT.writeNode (h10 _ _ (h9 _ _ (h68 _ _ hrl))) (ok.keys fun q hq => ok.1 q (hd2 q hq))) ?_
    intro β11 _ _ h11 _
    have h811 : ∀ x y, β8 x y → β11 x y := fun x y h => h11 _ _ (h10 _ _ (h9 x y h))
    exact hcont h811 (ok.1 d hd1) (hrp.mono (fun x y h => h811 _ _ (h68 x y h)))
  · refine RT.bind (RT.readNode (h28 _ _ hll)) ?_
    rintro β9 n _ h9 ⟨rfl, ok⟩
    refine RT.bind RT.orPanicE ?_
    rintro β10 ⟨d, ks⟩ _ h10 ⟨rfl, hd⟩
    obtain ⟨hd1, hd2⟩ := vecPop_mem hd
    simp only []
    refine RT.bind (RT.writeNode (h10 _ _ (h9 _ _ (h28 _ _ hll))) (ok.keys fun q hq => ok.1 q (hd2 q hq))) ?_
    intro β11 _ _ h11 _
    have h811 : ∀ x y, β8 x y → β11 x y := fun x y h => h11 _ _ (h10 _ _ (h9 x y h))
    exact hcont h811 (ok.1 d hd1) (hlp.mono (fun x y h => h811 _ _ (h28 x y h)))

theorem RT.getDonorIndex {side : Side} {a1 a2 i : Nat} (h : β a1 a2) :
    RT c L ρ β (side.getDonorIndex a1 i) (side.getDonorIndex a2 i) (fun _ x y => x = y) := by
  cases side
  · exact RT.pure rfl
  · simp only [Side.getDonorIndex]
    refine RT.bind (RT.readNode h) ?_
    rintro β1 n _ h1 ⟨rfl, ok⟩
    exact RT.pure rfl

theorem RT.getDonorKey {side : Side} {a1 a2 : Nat} (h : β a1 a2) :
    RT c L ρ β (side.getDonorKey a1) (side.getDonorKey a2)
      (fun _ x y => x = y ∧ (((∃ b, blockAt c x = some b) ∧ L.blocks x) ∨ c.length ≤ x)) := by
  unfold Side.getDonorKey
  refine RT.bind (RT.readNode h) ?_
  rintro β1 n _ h1 ⟨rfl, ok⟩
  cases side
  · simp only []
    refine RT.bind RT.orPanicE ?_
    rintro β2 ⟨k, ks⟩ _ h2 ⟨rfl, hd⟩
    obtain ⟨hd1, hd2⟩ := vecPop_mem hd
    simp only []
    refine RT.bind (RT.writeNode (h2 _ _ (h1 _ _ h)) (ok.keys fun q hq => ok.1 q (hd2 q hq))) ?_
    intro β3 _ _ h3 _
    exact RT.pure ⟨rfl, ok.1 k hd1⟩
  · simp only []
    refine RT.bind RT.orPanicE ?_
    rintro β2 ⟨k, ks⟩ _ h2 ⟨rfl, hd⟩
    obtain ⟨hd1, hd2⟩ := vecRemove_mem hd
    simp only []
    refine RT.bind (RT.writeNode (h2 _ _ (h1 _ _ h)) (ok.keys fun q hq => ok.1 q (hd2 q hq))) ?_
    intro β3 _ _ h3 _
    exact RT.pure ⟨rfl, ok.1 k hd1⟩

theorem RT.getDonorChild {side : Side} {a1 a2 : Nat} (h : β a1 a2) :
    RT c L ρ β (side.getDonorChild a1) (side.getDonorChild a2)
      (fun _ x y => x = y ∧ ∀ r ∈ x.toList, L r ∨ c.length ≤ r.seq) := by
  unfold Side.getDonorChild
  refine RT.bind (RT.isLeaf h) ?_
  rintro β0 lf _ h0 rfl
  split
  · exact RT.pure ⟨rfl, by simp⟩
  refine RT.bind (RT.readNode (h0 _ _ h)) ?_
  rintro β1 n _ h1 ⟨rfl, ok⟩
  cases side
  · simp only []
    refine RT.bind RT.orPanicE ?_
    rintro β2 ⟨k, ks⟩ _ h2 ⟨rfl, hd⟩
    obtain ⟨hd1, hd2⟩ := vecPop_mem hd
    simp only []
    refine RT.bind (RT.writeNode (h2 _ _ (h1 _ _ (h0 _ _ h))) (ok.children fun q hq => ok.2 q (hd2 q hq))) ?_
    intro β3 _ _ h3 _
    exact RT.pure ⟨rfl, by simpa using ok.2 k hd1⟩
  · simp only []
    refine RT.bind RT.orPanicE ?_
    rintro β2 ⟨k, ks⟩ _ h2 ⟨rfl, hd⟩
    obtain ⟨hd1, hd2⟩ := vecRemove_mem hd
    simp only []
    refine RT.bind (RT.writeNode (h2 _ _ (h1 _ _ (h0 _ _ h))) (ok.children fun q hq => ok.2 q (hd2 q hq))) ?_
    intro β3 _ _ h3 _
    exact RT.pure ⟨rfl, by simpa using ok.2 k hd1⟩

theorem RT.swapDonorKeyInFather {side : Side} {a1 a2 i k : Nat} (h : β a1 a2)
    (hk : ((∃ b, blockAt c k = some b) ∧ L.blocks k) ∨ c.length ≤ k) :
    RT c L ρ β (side.swapDonorKeyInFather a1 i k) (side.swapDonorKeyInFather a2 i k)
      (fun _ x y => x = y ∧ (((∃ b, blockAt c x = some b) ∧ L.blocks x) ∨ c.length ≤ x)) := by
  unfold Side.swapDonorKeyInFather
  simp only []
  refine RT.bind (RT.readNode h) ?_
  rintro β1 n _ h1 ⟨rfl, ok⟩
  refine RT.bind RT.orPanicE ?_
  rintro β2 old _ h2 ⟨rfl, hd⟩
  refine RT.bind RT.orPanicE ?_
  rintro β3 ks _ h3 ⟨rfl, hks⟩
  refine RT.bind (RT.writeNode (h3 _ _ (h2 _ _ (h1 _ _ h))) (ok.keys fun q hq => ?_)) ?_
  · rcases vecSplice_mem hks hq with hq | hq
    · exact ok.1 q hq
    · rw [List.mem_singleton.mp hq]; exact hk
  · intro β4 _ _ h4 _
    exact RT.pure ⟨rfl, ok.1 old (List.mem_of_getElem? hd)⟩

theorem RT.insertDonations {side : Side} {a1 a2 k : Nat} {o : Option Child} (h : β a1 a2)
    (hk : ((∃ b, blockAt c k = some b) ∧ L.blocks k) ∨ c.length ≤ k) (ho : ∀ r ∈ o.toList, L r ∨ c.length ≤ r.seq) :
    RT c L ρ β (side.insertDonations a1 k o) (side.insertDonations a2 k o) (fun _ _ _ => True) := by
  unfold Side.insertDonations
  refine RT.bind (RT.readNode h) ?_
  rintro β1 n _ h1 ⟨rfl, ok⟩
  cases side
  · refine RT.writeNode (h1 _ _ h) ⟨?_, ?_⟩
    · intro q hq
      rcases List.mem_cons.mp hq with rfl | hq
      · exact hk
      · exact ok.1 q hq
    · intro r hr
      rcases List.mem_append.mp hr with hr | hr
      · exact ho r hr
      · exact ok.2 r hr
  · refine RT.writeNode (h1 _ _ h) ⟨?_, ?_⟩
    · intro q hq
      rcases List.mem_append.mp hq with hq | hq
      · exact ok.1 q hq
      · rw [List.mem_singleton.mp hq]; exact hk
    · intro r hr
      rcases List.mem_append.mp hr with hr | hr
      · exact ok.2 r hr
      · exact ho r hr

theorem RT.canRotate {side : Side} {a1 a2 i order : Nat} (h : β a1 a2) :
    RT c L ρ β (side.canRotate a1 i order) (side.canRotate a2 i order)
      (fun β' x y => (x = none ∧ y = none) ∨ ∃ j d d', x = some (j, d) ∧ y = some (j, d') ∧ β' d d') := by
  unfold Side.canRotate
  refine RT.bind (RT.getDonorIndex h) ?_
  rintro β1 o _ h1 rfl
  cases o with
  | none => exact RT.pure (.inl ⟨rfl, rfl⟩)
  | some j =>
    simp only []
    refine RT.bind (RT.getChild (h1 _ _ h)) ?_
    intro β2 d d' h2 hd
    refine RT.bind (RT.readNode hd) ?_
    rintro β3 n _ h3 ⟨rfl, ok⟩
    split
    · exact RT.pure (.inr ⟨j, d, d', rfl, rfl, h3 _ _ hd⟩)
    · exact RT.pure (.inl ⟨rfl, rfl⟩)

theorem RT.rotate {side : Side} {f1 f2 i d1 d2 j e1 e2 : Nat} {ch ch' : Changes} (hf : β f1 f2) (hd : β d1 d2)
    (he : β e1 e2) (hc : ChRel c β ch ch') :
    RT c L ρ β (side.rotate f1 i d1 j e1 ch) (side.rotate f2 i d2 j e2 ch') (fun β' x y => ChRel c β' x y) := by
  unfold Side.rotate
  refine RT.bind (RT.getDonorKey he) ?_
  rintro β1 k _ h1 ⟨rfl, hk⟩
  refine RT.bind (RT.getDonorChild (h1 _ _ he)) ?_
  rintro β2 o _ h2 ⟨rfl, ho⟩
  refine RT.bind (RT.swapDonorKeyInFather (h2 _ _ (h1 _ _ hf)) hk) ?_
  rintro β3 k' _ h3 ⟨rfl, hk'⟩
  have h03 : ∀ x y, β x y → β3 x y := fun x y h => h3 _ _ (h2 _ _ (h1 x y h))
  refine RT.bind (RT.insertDonations (h03 _ _ hd) hk' ho) ?_
  intro β4 _ _ h4 _
  have h04 : ∀ x y, β x y → β4 x y := fun x y h => h4 _ _ (h03 x y h)
  obtain ⟨q1, q2, q3⟩ := (hc.mono h04).addNode (h04 _ _ he)
  simp only [q2]
  rw [q2] at q3
  refine RT.bind (RT.setChild (h04 _ _ hf) (.inr q3)) ?_
  intro β5 _ _ h5 _
  have h05 : ∀ x y, β x y → β5 x y := fun x y h => h5 _ _ (h04 x y h)
  obtain ⟨q4, q5, q6⟩ := (q1.mono h5).addNode (h05 _ _ hd)
  simp only [q5]
  rw [q5] at q6
  refine RT.bind (RT.setChild (h05 _ _ hf) (.inr q6)) ?_
  intro β6 _ _ h6 _
  exact RT.pure (q4.mono h6)

theorem RT.maybeRotate {side : Side} {f1 f2 i d1 d2 order : Nat} {ch ch' : Changes} (hf : β f1 f2) (hd : β d1 d2)
    (hc : ChRel c β ch ch') :
    RT c L ρ β (side.maybeRotate f1 i d1 order ch) (side.maybeRotate f2 i d2 order ch')
      (fun β' x y => (x = none ∧ y = none) ∨ ∃ u v, x = some u ∧ y = some v ∧ ChRel c β' u v) := by
  unfold Side.maybeRotate
  refine RT.bind (RT.canRotate hf) ?_
  rintro β1 o o' h1 (⟨rfl, rfl⟩ | ⟨j, d, d', rfl, rfl, hdd⟩)
  · exact RT.pure (.inl ⟨rfl, rfl⟩)
  · simp only []
    refine RT.bind (RT.rotate (h1 _ _ hf) (h1 _ _ hd) hdd (hc.mono h1)) ?_
    intro β2 u v h2 huv
    exact RT.pure (.inr ⟨u, v, rfl, rfl, huv⟩)

theorem RT.moveChildren {l1 l2 r1 r2 n : Nat} (hl : β l1 l2) (hr : β r1 r2) :
    RT c L ρ β (Side.moveChildren l1 r1 n) (Side.moveChildren l2 r2 n) (fun _ _ _ => True) := by
  intro s1 s2 hs
  have hiff : l1 = r1 ↔ l2 = r2 :=
    ⟨fun h => hs.fn _ _ _ hl (h ▸ hr), fun h => hs.inj _ _ _ hl (h ▸ hr)⟩
  unfold Side.moveChildren
  by_cases h : l1 = r1
  · rw [if_pos h, if_pos (hiff.mp h)]
    exact (RT.throw (c := c) (L := L) (ρ := ρ) (β := β)) s1 s2 hs
  · rw [if_neg h, if_neg (fun h' => h (hiff.mpr h'))]
    revert s1 s2
    intro s1 s2 hs
    refine (RT.bind (RT.readNode hr) ?_ : RT c L ρ β _ _ _) s1 s2 hs
    rintro β1 rn _ h1 ⟨rfl, rok⟩
    refine RT.bind (RT.writeNode (h1 _ _ hr) (rok.children fun q hq => by simp at hq)) ?_
    intro β2 _ _ h2 _
    refine RT.bind (RT.readNode (h2 _ _ (h1 _ _ hl))) ?_
    rintro β3 ln _ h3 ⟨rfl, lok⟩
    refine RT.bind RT.orPanicE ?_
    rintro β4 cs _ h4 ⟨rfl, hcs⟩
    refine RT.writeNode (h4 _ _ (h3 _ _ (h2 _ _ (h1 _ _ hl)))) (lok.children fun q hq => ?_)
    rcases vecSplice_mem hcs hq with hq | hq
    · exact lok.2 q hq
    · exact rok.2 q hq

theorem RT.maybeMerge {side : Side} {f1 f2 i d1 d2 : Nat} {ch ch' : Changes} (hf : β f1 f2) (hd : β d1 d2)
    (hc : ChRel c β ch ch') :
    RT c L ρ β (side.maybeMerge f1 i d1 ch) (side.maybeMerge f2 i d2 ch')
      (fun β' x y => (x = none ∧ y = none) ∨ ∃ u v, x = some u ∧ y = some v ∧ ChRel c β' u v) := by
  unfold Side.maybeMerge
  refine RT.bind (RT.getDonorIndex hf) ?_
  rintro β1 o _ h1 rfl
  cases o with
  | none => exact RT.pure (.inl ⟨rfl, rfl⟩)
  | some j =>
    simp only []
    refine RT.bind (RT.getChild (h1 _ _ hf)) ?_
    intro β2 e1 e2 h2 he
    have h02 : ∀ x y, β x y → β2 x y := fun x y h => h2 _ _ (h1 x y h)
    -- the two nodes being merged, in order
    have hl : β2 (match side with | .right => (d1, e1) | .left => (e1, d1)).1
        (match side with | .right => (d2, e2) | .left => (e2, d2)).1 := by
      cases side
      · exact he
      · exact h02 _ _ hd
    have hr : β2 (match side with | .right => (d1, e1) | .left => (e1, d1)).2
        (match side with | .right => (d2, e2) | .left => (e2, d2)).2 := by
      cases side
      · exact h02 _ _ hd
      · exact he
    refine RT.bind (RT.readNode (h02 _ _ hf)) ?_
    rintro β3 n _ h3 ⟨rfl, ok⟩
    refine RT.bind RT.orPanicE ?_
    rintro β4 ⟨k, ks⟩ _ h4 ⟨rfl, hk⟩
    obtain ⟨hk1, hk2⟩ := vecRemove_mem hk
    simp only []
    have h24 : ∀ x y, β2 x y → β4 x y := fun x y h => h4 _ _ (h3 x y h)
    refine RT.bind (RT.writeNode (h24 _ _ (h02 _ _ hf)) (ok.keys fun q hq => ok.1 q (hk2 q hq))) ?_
    intro β5 _ _ h5 _
    have h25 : ∀ x y, β2 x y → β5 x y := fun x y h => h5 _ _ (h24 x y h)
    refine RT.bind (RT.readNode (h25 _ _ (h02 _ _ hf))) ?_
    rintro β6 n6 _ h6 ⟨rfl, ok6⟩
    refine RT.bind RT.orPanicE ?_
    rintro β7 cs _ h7 ⟨rfl, hcs⟩
    have h27 : ∀ x y, β2 x y → β7 x y := fun x y h => h7 _ _ (h6 _ _ (h25 x y h))
    refine RT.bind (RT.writeNode (h27 _ _ (h02 _ _ hf)) (ok6.children fun q hq => ?_)) ?_
    · rcases vecSplice_mem hcs hq with hq | hq
      · exact ok6.2 q hq
      · simp at hq
    intro β8 _ _ h8 _
    have h28 : ∀ x y, β2 x y → β8 x y := fun x y h => h8 _ _ (h27 x y h)
    refine RT.bind (RT.readNode (h28 _ _ hl)) ?_
    rintro β9' ln0 _ h9' ⟨rfl, _⟩
    have h29' : ∀ x y, β2 x y → β9' x y := fun x y h => h9' _ _ (h28 x y h)
    refine RT.bind (RT.readNode (h29' _ _ hr)) ?_
    rintro β9 rn _ h9 ⟨rfl, rok⟩
    have h29 : ∀ x y, β2 x y → β9 x y := fun x y h => h9 _ _ (h29' x y h)
    refine RT.bind (RT.writeNode (h29 _ _ hr) (rok.keys fun q hq => by simp at hq)) ?_
    intro β10 _ _ h10 _
    have h210 : ∀ x y, β2 x y → β10 x y := fun x y h => h10 _ _ (h29 x y h)
    refine RT.bind (RT.readNode (h210 _ _ hl)) ?_
    rintro β11' ln _ h11' ⟨rfl, lok⟩
    refine RT.bind RT.orPanicE ?_
    rintro β11 lks _ h11 ⟨rfl, hlks⟩
    have h211 : ∀ x y, β2 x y → β11 x y := fun x y h => h11 _ _ (h11' _ _ (h210 x y h))
    refine RT.bind (RT.writeNode (h211 _ _ hl) (lok.keys fun q hq => ?_)) ?_
    · rcases vecSplice_mem hlks hq with hq | hq
      · exact lok.1 q hq
      · rcases List.mem_cons.mp hq with rfl | hq
        · exact ok.1 _ hk1
        · exact rok.1 q hq
    intro β12 _ _ h12 _
    have h212 : ∀ x y, β2 x y → β12 x y := fun x y h => h12 _ _ (h211 x y h)
    refine RT.bind (RT.readNode (h212 _ _ hl)) ?_
    rintro β13 ln1 _ h13 ⟨rfl, _⟩
    have h213 : ∀ x y, β2 x y → β13 x y := fun x y h => h13 _ _ (h212 x y h)
    refine RT.bind (RT.moveChildren (h213 _ _ hl) (h213 _ _ hr)) ?_
    intro β16 _ _ h16 _
    have h216 : ∀ x y, β2 x y → β16 x y := fun x y h => h16 _ _ (h213 x y h)
    have h016 : ∀ x y, β x y → β16 x y := fun x y h => h216 _ _ (h02 x y h)
    cases side
    all_goals
      simp only [] at hl ⊢
      obtain ⟨q1, q2, q3⟩ := (hc.mono h016).addNode (h216 _ _ hl)
      simp only [q2]
      rw [q2] at q3
      refine RT.bind (RT.readNode (h016 _ _ hf)) ?_
      rintro β17 n17 _ h17 ⟨rfl, ok17⟩
      refine RT.bind RT.orPanicE ?_
      rintro β18 cs' _ h18 ⟨rfl, hcs'⟩
      refine RT.bind (RT.writeNode (h18 _ _ (h17 _ _ (h016 _ _ hf))) (ok17.children fun q hq => ?_)) ?_
      · rcases vecSplice_mem hcs' hq with hq | hq
        · exact ok17.2 q hq
        · rw [List.mem_singleton.mp hq]; exact .inr q3
      intro β19 _ _ h19 _
      exact RT.pure (.inr ⟨_, _, rfl, rfl, q1.mono fun x y h => h19 _ _ (h18 _ _ (h17 x y h))⟩)

theorem RT.repairOne {f1 f2 i d1 d2 order : Nat} {ch ch' : Changes} (hf : β f1 f2) (hd : β d1 d2)
    (hc : ChRel c β ch ch') :
    RT c L ρ β (repairOne f1 i d1 order ch) (repairOne f2 i d2 order ch') (fun β' x y => ChRel c β' x y) := by
  unfold Hyperbee.repairOne
  refine RT.bind (RT.maybeRotate hf hd hc) ?_
  rintro β1 o o' h1 (⟨rfl, rfl⟩ | ⟨u, v, rfl, rfl, huv⟩)
  swap
  · exact RT.pure huv
  simp only []
  refine RT.bind (RT.maybeRotate (h1 _ _ hf) (h1 _ _ hd) (hc.mono h1)) ?_
  rintro β2 o o' h2 (⟨rfl, rfl⟩ | ⟨u, v, rfl, rfl, huv⟩)
  swap
  · exact RT.pure huv
  simp only []
  have h02 : ∀ x y, β x y → β2 x y := fun x y h => h2 _ _ (h1 x y h)
  refine RT.bind (RT.maybeMerge (h02 _ _ hf) (h02 _ _ hd) (hc.mono h02)) ?_
  rintro β3 o o' h3 (⟨rfl, rfl⟩ | ⟨u, v, rfl, rfl, huv⟩)
  swap
  · exact RT.pure huv
  simp only []
  have h03 : ∀ x y, β x y → β3 x y := fun x y h => h3 _ _ (h02 x y h)
  refine RT.bind (RT.maybeMerge (h03 _ _ hf) (h03 _ _ hd) (hc.mono h03)) ?_
  rintro β4 o o' h4 (⟨rfl, rfl⟩ | ⟨u, v, rfl, rfl, huv⟩)
  · exact RT.throw
  · exact RT.pure huv

theorem RT.repairLoop {order : Nat} : ∀ {p1 p2 : NodePath} {β : Nat → Nat → Prop} {f1 f2 i d1 d2 : Nat}
    {ch ch' : Changes}, PathRel β p1 p2 → β f1 f2 → β d1 d2 → ChRel c β ch ch' →
    RT c L ρ β (repairLoop order p1 f1 i d1 ch) (repairLoop order p2 f2 i d2 ch')
      (fun β' x y => x.1 = y.1 ∧ (L x.1 ∨ c.length ≤ x.1.seq) ∧ PathRel β' x.2.1 y.2.1 ∧
        ChRel c β' x.2.2 y.2.2) := by
  intro p1
  induction p1 with
  | nil =>
    intro p2 β f1 f2 i d1 d2 ch ch' hp hf hd hc
    cases hp
    unfold Hyperbee.repairLoop
    refine RT.bind (RT.repairOne hf hd hc) ?_
    intro β1 u v h1 huv
    refine RT.bind (RT.readNode (h1 _ _ hf)) ?_
    rintro β2 n _ h2 ⟨rfl, ok⟩
    split
    · refine RT.bind RT.orPanicE ?_
      rintro β3 r _ h3 ⟨rfl, hr⟩
      exact RT.pure ⟨rfl, ok.2 r (List.mem_of_getElem? hr), .nil, huv.mono fun x y h => h3 _ _ (h2 x y h)⟩
    · obtain ⟨q1, q2, q3⟩ := (huv.mono h2).addNode (h2 _ _ (h1 _ _ hf))
      exact RT.pure ⟨q2, .inr q3, .nil, q1⟩
  | cons x p ih =>
    intro p2 β f1 f2 i d1 d2 ch ch' hp hf hd hc
    obtain ⟨a1, j⟩ := x
    cases hp with
    | @cons _ y _ p' hxy hpp =>
      obtain ⟨a2, j'⟩ := y
      obtain ⟨hb, rfl⟩ := hxy
      unfold Hyperbee.repairLoop
      refine RT.bind (RT.repairOne hf hd hc) ?_
      intro β1 u v h1 huv
      refine RT.bind (RT.readNode (h1 _ _ hf)) ?_
      rintro β2 n _ h2 ⟨rfl, ok⟩
      have h02 : ∀ x y, β x y → β2 x y := fun x y h => h2 _ _ (h1 x y h)
      rw [if_neg (by simp), if_neg (by simp)]
      simp only []
      split
      · obtain ⟨q1, q2, q3⟩ := (huv.mono h2).addNode (h02 _ _ hf)
        exact RT.pure ⟨q2, .inr q3, .cons ⟨h02 _ _ hb, rfl⟩ (PathRel.mono' hpp h02), q1⟩
      · exact ih (PathRel.mono' hpp h02) (h02 _ _ hb) (h02 _ _ hf) (huv.mono h2)

theorem RT.repair {order : Nat} {p1 p2 : NodePath} {ch ch' : Changes} (hp : PathRel β p1 p2)
    (hc : ChRel c β ch ch') :
    RT c L ρ β (repair p1 order ch) (repair p2 order ch')
      (fun β' x y => x.1 = y.1 ∧ (L x.1 ∨ c.length ≤ x.1.seq) ∧ PathRel β' x.2.1 y.2.1 ∧
        ChRel c β' x.2.2 y.2.2) := by
  cases hp with
  | nil => exact RT.throw
  | @cons x y p p' hxy hpp =>
    obtain ⟨a1, i⟩ := x
    obtain ⟨a2, i'⟩ := y
    obtain ⟨hb, rfl⟩ := hxy
    simp only [Hyperbee.repair]
    refine RT.bind (RT.getChild hb) ?_
    intro β1 d d' h1 hd
    exact RT.repairLoop (PathRel.mono' hpp h1) (h1 _ _ hb) hd (hc.mono h1)

theorem RT.delChanges {key : Bytes} {p1 p2 : NodePath} (hp : PathRel β p1 p2) :
    RT c L ρ β (delChanges key p1) (delChanges key p2) (fun β' x y => ChRel c β' x y) := by
  unfold Hyperbee.delChanges
  refine RT.bind RT.version ?_
  rintro β1 v _ h1 ⟨rfl, rfl⟩
  simp only []
  have hc : ∀ β', ChRel c β' (Changes.new c.length key none) (Changes.new c.length key none) :=
    fun β' => ⟨rfl, rfl, rfl, .nil, rfl⟩
  cases hp with
  | nil => exact RT.throw
  | @cons x y p p' hxy hpp =>
    obtain ⟨a1, i⟩ := x
    obtain ⟨a2, i'⟩ := y
    obtain ⟨hb, rfl⟩ := hxy
    simp only at hb ⊢
    refine RT.bind (RT.readNode (h1 _ _ hb)) ?_
    rintro β2 n _ h2 ⟨rfl, ok⟩
    refine RT.bind RT.orPanicE ?_
    rintro β3 ⟨k, ks⟩ _ h3 ⟨rfl, hk⟩
    obtain ⟨hk1, hk2⟩ := vecRemove_mem hk
    simp only []
    have h03 : ∀ x y, β x y → β3 x y := fun x y h => h3 _ _ (h2 _ _ (h1 x y h))
    refine RT.bind (RT.writeNode (h03 _ _ hb) (ok.keys fun q hq => ok.1 q (hk2 q hq))) ?_
    intro β4 _ _ h4 _
    have h04 : ∀ x y, β x y → β4 x y := fun x y h => h4 _ _ (h03 x y h)
    refine RT.bind (RT.isLeaf (h04 _ _ hb)) ?_
    rintro β5 lf _ h5 rfl
    have h05 : ∀ x y, β x y → β5 x y := fun x y h => h5 _ _ (h04 x y h)
    refine RT.iteBind (Q := fun β' x y => PathRel β' x y) ?_ ?_
    · split
      · exact RT.pure (.cons ⟨h05 _ _ hb, rfl⟩ (PathRel.mono' hpp h05))
      · exact RT.replaceRemovedInternalKey (PathRel.mono' hpp h05) (h05 _ _ hb)
    · intro β6 q1 q2 h6 hq
      cases hq with
      | nil => exact RT.throw
      | @cons x y q q' hxy hqq =>
        obtain ⟨b1, j⟩ := x
        obtain ⟨b2, j'⟩ := y
        obtain ⟨hbb, rfl⟩ := hxy
        simp only at hbb ⊢
        refine RT.bind (RT.readNode hbb) ?_
        rintro β7 bn _ h7 ⟨rfl, bok⟩
        have he : q.isEmpty = q'.isEmpty := by cases hqq <;> rfl
        rw [he]
        refine RT.iteBind (Q := fun β' (x y : Child × NodePath × Changes) => x.1 = y.1 ∧
          (L x.1 ∨ c.length ≤ x.1.seq) ∧ PathRel β' x.2.1 y.2.1 ∧ ChRel c β' x.2.2 y.2.2) ?_ ?_
        · split
          · exact RT.repair (PathRel.mono' hqq h7) (hc _)
          · obtain ⟨q1, q2, q3⟩ := (hc β7).addNode (h7 _ _ hbb)
            exact RT.pure ⟨q2, .inr q3, PathRel.mono' hqq h7, q1⟩
        · rintro β8 ⟨r, t, ch⟩ ⟨r', t', ch'⟩ h8 ⟨e1, hr, ht, hch⟩
          simp only at e1 hr ht hch
          subst e1
          simp only []
          have he : t.isEmpty = t'.isEmpty := by cases ht <;> rfl
          rw [he]
          split
          · exact RT.propagate ht hch hr
          · exact RT.pure hch

end

end Hyperbee
