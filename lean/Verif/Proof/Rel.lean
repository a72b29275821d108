import Verif.Proof.Refine
/-!
# Two handles on the same core

A relational argument: two handles on one core, with different caches and different node addresses,
run the same program in step.  `β` relates the addresses of the nodes both have in memory.  The
second handle may lack some blocks (`ρ`); it may then stop with the missing-block error.
-/

namespace Hyperbee

/-- The state with every block readable. -/
def St.full (s : St) : St := { s with io := ⟨fun _ => true, s.io.appendOk⟩ }

/-- The nodes in use, and the blocks of the keys in use. -/
structure Live where
  refs : Child → Prop
  blocks : Nat → Prop

instance : CoeFun Live fun _ => Child → Prop := ⟨Live.refs⟩

/-- The blocks in use. -/
def Live.needs (L : Live) (q : Nat) : Prop := L.blocks q ∨ ∃ i, L ⟨q, i⟩

/-- Keys and children of a node exist and are in use, or are new ones. -/
def NodeOK (c : List Bytes) (L : Live) (n : Node) : Prop :=
  (∀ q ∈ n.keys, ((∃ b, blockAt c q = some b) ∧ L.blocks q) ∨ c.length ≤ q) ∧
  (∀ r ∈ n.children, L r ∨ c.length ≤ r.seq)

/-- A set of references closed under children. -/
def Closed (c : List Bytes) (L : Live) : Prop :=
  ∀ r, L r → ∃ n, nodeAt c r = some n ∧ NodeOK c L n

structure Rel (c : List Bytes) (L : Live) (ρ : Nat → Bool) (β : Nat → Nat → Prop) (s1 s2 : St) :
    Prop where
  c1 : s1.core = c
  c2 : s2.core = c
  rd : s2.io.readable = ρ
  ap : s1.io.appendOk = s2.io.appendOk
  w1 : SWF s1
  w2 : SWF s2.full
  closed : Closed c L
  pair : ∀ a1 a2, β a1 a2 → ∃ n, s1.heap[a1]? = some n ∧ s2.heap[a2]? = some n ∧ NodeOK c L n
  fn : ∀ a1 a2 a2', β a1 a2 → β a1 a2' → a2 = a2'
  inj : ∀ a1 a1' a2, β a1 a2 → β a1' a2 → a1 = a1'
  both : ∀ r a1 a2, L r → addrOf s1 r = some a1 → addrOf s2 r = some a2 → β a1 a2
  one1 : ∀ r (a1 : Nat), L r → addrOf s1 r = some a1 → addrOf s2 r = none →
    s1.heap[a1]? = nodeAt c r ∧ ∀ a2, ¬ β a1 a2
  one2 : ∀ r (a2 : Nat), L r → addrOf s2 r = some a2 → addrOf s1 r = none →
    s2.heap[a2]? = nodeAt c r ∧ ∀ a1, ¬ β a1 a2

/-- Two handles whose live nodes are as in the core are related. -/
theorem Rel.of_coh {s1 s2 : St} {L : Live} (hc : s2.core = s1.core) (ap : s1.io.appendOk = s2.io.appendOk)
    (w1 : SWF s1) (w2 : SWF s2.full) (hL : Closed s1.core L) (h1 : Coh s1 L) (h2 : Coh s2 L) :
    Rel s1.core L s2.io.readable
      (fun a1 a2 => ∃ r, L r ∧ addrOf s1 r = some a1 ∧ addrOf s2 r = some a2) s1 s2 := by
  refine ⟨rfl, hc, rfl, ap, w1, w2, hL, ?_, ?_, ?_, ?_, ?_, ?_⟩
  · rintro a1 a2 ⟨r, hr, e1, e2⟩
    obtain ⟨n, hn, hok⟩ := hL r hr
    exact ⟨n, by rw [h1 r hr a1 e1, hn], by rw [h2 r hr a2 e2, hc, hn], hok⟩
  · rintro a1 a2 a2' ⟨r, hr, e1, e2⟩ ⟨r', hr', e1', e2'⟩
    obtain rfl := w1.inj r r' a1 e1 e1'
    rw [e2] at e2'; exact Option.some.inj e2'
  · rintro a1 a1' a2 ⟨r, hr, e1, e2⟩ ⟨r', hr', e1', e2'⟩
    obtain rfl := w2.inj r r' a2 e2 e2'
    rw [e1] at e1'; exact Option.some.inj e1'
  · intro r a1 a2 hr e1 e2; exact ⟨r, hr, e1, e2⟩
  · intro r a1 hr e1 e2
    refine ⟨h1 r hr a1 e1, ?_⟩
    rintro a2 ⟨r', _, e1', e2'⟩
    obtain rfl := w1.inj r r' a1 e1 e1'
    rw [e2] at e2'; cases e2'
  · intro r a2 hr e2 e1
    refine ⟨by rw [h2 r hr a2 e2, hc], ?_⟩
    rintro a1 ⟨r', _, e1', e2'⟩
    obtain rfl := w2.inj r r' a2 e2 e2'
    rw [e1] at e1'; cases e1'

/-- Both handles have loaded some blocks. -/
theorem Rel.ext {c : List Bytes} {L : Live} {ρ : Nat → Bool} {β : Nat → Nat → Prop} {s1 s2 s1' s2' : St}
    (h : Rel c L ρ β s1 s2) (e1 : Ext s1 s1') (e2 : Ext s2.full s2'.full) (hio : s2'.io = s2.io) :
    Rel c L ρ (fun a1 a2 => β a1 a2 ∨ ∃ r, L r ∧ addrOf s1' r = some a1 ∧ addrOf s2' r = some a2) s1' s2' := by
  have hlt1 : ∀ a1 a2, β a1 a2 → a1 < s1.heap.length := by
    intro a1 a2 hb
    obtain ⟨n, hn, _⟩ := h.pair a1 a2 hb
    exact (List.getElem?_eq_some_iff.mp hn).1
  have hlt2 : ∀ a1 a2, β a1 a2 → a2 < s2.heap.length := by
    intro a1 a2 hb
    obtain ⟨n, _, hn, _⟩ := h.pair a1 a2 hb
    exact (List.getElem?_eq_some_iff.mp hn).1
  have g1 : ∀ a n, s1.heap[a]? = some n → s1'.heap[a]? = some n := fun a n hn => e1.get hn
  have g2 : ∀ a n, s2.heap[a]? = some n → s2'.heap[a]? = some n := fun a n hn => e2.get hn
  have ad1 : ∀ r a, addrOf s1 r = some a → addrOf s1' r = some a := fun r a ha => e1.addr ha
  have ad2 : ∀ r a, addrOf s2 r = some a → addrOf s2' r = some a := fun r a ha => e2.addr ha
  have no1 : ∀ r, addrOf s1' r = none → addrOf s1 r = none := by
    intro r hr
    cases hx : addrOf s1 r with
    | none => rfl
    | some a => rw [ad1 r a hx] at hr; cases hr
  have no2 : ∀ r, addrOf s2' r = none → addrOf s2 r = none := by
    intro r hr
    cases hx : addrOf s2 r with
    | none => rfl
    | some a => rw [ad2 r a hx] at hr; cases hr
  -- where an address comes from
  have fr1 : ∀ r (a : Nat), addrOf s1' r = some a →
      addrOf s1 r = some a ∨ (addrOf s1 r = none ∧ s1.heap.length ≤ a ∧ s1'.heap[a]? = nodeAt c r) := by
    intro r a ha
    rcases e1.fresh r a ha with hx | ⟨hx, hy⟩
    · exact .inl hx
    · cases hz : addrOf s1 r with
      | none => exact .inr ⟨rfl, hx, by rw [hy, h.c1]⟩
      | some x => rw [ad1 r x hz] at ha; cases ha; exact .inl rfl
  have fr2 : ∀ r (a : Nat), addrOf s2' r = some a →
      addrOf s2 r = some a ∨ (addrOf s2 r = none ∧ s2.heap.length ≤ a ∧ s2'.heap[a]? = nodeAt c r) := by
    intro r a ha
    rcases e2.fresh r a ha with hx | ⟨hx, hy⟩
    · exact .inl hx
    · cases hz : addrOf s2 r with
      | none => exact .inr ⟨rfl, hx, by rw [show s2'.heap[a]? = nodeAt s2.core r from hy, h.c2]⟩
      | some x => rw [ad2 r x hz] at ha; cases ha; exact .inl rfl
  refine ⟨by rw [e1.core, h.c1], (show s2'.core = s2.core from e2.core).trans h.c2, by rw [hio, h.rd],
    by rw [e1.io, hio, h.ap], e1.wf, e2.wf, h.closed, ?_, ?_, ?_, ?_, ?_, ?_⟩
  · rintro a1 a2 (hb | ⟨r, hr, x1, x2⟩)
    · obtain ⟨n, n1, n2, ok⟩ := h.pair a1 a2 hb
      exact ⟨n, g1 _ _ n1, g2 _ _ n2, ok⟩
    · obtain ⟨n, hn, ok⟩ := h.closed r hr
      rcases fr1 r a1 x1 with y1 | ⟨y1, z1, u1⟩ <;> rcases fr2 r a2 x2 with y2 | ⟨y2, z2, u2⟩
      · obtain ⟨n, n1, n2, ok⟩ := h.pair a1 a2 (h.both r a1 a2 hr y1 y2)
        exact ⟨n, g1 _ _ n1, g2 _ _ n2, ok⟩
      · exact ⟨n, g1 _ _ (by rw [(h.one1 r a1 hr y1 y2).1, hn]), by rw [u2, hn], ok⟩
      · exact ⟨n, by rw [u1, hn], g2 _ _ (by rw [(h.one2 r a2 hr y2 y1).1, hn]), ok⟩
      · exact ⟨n, by rw [u1, hn], by rw [u2, hn], ok⟩
  · have mix : ∀ a1 a2 a2', β a1 a2 → (∃ r, L r ∧ addrOf s1' r = some a1 ∧ addrOf s2' r = some a2') → a2 = a2' := by
      rintro a1 a2 a2' hb ⟨r, hr, x1, x2⟩
      have hlt := hlt1 a1 a2 hb
      rcases fr1 r a1 x1 with y1 | ⟨_, z1, _⟩
      · cases hz : addrOf s2 r with
        | none => exact absurd hb ((h.one1 r a1 hr y1 hz).2 a2)
        | some x =>
          have hx := h.fn a1 a2 x hb (h.both r a1 x hr y1 hz)
          rw [ad2 r x hz] at x2
          cases x2
          exact hx
      · omega
    rintro a1 a2 a2' (hb | hb) (hb' | hb')
    · exact h.fn a1 a2 a2' hb hb'
    · exact mix a1 a2 a2' hb hb'
    · exact (mix a1 a2' a2 hb' hb).symm
    · obtain ⟨r, hr, x1, x2⟩ := hb
      obtain ⟨r', hr', x1', x2'⟩ := hb'
      obtain rfl := e1.wf.inj r r' a1 x1 x1'
      rw [x2] at x2'; exact Option.some.inj x2'
  · have mix : ∀ a1 a1' a2, β a1 a2 → (∃ r, L r ∧ addrOf s1' r = some a1' ∧ addrOf s2' r = some a2) → a1 = a1' := by
      rintro a1 a1' a2 hb ⟨r, hr, x1, x2⟩
      have hlt := hlt2 a1 a2 hb
      rcases fr2 r a2 x2 with y2 | ⟨_, z2, _⟩
      · cases hz : addrOf s1 r with
        | none => exact absurd hb ((h.one2 r a2 hr y2 hz).2 a1)
        | some x =>
          have hx := h.inj a1 x a2 hb (h.both r x a2 hr hz y2)
          rw [ad1 r x hz] at x1
          cases x1
          exact hx
      · omega
    rintro a1 a1' a2 (hb | hb) (hb' | hb')
    · exact h.inj a1 a1' a2 hb hb'
    · exact mix a1 a1' a2 hb hb'
    · exact (mix a1' a1 a2 hb' hb).symm
    · obtain ⟨r, hr, x1, x2⟩ := hb
      obtain ⟨r', hr', x1', x2'⟩ := hb'
      obtain rfl := e2.wf.inj r r' a2 x2 x2'
      rw [x1] at x1'; exact Option.some.inj x1'
  · intro r a1 a2 hr x1 x2; exact .inr ⟨r, hr, x1, x2⟩
  · intro r a1 hr x1 x2
    have hnew : ∀ a2, ¬ ∃ r, L r ∧ addrOf s1' r = some a1 ∧ addrOf s2' r = some a2 := by
      rintro a2 ⟨r', _, x1', x2'⟩
      obtain rfl := e1.wf.inj r r' a1 x1 x1'
      rw [x2] at x2'; cases x2'
    rcases fr1 r a1 x1 with y1 | ⟨y1, z1, u1⟩
    · obtain ⟨p1, p2⟩ := h.one1 r a1 hr y1 (no2 r x2)
      obtain ⟨n, hn, _⟩ := h.closed r hr
      refine ⟨by rw [hn]; exact g1 _ _ (by rw [p1, hn]), fun a2 hb => ?_⟩
      rcases hb with hb | hb
      · exact p2 a2 hb
      · exact hnew a2 hb
    · refine ⟨u1, fun a2 hb => ?_⟩
      rcases hb with hb | hb
      · have := hlt1 a1 a2 hb; omega
      · exact hnew a2 hb
  · intro r a2 hr x2 x1
    have hnew : ∀ a1, ¬ ∃ r, L r ∧ addrOf s1' r = some a1 ∧ addrOf s2' r = some a2 := by
      rintro a1 ⟨r', _, x1', x2'⟩
      obtain rfl := e2.wf.inj r r' a2 x2 x2'
      rw [x1] at x1'; cases x1'
    rcases fr2 r a2 x2 with y2 | ⟨y2, z2, u2⟩
    · obtain ⟨p1, p2⟩ := h.one2 r a2 hr y2 (no1 r x1)
      obtain ⟨n, hn, _⟩ := h.closed r hr
      refine ⟨by rw [hn]; exact g2 _ _ (by rw [p1, hn]), fun a1 hb => ?_⟩
      rcases hb with hb | hb
      · exact p2 a1 hb
      · exact hnew a1 hb
    · refine ⟨u2, fun a1 hb => ?_⟩
      rcases hb with hb | hb
      · have := hlt2 a1 a2 hb; omega
      · exact hnew a1 hb

/-! ## Triples -/

/-- The second handle stopped at a block in use that it lacks. -/
def Missing (c : List Bytes) (L : Live) (ρ : Nat → Bool) (e : Err) : Prop :=
  ∃ q, e = .noBlockAtSeq q ∧ q < c.length ∧ ρ q = false ∧ L.needs q

/-- What two runs in step may end with. -/
def RTPost (c : List Bytes) (L : Live) (ρ : Nat → Bool) (β : Nat → Nat → Prop)
    (Q : (Nat → Nat → Prop) → α → α' → Prop) :
    Except Err α × St → Except Err α' × St → Prop
  | (.ok a, s1), (.ok a', s2) => ∃ β', (∀ x y, β x y → β' x y) ∧ Rel c L ρ β' s1 s2 ∧ Q β' a a'
  | (.error e, s1), (.error e', s2) =>
    (e = e' ∧ ∃ β', (∀ x y, β x y → β' x y) ∧ Rel c L ρ β' s1 s2) ∨ Missing c L ρ e'
  | (.ok _, _), (.error e', _) => Missing c L ρ e'
  | (.error _, _), (.ok _, _) => False

def RT (c : List Bytes) (L : Live) (ρ : Nat → Bool) (β : Nat → Nat → Prop) (m1 : M α) (m2 : M α')
    (Q : (Nat → Nat → Prop) → α → α' → Prop) : Prop :=
  ∀ s1 s2, Rel c L ρ β s1 s2 → RTPost c L ρ β Q (m1 s1) (m2 s2)

section

variable {c : List Bytes} {L : Live} {ρ : Nat → Bool} {β : Nat → Nat → Prop}

theorem RT.pure {a : α} {a' : α'} {Q : (Nat → Nat → Prop) → α → α' → Prop} (h : Q β a a') :
    RT c L ρ β (Pure.pure a : M α) (Pure.pure a' : M α') Q :=
  fun _ _ hr => ⟨β, fun _ _ h => h, hr, h⟩

theorem RT.throw {e : Err} {Q : (Nat → Nat → Prop) → α → α' → Prop} :
    RT c L ρ β (Hyperbee.throw e : M α) (Hyperbee.throw e : M α') Q :=
  fun _ _ hr => .inl ⟨rfl, β, fun _ _ h => h, hr⟩

theorem RT.bind {m1 : M α} {m2 : M α'} {f1 : α → M γ} {f2 : α' → M γ'}
    {Q : (Nat → Nat → Prop) → α → α' → Prop} {R : (Nat → Nat → Prop) → γ → γ' → Prop}
    (h : RT c L ρ β m1 m2 Q)
    (hf : ∀ β' a a', (∀ x y, β x y → β' x y) → Q β' a a' → RT c L ρ β' (f1 a) (f2 a') R) :
    RT c L ρ β (m1 >>= f1) (m2 >>= f2) R := by
  intro s1 s2 hr
  have hp := h s1 s2 hr
  rw [bind_run, bind_run]
  cases h1 : m1 s1 with
  | mk r1 t1 =>
    cases h2 : m2 s2 with
    | mk r2 t2 =>
      rw [h1, h2] at hp
      cases r1 with
      | ok a =>
        cases r2 with
        | ok a' =>
          obtain ⟨β', hle, hr', hq⟩ := hp
          have := hf β' a a' hle hq t1 t2 hr'
          simp only []
          cases h3 : f1 a t1 with
          | mk r3 t3 =>
            cases h4 : f2 a' t2 with
            | mk r4 t4 =>
              rw [h3, h4] at this
              cases r3 with
              | ok b =>
                cases r4 with
                | ok b' =>
                  obtain ⟨β'', hle', hr'', hq'⟩ := this
                  exact ⟨β'', fun x y h => hle' x y (hle x y h), hr'', hq'⟩
                | error e' => exact this
              | error e =>
                cases r4 with
                | ok b' => exact this
                | error e' =>
                  rcases this with ⟨he, β'', hle', hr''⟩ | hm
                  · exact .inl ⟨he, β'', fun x y h => hle' x y (hle x y h), hr''⟩
                  · exact .inr hm
        | error e' =>
          simp only []
          cases h3 : f1 a t1 with
          | mk r3 t3 =>
            cases r3 with
            | ok b => exact hp
            | error e => exact .inr hp
      | error e =>
        cases r2 with
        | ok a' => exact hp.elim
        | error e' => exact hp

theorem RT.mono {m1 : M α} {m2 : M α'} {Q R : (Nat → Nat → Prop) → α → α' → Prop}
    (h : RT c L ρ β m1 m2 Q) (hQ : ∀ β' a a', (∀ x y, β x y → β' x y) → Q β' a a' → R β' a a') :
    RT c L ρ β m1 m2 R := by
  intro s1 s2 hr
  have hp := h s1 s2 hr
  cases h1 : m1 s1 with
  | mk r1 t1 =>
    cases h2 : m2 s2 with
    | mk r2 t2 =>
      rw [h1, h2] at hp
      cases r1 <;> cases r2
      · exact hp
      · exact hp
      · exact hp
      · obtain ⟨β', hle, hr', hq⟩ := hp
        exact ⟨β', hle, hr', hQ β' _ _ hle hq⟩

theorem RT.orPanic {site : String} {o : Option α} {o' : Option α'} {Q : (Nat → Nat → Prop) → α → α' → Prop}
    (h0 : o.isSome = o'.isSome) (h : ∀ a a', o = some a → o' = some a' → Q β a a') :
    RT c L ρ β (orPanic site o) (orPanic site o') Q := by
  cases o with
  | none =>
    cases o' with
    | none => exact RT.throw
    | some a' => simp at h0
  | some a =>
    cases o' with
    | none => simp at h0
    | some a' => exact RT.pure (h a a' rfl rfl)

/-- The same option on both sides. -/
theorem RT.orPanicE {site : String} {o : Option α} :
    RT c L ρ β (Hyperbee.orPanic site o) (Hyperbee.orPanic site o) (fun _ a a' => a = a' ∧ o = some a) :=
  RT.orPanic rfl fun a a' h h' => ⟨by rw [h] at h'; exact Option.some.inj h', h⟩

theorem RT.readNode {a1 a2 : Nat} (h : β a1 a2) :
    RT c L ρ β (readNode a1) (readNode a2) (fun _ n n' => n = n' ∧ NodeOK c L n) := by
  intro s1 s2 hr
  obtain ⟨n, h1, h2, ok⟩ := hr.pair a1 a2 h
  rw [readNode_some h1, readNode_some h2]
  exact ⟨β, fun _ _ h => h, hr, rfl, ok⟩

theorem addrOf_heap (s : St) (h : List Node) (r : Child) : addrOf { s with heap := h } r = addrOf s r := rfl

theorem RT.writeNode {a1 a2 : Nat} {n : Node} (h : β a1 a2) (ok : NodeOK c L n) :
    RT c L ρ β (writeNode a1 n) (writeNode a2 n) (fun _ _ _ => True) := by
  intro s1 s2 hr
  rw [writeNode_run, writeNode_run]
  refine ⟨β, fun _ _ h => h, ?_, trivial⟩
  have get : ∀ {l : List Node} {a x : Nat}, x ≠ a → (l.set a n)[x]? = l[x]? := by
    intro l a x hx; rw [List.getElem?_set_ne (Ne.symm hx)]
  refine ⟨hr.c1, hr.c2, hr.rd, hr.ap, ?_, ?_, hr.closed, ?_, hr.fn, hr.inj, hr.both, ?_, ?_⟩
  · exact ⟨hr.w1.rd, hr.w1.ent, fun r a ha => by simpa using hr.w1.lt r a ha, hr.w1.inj⟩
  · exact ⟨hr.w2.rd, hr.w2.ent, fun r a ha => by
      have := hr.w2.lt r a ha
      simpa [St.full] using this, hr.w2.inj⟩
  · intro x1 x2 hx
    obtain ⟨m, h1, h2, okm⟩ := hr.pair x1 x2 hx
    by_cases e : x1 = a1
    · subst e
      obtain rfl := hr.fn x1 x2 a2 hx h
      refine ⟨n, ?_, ?_, ok⟩
      · simp [(List.getElem?_eq_some_iff.mp h1).1]
      · simp [(List.getElem?_eq_some_iff.mp h2).1]
    · have e2 : x2 ≠ a2 := by
        intro e2; subst e2
        exact e (hr.inj x1 a1 x2 hx h)
      exact ⟨m, by rw [← h1]; exact get e, by rw [← h2]; exact get e2, okm⟩
  · intro r x1 hL y1 y2
    obtain ⟨p1, p2⟩ := hr.one1 r x1 hL y1 y2
    refine ⟨?_, p2⟩
    have : x1 ≠ a1 := by intro e; subst e; exact p2 a2 h
    rw [← p1]; exact get this
  · intro r x2 hL y2 y1
    obtain ⟨p1, p2⟩ := hr.one2 r x2 hL y2 y1
    refine ⟨?_, p2⟩
    have : x2 ≠ a2 := by intro e; subst e; exact p2 a1 h
    rw [← p1]; exact get this

theorem RT.alloc {n : Node} (ok : NodeOK c L n) :
    RT c L ρ β (alloc n) (alloc n) (fun β' a1 a2 => β' a1 a2) := by
  intro s1 s2 hr
  rw [alloc_run, alloc_run]
  have hlt1 : ∀ a1 a2, β a1 a2 → a1 < s1.heap.length := by
    intro a1 a2 hb
    obtain ⟨n, hn, _⟩ := hr.pair a1 a2 hb
    exact (List.getElem?_eq_some_iff.mp hn).1
  have hlt2 : ∀ a1 a2, β a1 a2 → a2 < s2.heap.length := by
    intro a1 a2 hb
    obtain ⟨n, _, hn, _⟩ := hr.pair a1 a2 hb
    exact (List.getElem?_eq_some_iff.mp hn).1
  refine ⟨fun a1 a2 => β a1 a2 ∨ (a1 = s1.heap.length ∧ a2 = s2.heap.length), fun _ _ h => .inl h, ?_,
    .inr ⟨rfl, rfl⟩⟩
  have g : ∀ {l : List Node} {x : Nat} {m : Node}, l[x]? = some m → (l ++ [n])[x]? = some m := by
    intro l x m hm
    rw [List.getElem?_append_left (List.getElem?_eq_some_iff.mp hm).1, hm]
  refine ⟨hr.c1, hr.c2, hr.rd, hr.ap, ?_, ?_, hr.closed, ?_, ?_, ?_, ?_, ?_, ?_⟩
  · exact ⟨hr.w1.rd, hr.w1.ent, fun r a ha => by
      have := hr.w1.lt r a ha
      simp; omega, hr.w1.inj⟩
  · exact ⟨hr.w2.rd, hr.w2.ent, fun r a ha => by
      have : a < s2.heap.length := hr.w2.lt r a ha
      simp [St.full]; omega, hr.w2.inj⟩
  · rintro x1 x2 (hx | ⟨rfl, rfl⟩)
    · obtain ⟨m, h1, h2, okm⟩ := hr.pair x1 x2 hx
      exact ⟨m, g h1, g h2, okm⟩
    · exact ⟨n, by simp, by simp, ok⟩
  · rintro a1 a2 a2' (h | ⟨rfl, rfl⟩) (h' | ⟨h1', h2'⟩)
    · exact hr.fn _ _ _ h h'
    · have := hlt1 _ _ h; omega
    · have := hlt1 _ _ h'; omega
    · exact h2'.symm
  · rintro a1 a1' a2 (h | ⟨rfl, rfl⟩) (h' | ⟨h1', h2'⟩)
    · exact hr.inj _ _ _ h h'
    · have := hlt2 _ _ h; omega
    · have := hlt2 _ _ h'; omega
    · exact h1'.symm
  · intro r a1 a2 hL y1 y2; exact .inl (hr.both r a1 a2 hL y1 y2)
  · intro r a1 hL y1 y2
    obtain ⟨p1, p2⟩ := hr.one1 r a1 hL y1 y2
    have hlt : a1 < s1.heap.length := hr.w1.lt r a1 y1
    refine ⟨?_, fun a2 h => ?_⟩
    · rw [← p1]; exact List.getElem?_append_left hlt
    · rcases h with h | ⟨h, _⟩
      · exact p2 a2 h
      · omega
  · intro r a2 hL y2 y1
    obtain ⟨p1, p2⟩ := hr.one2 r a2 hL y2 y1
    have hlt : a2 < s2.heap.length := hr.w2.lt r a2 y2
    refine ⟨?_, fun a1 h => ?_⟩
    · rw [← p1]; exact List.getElem?_append_left hlt
    · rcases h with h | ⟨_, h⟩
      · exact p2 a1 h
      · omega

theorem RT.version : RT c L ρ β version version (fun _ a a' => a = a' ∧ a = c.length) := by
  intro s1 s2 hr
  rw [version_run, version_run]
  exact ⟨β, fun _ _ h => h, hr, by rw [hr.c1, hr.c2], by rw [hr.c1]⟩

theorem RT.descentFuel : RT c L ρ β descentFuel descentFuel (fun _ a a' => a = a') := by
  intro s1 s2 hr
  exact ⟨β, fun _ _ h => h, hr, by rw [hr.c1, hr.c2]⟩

theorem blocksGet_beyond {s : St} (hw : ∀ q e, s.cache q = some e → ∃ b, blockAt s.core q = some b) {q : Nat}
    (hq : s.core.length ≤ q) : blocksGet q s = (.error (.noBlockAtSeq q), s) := by
  have hc : s.cache q = none := by
    cases he : s.cache q with
    | none => rfl
    | some e =>
      obtain ⟨b, hb⟩ := hw q e he
      have := blockAt_lt hb
      omega
  have hg : getFromCache q s = (.ok none, s) := by simp [getFromCache, hc]
  have hcg : coreGet q s = (.ok none, s) := by
    simp only [coreGet]
    rw [List.getElem?_eq_none hq]
    simp
  have hf : getFromCore q s = (.ok none, s) := by
    unfold getFromCore; rw [bind_ok hcg]; rfl
  unfold blocksGet
  rw [bind_ok hg]
  simp only []
  rw [bind_ok hf]
  rfl

/-- Loading a block through a handle that may lack it. -/
theorem blocksGet_sparse {s : St} (hw : SWF s.full) {q : Nat} {b : Blk} (hb : blockAt s.core q = some b) :
    (∃ e s', blocksGet q s = (.ok e, s') ∧ Ext s.full s'.full ∧ s'.io = s.io ∧ s'.cache q = some e ∧
      e.key = b.key ∧ e.value = b.value ∧ e.nodes.length = b.nodes.length) ∨
    (s.io.readable q = false ∧ blocksGet q s = (.error (.noBlockAtSeq q), s)) := by
  unfold blocksGet
  cases hq : s.cache q with
  | some e =>
    have hg : getFromCache q s = (.ok (some e), s) := by simp [getFromCache, hq]
    obtain ⟨b', hb', h1, h2, h3⟩ := hw.ent q e hq
    rw [show s.full.core = s.core from rfl, hb] at hb'
    cases hb'
    exact .inl ⟨e, s, by rw [bind_ok hg]; rfl, Ext.refl hw, rfl, hq, h1, h2, h3⟩
  | none =>
    have hg : getFromCache q s = (.ok none, s) := by simp [getFromCache, hq]
    cases hr : s.io.readable q with
    | false =>
      right
      refine ⟨rfl, ?_⟩
      have hcg : coreGet q s = (.ok none, s) := by simp [coreGet, hr]
      have hf : getFromCore q s = (.ok none, s) := by
        unfold getFromCore; rw [bind_ok hcg]; rfl
      rw [bind_ok hg]
      simp only []
      rw [bind_ok hf]
      rfl
    | true =>
      left
      refine ⟨⟨List.range' s.heap.length b.nodes.length, b.key, b.value⟩, loaded s q b, ?_,
        ext_loaded (s := s.full) hw hq hb, rfl, ?_, rfl, rfl, by simp⟩
      · rw [bind_ok hg]
        simp only []
        rw [bind_ok (getFromCore_run hr hb)]
        rfl
      · simp [loaded, cacheInsert]

theorem RT.blocksGet {q : Nat} (hq : ((∃ b, blockAt c q = some b) ∧ L.needs q) ∨ c.length ≤ q) :
    RT c L ρ β (blocksGet q) (blocksGet q) (fun β' e e' => e.key = e'.key ∧ e.value = e'.value ∧
      e.nodes.length = e'.nodes.length ∧ (∃ b, blockAt c q = some b) ∧ ∀ (i : Nat), L ⟨q, i⟩ → ∀ (a1 a2 : Nat), e.nodes[i]? = some a1 →
        e'.nodes[i]? = some a2 → β' a1 a2) := by
  intro s1 s2 hr
  rcases hq with ⟨⟨b, hb⟩, hL⟩ | hq
  · obtain ⟨e1, s1', h1, x1, k1, kk1, kv1, kn1⟩ := blocksGet_run hr.w1 (q := q) (b := b) (by rw [hr.c1]; exact hb)
    rcases blocksGet_sparse hr.w2 (q := q) (b := b) (by rw [hr.c2]; exact hb) with
      ⟨e2, s2', h2, x2, hio, k2, kk2, kv2, kn2⟩ | ⟨hm, h2⟩
    · rw [h1, h2]
      refine ⟨_, fun _ _ h => .inl h, hr.ext x1 x2 hio, by rw [kk1, kk2], by rw [kv1, kv2], by rw [kn1, kn2], ⟨b, hb⟩, ?_⟩
      intro i hi a1 a2 ha1 ha2
      exact .inr ⟨_, hi, by simp [addrOf, k1, ha1], by simp [addrOf, k2, ha2]⟩
    · rw [h1, h2]
      exact ⟨q, rfl, blockAt_lt hb, by rw [← hr.rd]; exact hm, hL⟩
  · rw [blocksGet_beyond (fun q e he => ⟨_, (hr.w1.ent q e he).choose_spec.1⟩) (by rw [hr.c1]; exact hq),
      blocksGet_beyond (s := s2) (fun q e he => ⟨_, (hr.w2.ent q e he).choose_spec.1⟩) (by rw [hr.c2]; exact hq)]
    exact .inl ⟨rfl, β, fun _ _ h => h, hr⟩

end

end Hyperbee
