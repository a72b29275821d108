import Verif.Proof.Own
/-!
# A reader through a handle that has been used, while the core grows

What a handle holds in memory from before may differ from the core: nodes that its own writes have
replaced stay in memory as these writes left them.  `b` is the handle as it was; from then on the
handle is only read through, and the core grows.  `OkB`: from the moment a reader has asked for the
length of the core, which was `F` then, it only looks at blocks of `F`, and its result (`SimB`) is the
one the handle would have on `F`.  `G` is the set of the names of those nodes that the tree of `F` uses;
these are in memory as they are in the core.
-/

namespace Hyperbee

/-- The handle `b` on another core. -/
def St.on (b : St) (F : List Bytes) : St := { b with core := F, io := Io.good }

theorem idealEntry_eq (b : St) (F : List Bytes) (q : Nat) : idealEntry (b.on F) q =
    match b.cache q with
    | some e => .ok e
    | none =>
      match F[q]? with
      | none => .error (.noBlockAtSeq q)
      | some x =>
        match blockOf x with
        | some bk => .ok ⟨(List.range bk.nodes.length).map fun j => b.heap.length + Nat.pair q j, bk.key, bk.value⟩
        | none => .error (blockErr x) := rfl

theorem idealNode_eq (b : St) (F : List Bytes) (i : Nat) : idealNode (b.on F) i =
    if i < b.heap.length then b.heap[i]?
    else nodeAt F ⟨(Nat.unpair (i - b.heap.length)).1, (Nat.unpair (i - b.heap.length)).2⟩ := rfl

theorem idealEntry_on {b : St} {F C : List Bytes} (h : F <+: C) {q : Nat} (hq : q < F.length) :
    idealEntry (b.on C) q = idealEntry (b.on F) q := by
  obtain ⟨t, rfl⟩ := h
  have h : (F ++ t)[q]? = F[q]? := List.getElem?_append_left hq
  rw [idealEntry_eq, idealEntry_eq, h]

theorem idealNode_on {b : St} {F C : List Bytes} (h : F <+: C) {i : Nat} {n : Node} (hn : idealNode (b.on F) i = some n) :
    idealNode (b.on C) i = some n := by
  obtain ⟨t, rfl⟩ := h
  rw [idealNode_eq] at hn ⊢
  by_cases hi : i < b.heap.length
  · rw [if_pos hi] at hn ⊢; exact hn
  · rw [if_neg hi] at hn ⊢
    rw [nodeAt_append (nodeAt_lt hn)]
    exact hn

theorem idealEntry_load {b : St} {C : List Bytes} {q : Nat} (hc : b.cache q = none) {bk : Blk} (hb : blockAt C q = some bk) :
    idealEntry (b.on C) q =
      .ok ⟨(List.range bk.nodes.length).map fun j => b.heap.length + Nat.pair q j, bk.key, bk.value⟩ := by
  unfold blockAt at hb
  cases hx : C[q]? with
  | none => simp [hx] at hb
  | some x =>
    simp only [hx, Option.bind_some] at hb
    simp [idealEntry, St.on, Io.good, hx, hb, hc]

/-- What the handle has in memory is what it had, and what the core holds. -/
structure KnownB (b : St) (Γ : Names) (s : St) : Prop where
  io : s.io = Io.good
  cache : ∀ q e, b.cache q = some e → s.cache q = some e
  dom : ∀ a i, Γ a = some i → ∃ n, s.heap[a]? = some n ∧ idealNode (b.on s.core) i = some n
  ent : ∀ q e, s.cache q = some e → ∃ e', idealEntry (b.on s.core) q = .ok e' ∧ ERel Γ e e'
  lt : ∀ q e, s.cache q = some e → b.cache q = none → q < s.core.length

theorem KnownB.miss {b : St} {Γ : Names} {s : St} (h : KnownB b Γ s) {q : Nat} (hc : s.cache q = none) :
    b.cache q = none := by
  cases hb : b.cache q with
  | none => rfl
  | some e => rw [h.cache q e hb] at hc; cases hc

theorem knownB_start {b : St} (h : Rooms b) (C : List Bytes) :
    KnownB b (fun a => if a < b.heap.length then some a else none) (b.on C) := by
  have hi : Inv b _ b := inv_start h
  refine ⟨rfl, fun _ _ h => h, ?_, ?_, fun q e h1 h2 => by rw [show (b.on C).cache = b.cache from rfl, h2] at h1; cases h1⟩
  · intro a i ha
    by_cases hl : a < b.heap.length
    · simp only [hl, if_true, Option.some.injEq] at ha
      subst ha
      exact ⟨b.heap[a], List.getElem?_eq_getElem hl, by simp [idealNode, St.on, hl]⟩
    · simp [hl] at ha
  · intro q e he
    obtain ⟨e', h1, h2⟩ := hi.ent q e he
    rw [idealEntry, show b.cache q = some e from he] at h1
    cases h1
    exact ⟨e, by rw [idealEntry_eq, show b.cache q = some e from he], h2⟩

/-- Others append to the core. -/
theorem KnownB.core {b : St} {Γ : Names} {s : St} (h : KnownB b Γ s) {c : List Bytes} (hc : s.core <+: c) :
    KnownB b Γ { s with core := c } := by
  refine ⟨h.io, h.cache, ?_, ?_, ?_⟩
  · intro a i hi
    obtain ⟨n, h1, h2⟩ := h.dom a i hi
    exact ⟨n, h1, idealNode_on hc h2⟩
  · intro q e he
    obtain ⟨e', h1, h2⟩ := h.ent q e he
    refine ⟨e', ?_, h2⟩
    cases hb : b.cache q with
    | some e0 =>
      simp only [idealEntry, St.on, hb] at h1 ⊢
      exact h1
    | none => rw [← h1]; exact idealEntry_on hc (h.lt q e he hb)
  · intro q e he hb
    exact Nat.lt_of_lt_of_le (h.lt q e he hb) hc.length_le

theorem KnownB.heap {b : St} {Γ : Names} {s : St} (h : KnownB b Γ s) (xs : List Node) :
    KnownB b Γ { s with heap := s.heap ++ xs } := by
  refine ⟨h.io, h.cache, ?_, h.ent, h.lt⟩
  intro a i hi
  obtain ⟨n, h1, h2⟩ := h.dom a i hi
  exact ⟨n, by simp [List.getElem?_append_left (List.getElem?_eq_some_iff.mp h1).1, h1], h2⟩

/-- Loading the nodes of a block. -/
theorem KnownB.load {b : St} {Γ : Names} {s : St} (h : KnownB b Γ s) {q : Nat} {bk : Blk} (_hc : b.cache q = none)
    (hb : blockAt s.core q = some bk) :
    Γ.le (Γ.load s.heap.length bk.nodes.length fun j => b.heap.length + Nat.pair q j) ∧
    KnownB b (Γ.load s.heap.length bk.nodes.length fun j => b.heap.length + Nat.pair q j)
      { s with heap := s.heap ++ bk.nodes } := by
  have hle : Γ.le (Γ.load s.heap.length bk.nodes.length fun j => b.heap.length + Nat.pair q j) := by
    intro a i ha
    obtain ⟨n, h1, _⟩ := h.dom a i ha
    have := (List.getElem?_eq_some_iff.mp h1).1
    simp only [Names.load]
    rw [if_neg (by omega)]
    exact ha
  refine ⟨hle, h.io, h.cache, ?_, ?_, h.lt⟩
  · intro a i hi
    simp only [Names.load] at hi
    split at hi
    · rename_i hr
      simp only [Option.some.injEq] at hi
      subst hi
      have hlt : a - s.heap.length < bk.nodes.length := by omega
      refine ⟨bk.nodes[a - s.heap.length], ?_, ?_⟩
      · simp only []
        rw [List.getElem?_append_right hr.1, List.getElem?_eq_getElem hlt]
      · have : ¬ b.heap.length + Nat.pair q (a - s.heap.length) < b.heap.length := by omega
        simp only [idealNode, St.on, this, if_false]
        rw [Nat.add_sub_cancel_left, Nat.unpair_pair]
        simp [nodeAt, hb, hlt]
    · exact (h.heap bk.nodes).dom a i hi
  · intro q' e he
    obtain ⟨e', h1, h2⟩ := h.ent q' e he
    exact ⟨e', h1, h2.mono hle⟩

/-- Filing a block in the cache. -/
theorem KnownB.file {b : St} {Γ : Names} {s : St} (h : KnownB b Γ s) {q : Nat} {e : BlockEntry} {bk : Blk}
    (hc : b.cache q = none) (hb : blockAt s.core q = some bk)
    (hr : ERel Γ e ⟨(List.range bk.nodes.length).map fun j => b.heap.length + Nat.pair q j, bk.key, bk.value⟩) :
    KnownB b Γ { s with cache := cacheInsert q e s.cache } := by
  have hq : q < s.core.length := by
    unfold blockAt at hb
    cases hx : s.core[q]? with
    | none => simp [hx] at hb
    | some x => exact (List.getElem?_eq_some_iff.mp hx).1
  refine ⟨h.io, ?_, h.dom, ?_, ?_⟩
  · intro q' e' he'
    have hne : q' ≠ q := by rintro rfl; rw [hc] at he'; cases he'
    simp only [cacheInsert, hne, if_false]
    exact h.cache q' e' he'
  · intro q' e1 h1
    by_cases hqq : q' = q
    · subst hqq
      simp only [cacheInsert, if_true, Option.some.injEq] at h1
      subst h1
      exact ⟨_, idealEntry_load hc hb, hr⟩
    · simp only [cacheInsert, hqq, if_false] at h1
      exact h.ent q' e1 h1
  · intro q' e1 h1 hb'
    by_cases hqq : q' = q
    · subst hqq; exact hq
    · simp only [cacheInsert, hqq, if_false] at h1
      exact h.lt q' e1 h1 hb'

/-! ## Names of the nodes in use -/

/-- All names are in `G`. -/
def BdG (G : Nat → Prop) (Γ : Names) : Prop := ∀ a i, Γ a = some i → G i

open Classical in
/-- The names in `G`. -/
noncomputable def cutG (G : Nat → Prop) (Γ : Names) : Names := fun a => (Γ a).filter fun i => decide (G i)

theorem bdG_cut (G : Nat → Prop) (Γ : Names) : BdG G (cutG G Γ) := by
  intro a i h
  simp only [cutG, Option.filter_eq_some_iff, decide_eq_true_eq] at h
  exact h.2

theorem cutG_le (G : Nat → Prop) (Γ : Names) : (cutG G Γ).le Γ := by
  intro a i h
  simp only [cutG, Option.filter_eq_some_iff] at h
  exact h.1

theorem cutG_intro {G : Nat → Prop} {Γ : Names} {a i : Nat} (h : Γ a = some i) (hb : G i) : cutG G Γ a = some i := by
  simp only [cutG, Option.filter_eq_some_iff, decide_eq_true_eq]
  exact ⟨h, hb⟩

theorem le_cutG {G : Nat → Prop} {Γ Γ' : Names} (hb : BdG G Γ) (h : Γ.le Γ') : Γ.le (cutG G Γ') :=
  fun a i ha => cutG_intro (h a i ha) (hb a i ha)

theorem BdG.of_le {G : Nat → Prop} {Γ Γ' : Names} (h : Γ.le Γ') (hb : BdG G Γ') : BdG G Γ :=
  fun a i ha => hb a i (h a i ha)

/-- Whatever is loaded and appended in between, `p` only loads blocks, and its result satisfies
`Q`. -/
def OkB (b : St) (F : List Bytes) : Prog α → Names → (Names → Except Err α → Prop) → Prop
  | .pure a, Γ, Q => ∀ Γ', Γ.le Γ' → Q Γ' (.ok a)
  | .throw e, Γ, Q => ∀ Γ', Γ.le Γ' → Q Γ' (.error e)
  | .step x k, Γ, Q => ∀ Γg s, Γ.le Γg → F <+: s.core → KnownB b Γg s →
      ∃ Γg', Γg.le Γg' ∧ KnownB b Γg' (x.run s).2 ∧ (x.run s).2.core = s.core ∧ OkB b F (k (x.run s).1) Γg' Q

variable {b : St} {G : Nat → Prop} {F : List Bytes}

theorem OkB.mono {p : Prog α} {Γ Γ' : Names} {Q : Names → Except Err α → Prop} (hle : Γ.le Γ')
    (h : OkB b F p Γ Q) : OkB b F p Γ' Q := by
  cases p with
  | pure a => exact fun Γ'' hl => h Γ'' (hle.trans hl)
  | throw e => exact fun Γ'' hl => h Γ'' (hle.trans hl)
  | step x k => exact fun Γ'' s hl => h Γ'' s (hle.trans hl)

theorem OkB.bind {p : Prog α} {f : α → Prog β} {Γ : Names} {Q : Names → Except Err α → Prop}
    {R : Names → Except Err β → Prop} (h : OkB b F p Γ Q)
    (hf : ∀ Γ' a, Γ.le Γ' → Q Γ' (.ok a) → OkB b F (f a) Γ' R)
    (he : ∀ Γ' e, Γ.le Γ' → Q Γ' (.error e) → R Γ' (.error e)) :
    OkB b F (p >>= f) Γ R := by
  show OkB b F (Prog.bind p f) Γ R
  induction p generalizing Γ with
  | pure a => exact hf Γ a (.refl Γ) (h Γ (.refl Γ))
  | throw e => exact fun Γ' hl => he Γ' e hl (h Γ' hl)
  | step x k ih =>
    intro Γg s hl hF hi
    obtain ⟨Γg', h1, h2, h3, h4⟩ := h Γg s hl hF hi
    have hc := hl.trans h1
    exact ⟨Γg', h1, h2, h3, ih _ h4 (fun Γ3 a hl3 => hf Γ3 a (hc.trans hl3)) (fun Γ3 e hl3 => he Γ3 e (hc.trans hl3))⟩

theorem OkB.imp {p : Prog α} {Γ : Names} {Q R : Names → Except Err α → Prop} (h : OkB b F p Γ Q)
    (hq : ∀ Γ' r, Q Γ' r → R Γ' r) : OkB b F p Γ R := by
  induction p generalizing Γ with
  | pure a => exact fun Γ' hl => hq Γ' _ (h Γ' hl)
  | throw e => exact fun Γ' hl => hq Γ' _ (h Γ' hl)
  | step x k ih =>
    intro Γg s hl hF hi
    obtain ⟨Γg', h1, h2, h3, h4⟩ := h Γg s hl hF hi
    exact ⟨Γg', h1, h2, h3, ih _ h4⟩

theorem OkB.under {p : Prog α} {Γ : Names} {Q : Names → Except Err α → Prop} (a : Nat) (m : Mode)
    (h : OkB b F p Γ Q) : OkB b F (Prog.under a m p) Γ Q := by
  induction p generalizing Γ with
  | pure a => exact h
  | throw e => exact h
  | step x k ih =>
    intro Γg s hl hF hi
    obtain ⟨Γg', h1, h2, h3, h4⟩ := h Γg s hl hF hi
    exact ⟨Γg', h1, h2, h3, ih _ h4⟩

/-! ## The same result as on `F` -/

/-- `p` ends as `p'` does when all blocks of `F` are in memory. -/
def SimB (b : St) (G : Nat → Prop) (F : List Bytes) (p p' : Prog α) (Γ : Names) (R : Names → α → α → Prop) : Prop :=
  BdG G Γ → ∀ Γf, Γ.le Γf → OkB b F p Γf fun Γ' r => RR R (cutG G Γ') r (ideal (b.on F) p')

theorem SimB.mono {p p' : Prog α} {Γ Γ' : Names} {R : Names → α → α → Prop} (hle : Γ.le Γ')
    (h : SimB b G F p p' Γ R) : SimB b G F p p' Γ' R :=
  fun hb Γf hl => h (hb.of_le hle) Γf (hle.trans hl)

theorem SimB.pure {a i : α} {Γ : Names} {R : Names → α → α → Prop} (h : ∀ Γ', Γ.le Γ' → R Γ' a i) :
    SimB b G F (Pure.pure a) (Pure.pure i) Γ R := fun hb _ hl Γ' hl' => h _ (le_cutG hb (hl.trans hl'))

theorem SimB.throw {e : Err} {Γ : Names} {R : Names → α → α → Prop} :
    SimB b G F (Prog.throw e) (Prog.throw e) Γ R := fun _ _ _ _ _ => rfl

theorem SimB.bind' {p p' : Prog α} {f f' : α → Prog β} {Γ : Names} {R : Names → α → α → Prop}
    {S : Names → β → β → Prop} (h : SimB b G F p p' Γ R)
    (hf : ∀ Γ' a i, ideal (b.on F) p' = .ok i → Γ.le Γ' → R Γ' a i → SimB b G F (f a) (f' i) Γ' S) :
    SimB b G F (p >>= f) (p' >>= f') Γ S := by
  intro hb Γf hlf
  rw [ideal_bind]
  cases hp : ideal (b.on F) p' with
  | ok i =>
    refine OkB.bind (h hb Γf hlf) (fun Γ' a hl hr => ?_) (fun Γ' e hl hr => ?_)
    · rw [hp] at hr
      exact hf (cutG G Γ') a i hp (le_cutG hb (hlf.trans hl)) hr (bdG_cut G Γ') Γ' (cutG_le G Γ')
    · rw [hp] at hr; exact hr.elim
  | error e' =>
    refine OkB.bind (h hb Γf hlf) (fun Γ' a hl hr => ?_) (fun Γ' e hl hr => ?_)
    · rw [hp] at hr; exact hr.elim
    · rw [hp] at hr; exact hr

theorem SimB.bind {p p' : Prog α} {f f' : α → Prog β} {Γ : Names} {R : Names → α → α → Prop}
    {S : Names → β → β → Prop} (h : SimB b G F p p' Γ R)
    (hf : ∀ Γ' a i, Γ.le Γ' → R Γ' a i → SimB b G F (f a) (f' i) Γ' S) :
    SimB b G F (p >>= f) (p' >>= f') Γ S := SimB.bind' h fun Γ' a i _ => hf Γ' a i

theorem SimB.under {p p' : Prog α} {Γ : Names} {R : Names → α → α → Prop} (a i : Nat) (m : Mode)
    (h : SimB b G F p p' Γ R) : SimB b G F (Prog.under a m p) (Prog.under i m p') Γ R := by
  intro hb Γf hl
  rw [ideal_under]
  exact OkB.under a m (h hb Γf hl)

theorem SimB.tryResult {p p' : Prog α} {Γ : Names} {R : Names → α → α → Prop}
    (h : SimB b G F p p' Γ R) : SimB b G F p.tryResult p'.tryResult Γ (RR R) := by
  intro hb Γf hlf
  rw [ideal_tryResult]
  have h := h hb Γf hlf
  generalize ideal (b.on F) p' = r' at h
  clear hlf hb
  rename SimB _ _ _ _ _ _ _ => h0
  clear h0
  induction p generalizing Γf with
  | pure a =>
    intro Γ' hl
    have := h Γ' hl
    cases r' with
    | ok i => exact this
    | error e => exact this.elim
  | throw e =>
    have h0 := h Γf (.refl Γf)
    cases r' with
    | ok i => exact h0.elim
    | error e' =>
      have h0 : e = e' := h0
      subst h0
      cases e <;> exact fun Γ' hl => rfl
  | step x k ih =>
    intro Γg s hl hF hi
    obtain ⟨Γg', h1, h2, h3, h4⟩ := h Γg s hl hF hi
    exact ⟨Γg', h1, h2, h3, ih _ Γg' h4⟩

/-- A call's outcome as a reply. -/
def asReply (f : α → Reply) : Except Err α → Except Err Reply
  | .ok a => .ok (f a)
  | .error e => .ok (.error e)

theorem OkB.replyOf {p : Prog α} {r' : Except Err α} {Γ : Names} {f : α → Reply}
    (h : OkB b F p Γ fun Γ' r => RR EqR (cutG G Γ') r r') :
    OkB b F (Prog.replyOf f p) Γ fun Γ' r => RR EqR (cutG G Γ') r (asReply f r') := by
  induction p generalizing Γ with
  | pure a =>
    intro Γ' hl
    have := h Γ' hl
    cases r' with
    | ok i => exact congrArg f this
    | error e => exact this.elim
  | throw e =>
    intro Γ' hl
    have := h Γ' hl
    cases r' with
    | ok i => exact this.elim
    | error e' => exact congrArg Reply.error this
  | step x k ih =>
    intro Γg s hl hF hi
    obtain ⟨Γg', h1, h2, h3, h4⟩ := h Γg s hl hF hi
    exact ⟨Γg', h1, h2, h3, ih _ h4⟩

/-! ## The steps -/

/-- The names in `G` are of nodes that exist; what these nodes refer to exists, and is in `G`; so is the
root. -/
structure Fenced (b : St) (G : Nat → Prop) (F : List Bytes) : Prop where
  node : ∀ {i : Nat}, G i → ∃ n, idealNode (b.on F) i = some n
  keys : ∀ {i : Nat} {n : Node}, G i → idealNode (b.on F) i = some n → ∀ q ∈ n.keys, q < F.length
  kids : ∀ {i : Nat} {n : Node}, G i → idealNode (b.on F) i = some n → ∀ c ∈ n.children, c.seq < F.length ∧
    ∀ e i', idealEntry (b.on F) c.seq = .ok e → e.nodes[c.offset]? = some i' → G i'
  root : 1 < F.length → ∀ e i', idealEntry (b.on F) (F.length - 1) = .ok e → e.nodes[0]? = some i' → G i'

/-- The same block, up to the names of those of its nodes that are in `G`. -/
structure ERelG (G : Nat → Prop) (Γ : Names) (e e' : BlockEntry) : Prop where
  key : e.key = e'.key
  value : e.value = e'.value
  nodes : List.Forall₂ (fun a i => G i → Γ a = some i) e.nodes e'.nodes

theorem ERelG.mono {Γ Γ' : Names} (h : Γ.le Γ') {e e' : BlockEntry} (he : ERelG G Γ e e') : ERelG G Γ' e e' :=
  ⟨he.key, he.value, he.nodes.imp fun a i (hi : G i → Γ a = some i) (hg : G i) => h a i (hi hg)⟩

theorem ERel.cutG {Γ : Names} {e e' : BlockEntry} (h : ERel Γ e e') : ERelG G (cutG G Γ) e e' :=
  ⟨h.key, h.value, h.nodes.imp fun a i (hi : Γ a = some i) (hg : G i) => cutG_intro hi hg⟩

theorem simB_readNode' (hin : Fenced b G F) {Γ : Names} {a i : Nat} (h : Γ a = some i) :
    SimB b G F (Prog.readNode a) (Prog.readNode i) Γ
      (fun _ n n' => n = n' ∧ G i ∧ idealNode (b.on F) i = some n) := by
  intro hb Γf hlf Γg s hl hF hi
  obtain ⟨n, h1, h2⟩ := hi.dom a i (hl a i (hlf a i h))
  obtain ⟨n', hn'⟩ := hin.node (hb a i h)
  rw [idealNode_on hF hn'] at h2
  obtain rfl := Option.some.inj h2
  rw [show (Atom.readNode a).run s = (.ok n', s) from readNode_some h1]
  refine ⟨Γg, .refl Γg, hi, rfl, fun Γ' hl' => ?_⟩
  have : ideal (b.on F) (Prog.readNode i) = .ok n' := by
    simp only [Prog.readNode, Prog.lift, ideal, idealAtom, hn']
  show RR _ _ (.ok n') _
  rw [this]
  exact ⟨rfl, hb a i h, hn'⟩

theorem SimB.imp {p p' : Prog α} {Γ : Names} {R S : Names → α → α → Prop} (h : SimB b G F p p' Γ R)
    (hR : ∀ Γ' a i, R Γ' a i → S Γ' a i) : SimB b G F p p' Γ S := by
  refine fun hb Γf hl => OkB.imp (h hb Γf hl) fun Γ' r hr => ?_
  revert hr
  cases r <;> cases ideal (b.on F) p' <;> first | exact hR _ _ _ | exact id

theorem simB_readNode (hin : Fenced b G F) {Γ : Names} {a i : Nat} (h : Γ a = some i) :
    SimB b G F (Prog.readNode a) (Prog.readNode i) Γ EqR :=
  (simB_readNode' hin h).imp fun _ _ _ h => h.1

theorem simB_blocksGet {Γ : Names} {q : Nat} (hq : q < F.length) :
    SimB b G F (Prog.blocksGet q) (Prog.blocksGet q) Γ (ERelG G) := by
  intro hb Γf hlf
  rw [ideal_blocksGet]
  intro Γ1 s1 hl1 hF1 hi1
  refine ⟨Γ1, .refl Γ1, hi1, rfl, ?_⟩
  rw [show ((Atom.cacheGet q).run s1).1 = .ok (s1.cache q) from rfl]
  cases hc : s1.cache q with
  | some e =>
    obtain ⟨e', h1, h2⟩ := hi1.ent q e hc
    rw [idealEntry_on hF1 hq] at h1
    intro Γ' hl'
    rw [h1]
    exact (h2.mono hl').cutG
  | none =>
    have hbc := hi1.miss hc
    intro Γ2 s2 hl2 hF2 hi2
    obtain ⟨t, ht⟩ := hF2
    rw [show (Atom.coreFetch q).run s2 = getFromCore q s2 from rfl]
    have hr2 : s2.io.readable q = true := by rw [hi2.io]; rfl
    have hx : F[q]? = some F[q] := List.getElem?_eq_getElem hq
    have hx2 : s2.core[q]? = some F[q] := by rw [← ht, List.getElem?_append_left hq, hx]
    cases hbl : blockOf F[q] with
    | none =>
      obtain ⟨xs, hf⟩ := getFromCore_err hr2 hx2 hbl
      rw [hf]
      refine ⟨Γ2, .refl Γ2, hi2.heap xs, rfl, fun Γ' hl' => ?_⟩
      rw [show idealEntry (b.on F) q = .error (blockErr F[q]) by simp [idealEntry, St.on, Io.good, hx, hbl, hbc]]
      rfl
    | some bk =>
      have hba : blockAt F q = some bk := by simp [blockAt, hx, hbl]
      have hba2 : blockAt s2.core q = some bk := by rw [← ht]; exact blockAt_append_some hba _
      rw [getFromCore_run hr2 hba2, idealEntry_load hbc hba]
      obtain ⟨hle, hi3⟩ := hi2.load hbc hba2
      have her : ERel (Γ2.load s2.heap.length bk.nodes.length fun j => b.heap.length + Nat.pair q j)
          ⟨List.range' s2.heap.length bk.nodes.length, bk.key, bk.value⟩
          ⟨(List.range bk.nodes.length).map fun j => b.heap.length + Nat.pair q j, bk.key, bk.value⟩ :=
        ⟨rfl, rfl, forall2_load _ _ _ _⟩
      refine ⟨_, hle, hi3, rfl, ?_⟩
      intro Γ4 s4 hl4 hF4 hi4
      have her4 := her.mono hl4
      refine ⟨Γ4, .refl Γ4, ?_, rfl, fun Γ5 hl5 => ?_⟩
      · obtain ⟨t4, ht4⟩ := hF4
        exact hi4.file hbc (by rw [← ht4]; exact blockAt_append_some hba _) her4
      · exact (her4.mono hl5).cutG

theorem simB_getTreeNode {Γ : Names} {e e' : BlockEntry} (h : ERelG G Γ e e') (o : Nat)
    (hg : ∀ i, e'.nodes[o]? = some i → G i) :
    SimB b G F (Prog.getTreeNode e o) (Prog.getTreeNode e' o) Γ NameR := by
  have := forall2_rel h.nodes o
  unfold Prog.getTreeNode
  revert this hg
  cases e.nodes[o]? <;> cases e'.nodes[o]? <;> intro hg this
  · exact SimB.throw
  · nomatch this
  · nomatch this
  · cases this with
    | some h => exact SimB.pure fun Γ' hl => hl _ _ (h (hg _ rfl))

/-- An entry of a list, and where it is from. -/
theorem simB_nth {Γ : Names} {site : String} (l : List α) (i : Nat) :
    SimB b G F (Prog.orPanic site l[i]?) (Prog.orPanic site l[i]?) Γ (fun _ a a' => a = a' ∧ a ∈ l) := by
  cases h : l[i]? with
  | none => exact SimB.throw
  | some a => exact SimB.pure fun _ _ => ⟨rfl, List.mem_of_getElem? h⟩

theorem simB_getChild (hin : Fenced b G F) {Γ : Names} {a i : Nat} (h : Γ a = some i) (j : Nat) :
    SimB b G F (Prog.getChild a j) (Prog.getChild i j) Γ NameR := by
  unfold Prog.getChild
  refine SimB.bind (simB_readNode' hin h) ?_
  rintro Γ1 n _ h1 ⟨rfl, hg, hn⟩
  refine SimB.under a i .read (SimB.bind (simB_nth _ _) ?_)
  rintro Γ2 c _ h2 ⟨rfl, hc⟩
  obtain ⟨hlt, hkid⟩ := hin.kids hg hn c hc
  refine SimB.bind' (simB_blocksGet hlt) fun Γ3 e e' hid h3 he => simB_getTreeNode he _ ?_
  rw [ideal_blocksGet] at hid
  exact fun i' => hkid e' i' hid

theorem simB_getKeyValue (hin : Fenced b G F) {Γ : Names} {a i : Nat} (h : Γ a = some i) (j : Nat) :
    SimB b G F (Prog.getKeyValue a j) (Prog.getKeyValue i j) Γ EqR := by
  unfold Prog.getKeyValue
  refine SimB.bind (simB_readNode' hin h) ?_
  rintro Γ1 n _ h1 ⟨rfl, hg, hn⟩
  refine SimB.under a i .read (SimB.bind (simB_nth _ _) ?_)
  rintro Γ2 q _ h2 ⟨rfl, hq⟩
  have hlt := hin.keys hg hn q hq
  refine SimB.bind (simB_blocksGet hlt) fun Γ3 b1 b1' h3 he1 => ?_
  refine SimB.bind (simB_blocksGet hlt) fun Γ4 b2 b2' h4 he2 => ?_
  rw [he1.key, he2.value]
  exact SimB.pure fun _ _ => rfl

theorem simBLaws (hin : Fenced b G F) : Laws fun _ p p' Γ R => SimB b G F p p' Γ R where
  pure h := SimB.pure h
  throw := SimB.throw
  bind h hf := SimB.bind h hf
  under a i m h := SimB.under a i m h
  tryResult h := SimB.tryResult h
  readNode h := simB_readNode hin h
  getChild h := simB_getChild hin h
  getKeyValue h := simB_getKeyValue hin h

/-! ## Descents -/

theorem simB_nearestNode (hin : Fenced b G F) {Γ : Names} {a i : Nat} (h : Γ a = some i) (k : LimitValue)
    (hd : ideal (b.on F) (Prog.nearestNode i k) ≠ .error .diverge) :
    SimB b G F (Prog.nearestNode a k) (Prog.nearestNode i k) Γ FoundR := by
  have h0 : ideal (b.on F) (Prog.nearestNode i k) = ideal (b.on F) (Prog.nearestLoop k (stepBound F) i []) := rfl
  unfold SimB
  rw [h0] at hd ⊢
  intro hb Γf hlf Γg s hl hF hi
  refine ⟨Γg, .refl Γg, hi, rfl, ?_⟩
  have := (simBLaws hin).nearestLoop k (stepBound s.core) a i [] [] (cutG G Γg) (le_cutG hb (hlf.trans hl) a i h) .nil
    (bdG_cut G Γg) Γg (cutG_le G Γg)
  rw [ideal_nearestLoop_more (b.on F) k _ _ (stepBound_mono hF) i [] hd] at this
  exact this

/-! ## Calls, from their second step on -/

/-- What remains of a program whose first step asks for the length of the core. -/
def ThenB (b : St) (G : Nat → Prop) (F : List Bytes) (p : Prog α) (R : Names → α → α → Prop) : Prop :=
  ∃ k, p = .step .version k ∧ ∀ Γ, OkB b F (k (.ok F.length)) Γ fun Γ' r => RR R (cutG G Γ') r (ideal (b.on F) p)

theorem thenB_version : ThenB b G F Prog.version EqR := ⟨_, rfl, fun _ _ _ => rfl⟩

theorem ThenB.bind {p : Prog α} {f : α → Prog β} {R : Names → α → α → Prop} {S : Names → β → β → Prop}
    (h : ThenB b G F p R) (hf : ∀ Γ a i, ideal (b.on F) p = .ok i → R Γ a i → SimB b G F (f a) (f i) Γ S) :
    ThenB b G F (p >>= f) S := by
  obtain ⟨k, rfl, h⟩ := h
  refine ⟨fun r => Prog.bind (k r) f, rfl, fun Γ => ?_⟩
  rw [ideal_bind]
  cases hp : ideal (b.on F) (.step .version k) with
  | ok i =>
    refine OkB.bind (h Γ) (fun Γ' a hl hr => ?_) (fun Γ' e hl hr => ?_)
    · rw [hp] at hr; exact hf (cutG G Γ') a i hp hr (bdG_cut G Γ') Γ' (cutG_le G Γ')
    · rw [hp] at hr; exact hr.elim
  | error e' =>
    refine OkB.bind (h Γ) (fun Γ' a hl hr => ?_) (fun Γ' e hl hr => ?_)
    · rw [hp] at hr; exact hr.elim
    · rw [hp] at hr; exact hr

theorem ThenB.replyOf {p : Prog α} {f : α → Reply} (h : ThenB b G F p EqR) : ThenB b G F (Prog.replyOf f p) EqR := by
  obtain ⟨k, rfl, h⟩ := h
  refine ⟨fun r => Prog.replyOf f (k r), rfl, fun Γ => ?_⟩
  rw [show ideal (b.on F) (Prog.replyOf f (.step .version k)) = asReply f (ideal (b.on F) (.step .version k)) by
    rw [ideal_replyOf]; cases ideal (b.on F) (.step .version k) <;> rfl]
  exact OkB.replyOf (h Γ)

theorem thenB_getRoot (hin : Fenced b G F) : ThenB b G F (Prog.getRoot false) RootR := by
  unfold Prog.getRoot
  refine thenB_version.bind ?_
  intro Γ v _ h0 hv
  cases hv
  cases h0
  split
  · split
    · rename_i h; simp at h
    · exact SimB.pure fun _ _ => Option.Rel.none
  · rename_i hv
    have hv : ¬ F.length ≤ 1 := hv
    have hlt : F.length - 1 < F.length := by omega
    refine SimB.bind' (simB_blocksGet hlt) fun Γ2 e e' hid h2 he => ?_
    rw [ideal_blocksGet] at hid
    refine SimB.bind (simB_getTreeNode he _ fun i' => hin.root (Nat.lt_of_not_le hv) e' i' hid) fun Γ3 a i h3 ha => ?_
    exact SimB.pure fun Γ4 h4 => Option.Rel.some (h4 _ _ ha)

theorem thenB_get (hin : Fenced b G F) (k : Bytes) (hd : ideal (b.on F) (Prog.get k) ≠ .error .diverge) :
    ThenB b G F (Prog.get k) EqR := by
  unfold Prog.get at hd ⊢
  refine (thenB_getRoot hin).bind ?_
  intro Γ1 r r' h1 hr
  rw [ideal_bind, h1] at hd
  cases hr with
  | none => exact SimB.pure fun _ _ => rfl
  | @some a i ha =>
    dsimp only at hd
    rw [ideal_bind] at hd
    refine SimB.bind (simB_nearestNode hin ha _ ?_) ?_
    · intro he
      rw [he] at hd
      exact hd rfl
    rintro Γ2 ⟨m, p⟩ ⟨m', p'⟩ h2 ⟨hm, hp⟩
    cases hm
    cases m with
    | none => exact SimB.pure fun _ _ => rfl
    | some q =>
      refine SimB.bind ((simBLaws hin).head hp) ?_
      rintro Γ3 ⟨a, j⟩ ⟨i, j'⟩ h3 ⟨ha3, hj⟩
      cases hj
      refine SimB.bind (simB_getKeyValue hin ha3 _) fun Γ4 kv kv' h4 hkv => ?_
      cases hkv
      exact SimB.pure fun _ _ => rfl

theorem thenB_traverseSession (hin : Fenced b G F) (tb : TraverseConfigBuilder) (rs : List Bool) (conf : TraverseConfig)
    (hb : tb.build = .ok conf) : ThenB b G F (Prog.traverseSession tb rs) EqR := by
  unfold Prog.traverseSession
  rw [hb]
  dsimp only
  unfold Prog.collect Prog.traverse
  refine ThenB.bind (R := CollectedR) (ThenB.bind (R := fun Γ => List.Forall₂ (FrameR Γ)) ((thenB_getRoot hin).bind ?_) ?_) ?_
  · intro Γ r r' _ hr
    cases hr with
    | none => exact SimB.throw
    | some ha => exact SimB.pure fun Γ2 h2 => .cons (frame_new (h2 _ _ ha) _) .nil
  · intro Γ fs fs' _ hf
    exact (simBLaws hin).drive rs fs fs' Γ hf
  · rintro Γ2 ⟨xs, fin⟩ ⟨xs', fin'⟩ h2 ⟨hxs, hfin⟩
    cases hxs
    cases hfin with
    | none => exact SimB.pure fun _ _ => rfl
    | some hh => exact SimB.pure fun _ _ => rfl

/-- A reading call asks for the length of the core first, or never reads. -/
theorem thenB_exec (hin : Fenced b G F) {c : Cmd} (hc : c.looks = true)
    (hd : ideal (b.on F) (Prog.exec c) ≠ .ok (.error .diverge)) :
    ThenB b G F (Prog.exec c) EqR ∨ ∃ r, Prog.exec c = .pure r ∧ ideal (b.on F) (Prog.exec c) = .ok r := by
  cases c with
  | version => exact .inl thenB_version.replyOf
  | get k =>
    refine .inl (ThenB.replyOf (thenB_get hin k ?_))
    intro he
    apply hd
    show ideal (b.on F) (Prog.replyOf _ (Prog.get k)) = _
    rw [ideal_replyOf, he]
  | traverse b rs =>
    cases hb : b.build with
    | error e =>
      refine .inr ⟨.error e, ?_, ?_⟩
      · show Prog.replyOf _ (Prog.traverseSession b rs) = _
        unfold Prog.traverseSession
        rw [hb]
        rfl
      · show ideal _ (Prog.replyOf _ (Prog.traverseSession b rs)) = _
        unfold Prog.traverseSession
        rw [hb]
        rfl
    | ok conf => exact .inl (ThenB.replyOf (thenB_traverseSession hin b rs conf hb))
  | _ => cases hc

end Hyperbee
