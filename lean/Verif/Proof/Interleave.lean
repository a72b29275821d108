import Verif.Proof.Async
import Verif.Proof.Clean
import Mathlib.Data.Nat.Pairing
/-!
# Programs that run at the same time

`Ok`: whatever other programs do in between, as long as they only load blocks, each step of this
one only loads blocks too, and if it ends its result satisfies a condition.  `Sim`: its result is
the one the program would have if every block that can be had were in memory from the start.
-/

namespace Hyperbee

/-! ## All blocks in memory -/

/-- The error of reading a block that does not decode. -/
def blockErr (x : Bytes) : Err :=
  match decodeNode x with
  | none => .decode
  | some m =>
    match decodeYolo m.index with
    | none => .decode
    | some _ => .panic "blocks.rs:188 level.children[i + 1]"

theorem getFromCore_err {s : St} {q : Nat} {x : Bytes} (hr : s.io.readable q = true)
    (hx : s.core[q]? = some x) (hb : blockOf x = none) :
    ∃ xs, getFromCore q s = (.error (blockErr x), { s with heap := s.heap ++ xs }) := by
  have hg : coreGet q s = (.ok (some x), s) := by simp [coreGet, hr, hx]
  unfold getFromCore blockErr
  rw [bind_ok hg]
  unfold blockOf at hb
  cases h1 : decodeNode x with
  | none => exact ⟨[], by simp [h1, Hyperbee.throw]⟩
  | some m =>
    simp only [h1] at hb ⊢
    cases h2 : decodeYolo m.index with
    | none =>
      refine ⟨[], ?_⟩
      have hm : makeNodeVec m.index s = (.error .decode, s) := by unfold makeNodeVec; rw [h2]; rfl
      simp only [blockEntryNew, bind_run, hm]
      simp
    | some ls =>
      simp only [h2] at hb
      cases h3 : levelsToNodes ls with
      | some ns => simp [h3] at hb
      | none =>
        obtain ⟨xs, hxs⟩ := allocLevels_bad h3 s
        refine ⟨xs, ?_⟩
        have hm : makeNodeVec m.index s = allocLevels ls s := by unfold makeNodeVec; rw [h2]
        simp only [blockEntryNew, bind_run, hm, hxs]

/-- The block at `q`, as the handle in state `s` has it or would load it.  The nodes of a block not
in the cache are named by made-up addresses. -/
def idealEntry (s : St) (q : Nat) : Except Err BlockEntry :=
  match s.cache q with
  | some e => .ok e
  | none =>
    if s.io.readable q then
      match s.core[q]? with
      | none => .error (.noBlockAtSeq q)
      | some x =>
        match blockOf x with
        | some b =>
          .ok ⟨(List.range b.nodes.length).map fun j => s.heap.length + Nat.pair q j, b.key, b.value⟩
        | none => .error (blockErr x)
    else .error (.noBlockAtSeq q)

/-- The node with the given address, real or made up. -/
def idealNode (s : St) (i : Nat) : Option Node :=
  if i < s.heap.length then s.heap[i]?
  else nodeAt s.core ⟨(Nat.unpair (i - s.heap.length)).1, (Nat.unpair (i - s.heap.length)).2⟩

/-- What a step returns when everything is in memory.  (Steps that write do not occur.) -/
def idealAtom (s : St) : Atom β → Except Err β
  | .version => .ok s.core.length
  | .descentFuel => .ok (stepBound s.core)
  | .cacheGet q =>
    match idealEntry s q with
    | .ok e => .ok (some e)
    | .error _ => .ok none
  | .coreFetch q =>
    match idealEntry s q with
    | .ok e => .ok (some e)
    | .error (.noBlockAtSeq _) => .ok none
    | .error e => .error e
  | .cacheInsert _ _ => .ok ()
  | .readNode i =>
    match idealNode s i with
    | some n => .ok n
    | none => .error (.panic "dangling node")
  | .edit _ _ _ => .error .diverge
  | .lockChildren _ => .ok ()
  | .moveChildren _ _ _ => .error .diverge
  | .alloc _ => .error .diverge
  | .coreAppend _ => .error .diverge
  | .under _ _ x => idealAtom s x

/-- What a program returns when everything is in memory. -/
def ideal (s : St) : Prog α → Except Err α
  | .pure a => .ok a
  | .throw e => .error e
  | .step x k => ideal s (k (idealAtom s x))

theorem ideal_under (s : St) (a : Nat) (m : Mode) (p : Prog α) : ideal s (Prog.under a m p) = ideal s p := by
  induction p with
  | pure a => rfl
  | throw e => rfl
  | step x k ih => exact ih _

theorem ideal_bind (s : St) (p : Prog α) (f : α → Prog β) :
    ideal s (p >>= f) = match ideal s p with
      | .ok a => ideal s (f a)
      | .error e => .error e := by
  show ideal s (Prog.bind p f) = _
  induction p with
  | pure a => rfl
  | throw e => rfl
  | step x k ih => exact ih _

theorem ideal_tryResult (s : St) (p : Prog α) :
    ideal s p.tryResult = match ideal s p with
      | .ok a => .ok (.ok a)
      | .error (.panic site) => .error (.panic site)
      | .error .diverge => .error .diverge
      | .error e => .ok (.error e) := by
  induction p with
  | pure a => rfl
  | throw e => cases e <;> rfl
  | step x k ih => exact ih _

/-! ## The names of nodes -/

/-- Which node of the ideal memory an address stands for. -/
abbrev Names := Nat → Option Nat

def Names.le (Γ Γ' : Names) : Prop := ∀ a i, Γ a = some i → Γ' a = some i

theorem Names.le.refl (Γ : Names) : Γ.le Γ := fun _ _ h => h

theorem Names.le.trans {Γ Γ' Γ'' : Names} (h : Γ.le Γ') (h' : Γ'.le Γ'') : Γ.le Γ'' :=
  fun a i ha => h' a i (h a i ha)

/-- The same block, up to the names of its nodes. -/
structure ERel (Γ : Names) (e e' : BlockEntry) : Prop where
  key : e.key = e'.key
  value : e.value = e'.value
  nodes : List.Forall₂ (fun a i => Γ a = some i) e.nodes e'.nodes

theorem ERel.mono {Γ Γ' : Names} (h : Γ.le Γ') {e e' : BlockEntry} (he : ERel Γ e e') : ERel Γ' e e' :=
  ⟨he.key, he.value, he.nodes.imp fun a i => h a i⟩

/-- `s` is `s0` after blocks have been loaded, in whatever order and how often. -/
structure Inv (s0 : St) (Γ : Names) (s : St) : Prop where
  core : s.core = s0.core
  io : s.io = s0.io
  heap : ∃ xs, s.heap = s0.heap ++ xs
  dom : ∀ a i, Γ a = some i → ∃ n, s.heap[a]? = some n ∧ idealNode s0 i = some n
  old : ∀ a, a < s0.heap.length → Γ a = some a
  own : ∀ a i, Γ a = some i → i < s0.heap.length → a = i
  cache : ∀ q e, s0.cache q = some e → s.cache q = some e
  ent : ∀ q e, s.cache q = some e → ∃ e', idealEntry s0 q = .ok e' ∧ ERel Γ e e'

/-- The addresses in the cache are addresses. -/
def Rooms (s : St) : Prop := ∀ q e, s.cache q = some e → ∀ a ∈ e.nodes, a < s.heap.length

theorem inv_start {s : St} (h : Rooms s) :
    Inv s (fun a => if a < s.heap.length then some a else none) s := by
  refine ⟨rfl, rfl, ⟨[], by simp⟩, ?_, fun a ha => by simp [ha], ?_, fun _ _ h => h, ?_⟩
  rotate_left
  · intro a i hi _
    by_cases ha : a < s.heap.length
    · simpa [ha] using hi
    · simp [ha] at hi
  rotate_left
  · intro a i hi
    by_cases ha : a < s.heap.length
    · simp only [ha, if_true, Option.some.injEq] at hi
      subst hi
      exact ⟨s.heap[a], List.getElem?_eq_getElem ha, by simp [idealNode, ha]⟩
    · simp [ha] at hi
  · intro q e he
    refine ⟨e, by simp [idealEntry, he], rfl, rfl, ?_⟩
    have := h q e he
    generalize e.nodes = l at this
    induction l with
    | nil => exact .nil
    | cons a l ih =>
      exact .cons (by simp [this a (by simp)]) (ih fun b hb => this b (by simp [hb]))

theorem Inv.grow {s0 s : St} {Γ : Names} (h : Inv s0 Γ s) (xs : List Node) :
    Inv s0 Γ { s with heap := s.heap ++ xs } := by
  refine ⟨h.core, h.io, ?_, ?_, h.old, h.own, h.cache, h.ent⟩
  · obtain ⟨ys, hy⟩ := h.heap
    exact ⟨ys ++ xs, by simp [hy]⟩
  · intro a i hi
    obtain ⟨n, h1, h2⟩ := h.dom a i hi
    exact ⟨n, by simp [List.getElem?_append_left (List.getElem?_eq_some_iff.mp h1).1, h1], h2⟩

/-- Steps that change a node or the core. -/
def Atom.writes : Atom β → Bool
  | .edit _ _ _ => true
  | .moveChildren _ _ _ => true
  | .under _ _ x => x.writes
  | .alloc _ => true
  | .coreAppend _ => true
  | _ => false

/-- Whatever is loaded in between, `p` only loads blocks (or, with `esc`, stops at a step that
writes), and its result satisfies `Q`. -/
def Ok (s0 : St) (esc : Bool) : Prog α → Names → (Names → Except Err α → Prop) → Prop
  | .pure a, Γ, Q => ∀ Γ', Γ.le Γ' → Q Γ' (.ok a)
  | .throw e, Γ, Q => ∀ Γ', Γ.le Γ' → Q Γ' (.error e)
  | .step x k, Γ, Q =>
    (esc = true ∧ x.writes = true) ∨
    ∀ Γ' s, Γ.le Γ' → Inv s0 Γ' s →
      ∃ Γ'', Γ'.le Γ'' ∧ Inv s0 Γ'' (x.run s).2 ∧ Ok s0 esc (k (x.run s).1) Γ'' Q

variable {s0 : St} {esc : Bool}

theorem Ok.mono {p : Prog α} {Γ Γ' : Names} {Q : Names → Except Err α → Prop} (hle : Γ.le Γ')
    (h : Ok s0 esc p Γ Q) : Ok s0 esc p Γ' Q := by
  cases p with
  | pure a => exact fun Γ'' hl => h Γ'' (hle.trans hl)
  | throw e => exact fun Γ'' hl => h Γ'' (hle.trans hl)
  | step x k =>
    rcases h with h | h
    · exact .inl h
    · exact .inr fun Γ'' s hl hi => h Γ'' s (hle.trans hl) hi

theorem Ok.bind {p : Prog α} {f : α → Prog β} {Γ : Names} {Q : Names → Except Err α → Prop}
    {R : Names → Except Err β → Prop} (h : Ok s0 esc p Γ Q)
    (hf : ∀ Γ' a, Γ.le Γ' → Q Γ' (.ok a) → Ok s0 esc (f a) Γ' R)
    (he : ∀ Γ' e, Γ.le Γ' → Q Γ' (.error e) → R Γ' (.error e)) :
    Ok s0 esc (p >>= f) Γ R := by
  show Ok s0 esc (Prog.bind p f) Γ R
  induction p generalizing Γ with
  | pure a => exact hf Γ a (.refl Γ) (h Γ (.refl Γ))
  | throw e => exact fun Γ' hl => he Γ' e hl (h Γ' hl)
  | step x k ih =>
    rcases h with h | h
    · exact .inl h
    · refine .inr fun Γ' s hl hi => ?_
      obtain ⟨Γ'', h1, h2, h3⟩ := h Γ' s hl hi
      exact ⟨Γ'', h1, h2, ih _ h3 (fun Γ3 a hl3 => hf Γ3 a ((hl.trans h1).trans hl3))
        (fun Γ3 e hl3 => he Γ3 e ((hl.trans h1).trans hl3))⟩

theorem Ok.imp {p : Prog α} {Γ : Names} {Q R : Names → Except Err α → Prop} (h : Ok s0 esc p Γ Q)
    (hq : ∀ Γ' r, Γ.le Γ' → Q Γ' r → R Γ' r) : Ok s0 esc p Γ R := by
  induction p generalizing Γ with
  | pure a => exact fun Γ' hl => hq Γ' _ hl (h Γ' hl)
  | throw e => exact fun Γ' hl => hq Γ' _ hl (h Γ' hl)
  | step x k ih =>
    rcases h with h | h
    · exact .inl h
    · refine .inr fun Γ' s hl hi => ?_
      obtain ⟨Γ'', h1, h2, h3⟩ := h Γ' s hl hi
      exact ⟨Γ'', h1, h2, ih _ h3 fun Γ3 r hl3 => hq Γ3 r ((hl.trans h1).trans hl3)⟩

theorem Ok.under {p : Prog α} {Γ : Names} {Q : Names → Except Err α → Prop} (a : Nat) (m : Mode)
    (h : Ok s0 esc p Γ Q) : Ok s0 esc (Prog.under a m p) Γ Q := by
  induction p generalizing Γ with
  | pure a => exact h
  | throw e => exact h
  | step x k ih =>
    rcases h with h | h
    · exact .inl h
    · refine .inr fun Γ' s hl hi => ?_
      obtain ⟨Γ'', h1, h2, h3⟩ := h Γ' s hl hi
      exact ⟨Γ'', h1, h2, ih _ h3⟩

/-- A program that runs alone. -/
theorem Ok.run {p : Prog α} {Γ : Names} {Q : Names → Except Err α → Prop} (h : Ok s0 false p Γ Q)
    {s : St} (hi : Inv s0 Γ s) : ∃ Γ', Γ.le Γ' ∧ Inv s0 Γ' (p.run s).2 ∧ Q Γ' (p.run s).1 := by
  induction p generalizing Γ s with
  | pure a => exact ⟨Γ, .refl Γ, hi, h Γ (.refl Γ)⟩
  | throw e => exact ⟨Γ, .refl Γ, hi, h Γ (.refl Γ)⟩
  | step x k ih =>
    rcases h with h | h
    · simp at h
    · obtain ⟨Γ', h1, h2, h3⟩ := h Γ s (.refl Γ) hi
      obtain ⟨Γ'', g1, g2, g3⟩ := ih _ h3 h2
      exact ⟨Γ'', h1.trans g1, g2, g3⟩

/-! ## The same result as with everything in memory -/

/-- Related results. -/
def RR (R : Names → α → α → Prop) (Γ : Names) : Except Err α → Except Err α → Prop
  | .ok a, .ok i => R Γ a i
  | .error e, .error e' => e = e'
  | _, _ => False

/-- `p` ends as `p'` does when everything is in memory. -/
def Sim (s0 : St) (esc : Bool) (p p' : Prog α) (Γ : Names) (R : Names → α → α → Prop) : Prop :=
  Ok s0 esc p Γ fun Γ' r => RR R Γ' r (ideal s0 p')

/-- Equal, whatever the names. -/
def EqR : Names → α → α → Prop := fun _ a i => a = i

/-- An address and the node it stands for. -/
def NameR : Names → Nat → Nat → Prop := fun Γ a i => Γ a = some i

theorem Sim.mono {p p' : Prog α} {Γ Γ' : Names} {R : Names → α → α → Prop} (hle : Γ.le Γ')
    (h : Sim s0 esc p p' Γ R) : Sim s0 esc p p' Γ' R := Ok.mono hle h

theorem Sim.pure {a i : α} {Γ : Names} {R : Names → α → α → Prop} (h : ∀ Γ', Γ.le Γ' → R Γ' a i) :
    Sim s0 esc (Pure.pure a) (Pure.pure i) Γ R := fun Γ' hl => h Γ' hl

theorem Sim.eq {a : α} {Γ : Names} : Sim s0 esc (Pure.pure a) (Pure.pure a) Γ EqR :=
  Sim.pure fun _ _ => rfl

theorem Sim.throw {e : Err} {Γ : Names} {R : Names → α → α → Prop} :
    Sim s0 esc (Prog.throw e) (Prog.throw e) Γ R := fun _ _ => rfl

theorem Sim.bind {p p' : Prog α} {f f' : α → Prog β} {Γ : Names} {R : Names → α → α → Prop}
    {S : Names → β → β → Prop} (h : Sim s0 esc p p' Γ R)
    (hf : ∀ Γ' a i, Γ.le Γ' → R Γ' a i → Sim s0 esc (f a) (f' i) Γ' S) :
    Sim s0 esc (p >>= f) (p' >>= f') Γ S := by
  unfold Sim
  rw [ideal_bind]
  cases hp : ideal s0 p' with
  | ok i =>
    refine Ok.bind h (fun Γ' a hl hr => ?_) (fun Γ' e hl hr => ?_)
    · rw [hp] at hr; exact hf Γ' a i hl hr
    · rw [hp] at hr; exact hr.elim
  | error e' =>
    refine Ok.bind h (fun Γ' a hl hr => ?_) (fun Γ' e hl hr => ?_)
    · rw [hp] at hr; exact hr.elim
    · rw [hp] at hr; exact hr

theorem Sim.under {p p' : Prog α} {Γ : Names} {R : Names → α → α → Prop} (a i : Nat) (m : Mode)
    (h : Sim s0 esc p p' Γ R) : Sim s0 esc (Prog.under a m p) (Prog.under i m p') Γ R := by
  unfold Sim
  rw [ideal_under]
  exact Ok.under a m h

theorem Sim.orPanic {site : String} {o o' : Option α} {Γ : Names} {R : Names → α → α → Prop}
    (h : ∀ Γ', Γ.le Γ' → Option.Rel (R Γ') o o') :
    Sim s0 esc (Prog.orPanic site o) (Prog.orPanic site o') Γ R := by
  cases o with
  | none =>
    cases o' with
    | none => exact Sim.throw
    | some i => nomatch h Γ (.refl Γ)
  | some a =>
    cases o' with
    | none => nomatch h Γ (.refl Γ)
    | some i => exact Sim.pure fun Γ' hl => by cases h Γ' hl; assumption

theorem Sim.orPanic_eq {site : String} {o : Option α} {Γ : Names} :
    Sim s0 esc (Prog.orPanic site o) (Prog.orPanic site o) Γ EqR := by
  cases o
  · exact Sim.throw
  · exact Sim.eq

/-- Related results of `tryResult`. -/
theorem Sim.tryResult {p p' : Prog α} {Γ : Names} {R : Names → α → α → Prop}
    (h : Sim s0 esc p p' Γ R) : Sim s0 esc p.tryResult p'.tryResult Γ (RR R) := by
  unfold Sim at *
  rw [ideal_tryResult]
  generalize ideal s0 p' = r' at h
  induction p generalizing Γ with
  | pure a =>
    intro Γ' hl
    have := h Γ' hl
    cases r' with
    | ok i => exact this
    | error e => exact this.elim
  | throw e =>
    have h0 := h Γ (.refl Γ)
    cases r' with
    | ok i => exact h0.elim
    | error e' =>
      have h0 : e = e' := h0
      subst h0
      cases e <;> exact fun Γ' hl => rfl
  | step x k ih =>
    rcases h with h | h
    · exact .inl h
    · refine .inr fun Γ' s hl hi => ?_
      obtain ⟨Γ'', h1, h2, h3⟩ := h Γ' s hl hi
      exact ⟨Γ'', h1, h2, ih _ h3⟩

theorem Sim.replyOf {p p' : Prog α} {Γ : Names} {f : α → Reply} (h : Sim s0 esc p p' Γ EqR) :
    Sim s0 esc (Prog.replyOf f p) (Prog.replyOf f p') Γ EqR := by
  unfold Sim at *
  have he : ideal s0 (Prog.replyOf f p') = match ideal s0 p' with
      | .ok a => .ok (f a)
      | .error e => .ok (.error e) := by
    clear h
    induction p' with
    | pure a => rfl
    | throw e => rfl
    | step x k ih => exact ih _
  rw [he]
  generalize ideal s0 p' = r' at h
  clear he
  induction p generalizing Γ with
  | pure a =>
    intro Γ' hl
    have := h Γ' hl
    cases r' with
    | ok i => exact congrArg f this
    | error e => exact this.elim
  | throw e =>
    intro Γ' hl
    have := h Γ' hl
    cases r' with
    | ok i => exact this.elim
    | error e' => exact congrArg Reply.error this
  | step x k ih =>
    rcases h with h | h
    · exact .inl h
    · refine .inr fun Γ' s hl hi => ?_
      obtain ⟨Γ'', h1, h2, h3⟩ := h Γ' s hl hi
      exact ⟨Γ'', h1, h2, ih _ h3⟩

/-! ## The steps -/

theorem sim_version {Γ : Names} : Sim s0 esc Prog.version Prog.version Γ EqR := by
  refine .inr fun Γ' s hl hi => ⟨Γ', .refl Γ', hi, ?_⟩
  intro Γ'' hl''
  show s.core.length = s0.core.length
  rw [hi.core]

theorem sim_descentFuel {Γ : Names} : Sim s0 esc Prog.descentFuel Prog.descentFuel Γ EqR := by
  refine .inr fun Γ' s hl hi => ⟨Γ', .refl Γ', hi, ?_⟩
  intro Γ'' hl''
  show stepBound s.core = stepBound s0.core
  rw [hi.core]

theorem sim_readNode {Γ : Names} {a i : Nat} (h : Γ a = some i) :
    Sim s0 esc (Prog.readNode a) (Prog.readNode i) Γ EqR := by
  refine .inr fun Γ' s hl hi => ⟨Γ', .refl Γ', ?_, ?_⟩
  · obtain ⟨n, h1, h2⟩ := hi.dom a i (hl a i h)
    rw [show (Atom.readNode a).run s = (.ok n, s) from readNode_some h1]
    exact hi
  · obtain ⟨n, h1, h2⟩ := hi.dom a i (hl a i h)
    rw [show (Atom.readNode a).run s = (.ok n, s) from readNode_some h1]
    intro Γ'' hl''
    show RR EqR Γ'' (.ok n) (ideal s0 (Prog.readNode i))
    have : ideal s0 (Prog.readNode i) = .ok n := by
      simp only [Prog.readNode, Prog.lift, ideal, idealAtom, h2]
    rw [this]
    rfl

theorem idealEntry_err {q : Nat} {p : Nat} (h : idealEntry s0 q = .error (.noBlockAtSeq p)) : p = q := by
  unfold idealEntry at h
  split at h
  · cases h
  · split at h
    · split at h
      · cases h; rfl
      · split at h
        · cases h
        · simp only [Except.error.injEq] at h
          unfold blockErr at h
          split at h
          · cases h
          · split at h <;> cases h
    · cases h; rfl

theorem ideal_blocksGet (q : Nat) : ideal s0 (Prog.blocksGet q) = idealEntry s0 q := by
  unfold Prog.blocksGet
  rw [ideal_bind]
  cases h : idealEntry s0 q with
  | ok e =>
    rw [show ideal s0 (Prog.lift (.cacheGet q)) = .ok (some e) by simp [Prog.lift, ideal, idealAtom, h]]
    rfl
  | error e =>
    rw [show ideal s0 (Prog.lift (.cacheGet q)) = .ok none by simp [Prog.lift, ideal, idealAtom, h]]
    show ideal s0 (_ >>= _) = _
    rw [ideal_bind]
    cases e with
    | noBlockAtSeq p =>
      rw [show ideal s0 (Prog.lift (.coreFetch q)) = .ok none by simp [Prog.lift, ideal, idealAtom, h],
        idealEntry_err h]
      rfl
    | _ => simp [Prog.lift, ideal, idealAtom, h]

/-- What the loading of a block does to the names. -/
def Names.load (Γ : Names) (base len : Nat) (f : Nat → Nat) : Names := fun a =>
  if base ≤ a ∧ a < base + len then some (f (a - base)) else Γ a

theorem forall2_load (Γ : Names) (base : Nat) (f : Nat → Nat) (len : Nat) :
    List.Forall₂ (fun a i => Γ.load base len f a = some i) (List.range' base len) ((List.range len).map f) := by
  rw [List.forall₂_iff_get]
  refine ⟨by simp, fun i h1 h2 => ?_⟩
  simp only [List.length_range'] at h1
  simp [Names.load]
  omega

theorem Inv.lt {Γ : Names} {s : St} (h : Inv s0 Γ s) {a i : Nat} (ha : Γ a = some i) : a < s.heap.length := by
  obtain ⟨n, h1, _⟩ := h.dom a i ha
  exact (List.getElem?_eq_some_iff.mp h1).1

theorem Inv.le_heap {Γ : Names} {s : St} (h : Inv s0 Γ s) : s0.heap.length ≤ s.heap.length := by
  obtain ⟨xs, hx⟩ := h.heap
  simp [hx]

/-- Loading the nodes of a block. -/
theorem Inv.load {Γ : Names} {s : St} (h : Inv s0 Γ s) {q : Nat} {b : Blk} (hb : blockAt s0.core q = some b) :
    Γ.le (Γ.load s.heap.length b.nodes.length fun j => s0.heap.length + Nat.pair q j) ∧
    Inv s0 (Γ.load s.heap.length b.nodes.length fun j => s0.heap.length + Nat.pair q j)
      { s with heap := s.heap ++ b.nodes } := by
  have hle : Γ.le (Γ.load s.heap.length b.nodes.length fun j => s0.heap.length + Nat.pair q j) := by
    intro a i ha
    have := h.lt ha
    simp only [Names.load]
    rw [if_neg (by omega)]
    exact ha
  refine ⟨hle, h.core, h.io, ?_, ?_, ?_, ?_, h.cache, ?_⟩
  · obtain ⟨xs, hx⟩ := h.heap
    exact ⟨xs ++ b.nodes, by simp [hx]⟩
  · intro a i hi
    simp only [Names.load] at hi
    split at hi
    · rename_i hr
      simp only [Option.some.injEq] at hi
      subst hi
      have hlt : a - s.heap.length < b.nodes.length := by omega
      refine ⟨b.nodes[a - s.heap.length], ?_, ?_⟩
      · simp only []
        rw [List.getElem?_append_right hr.1, List.getElem?_eq_getElem hlt]
      · unfold idealNode
        rw [if_neg (by omega), Nat.add_sub_cancel_left, Nat.unpair_pair]
        simp [nodeAt, hb, hlt]
    · exact (h.grow b.nodes).dom a i hi
  · intro a ha
    exact hle a a (h.old a ha)
  · intro a i hi hlt
    simp only [Names.load] at hi
    split at hi
    · simp only [Option.some.injEq] at hi; omega
    · exact h.own a i hi hlt
  · intro q' e he
    obtain ⟨e', h1, h2⟩ := h.ent q' e he
    exact ⟨e', h1, h2.mono hle⟩

/-- Filing a block in the cache. -/
theorem Inv.file {Γ : Names} {s : St} (h : Inv s0 Γ s) {q : Nat} {e e' : BlockEntry} (hq : s0.cache q = none)
    (he : idealEntry s0 q = .ok e') (hr : ERel Γ e e') :
    Inv s0 Γ { s with cache := cacheInsert q e s.cache } := by
  refine ⟨h.core, h.io, h.heap, h.dom, h.old, h.own, ?_, ?_⟩
  · intro q' e1 h1
    have : q' ≠ q := by rintro rfl; rw [hq] at h1; cases h1
    simp [cacheInsert, this, h.cache q' e1 h1]
  · intro q' e1 h1
    by_cases hqq : q' = q
    · subst hqq
      simp only [cacheInsert, if_true, Option.some.injEq] at h1
      subst h1
      exact ⟨e', he, hr⟩
    · simp only [cacheInsert, hqq, if_false] at h1
      exact h.ent q' e1 h1

theorem sim_blocksGet {Γ : Names} (q : Nat) : Sim s0 esc (Prog.blocksGet q) (Prog.blocksGet q) Γ ERel := by
  unfold Sim
  rw [ideal_blocksGet]
  refine .inr fun Γ1 s1 hl1 hi1 => ⟨Γ1, .refl Γ1, hi1, ?_⟩
  rw [show ((Atom.cacheGet q).run s1).1 = .ok (s1.cache q) from rfl]
  cases hq : s1.cache q with
  | some e =>
    intro Γ' hl'
    obtain ⟨e', h1, h2⟩ := hi1.ent q e hq
    rw [h1]
    exact h2.mono hl'
  | none =>
    have hq0 : s0.cache q = none := by
      cases h0 : s0.cache q with
      | none => rfl
      | some e => rw [hi1.cache q e h0] at hq; cases hq
    refine .inr fun Γ2 s2 hl2 hi2 => ?_
    rw [show (Atom.coreFetch q).run s2 = getFromCore q s2 from rfl]
    by_cases hr : s0.io.readable q = true
    · have hr2 : s2.io.readable q = true := by rw [hi2.io]; exact hr
      cases hx : s0.core[q]? with
      | none =>
        have hcg : coreGet q s2 = (.ok none, s2) := by simp [coreGet, hi2.core, hx]
        have hf : getFromCore q s2 = (.ok none, s2) := by unfold getFromCore; rw [bind_ok hcg]; rfl
        rw [hf]
        refine ⟨Γ2, .refl Γ2, hi2, fun Γ' hl' => ?_⟩
        rw [show idealEntry s0 q = .error (.noBlockAtSeq q) by simp [idealEntry, hq0, hr, hx]]
        rfl
      | some x =>
        cases hb : blockOf x with
        | none =>
          obtain ⟨xs, hf⟩ := getFromCore_err hr2 (by rw [hi2.core]; exact hx) hb
          rw [hf]
          refine ⟨Γ2, .refl Γ2, hi2.grow xs, fun Γ' hl' => ?_⟩
          rw [show idealEntry s0 q = .error (blockErr x) by simp [idealEntry, hq0, hr, hx, hb]]
          rfl
        | some b =>
          have hba : blockAt s0.core q = some b := by simp [blockAt, hx, hb]
          rw [getFromCore_run hr2 (by rw [hi2.core]; exact hba)]
          obtain ⟨hle, hi3⟩ := hi2.load hba
          have hid : idealEntry s0 q = .ok ⟨(List.range b.nodes.length).map fun j => s0.heap.length + Nat.pair q j,
              b.key, b.value⟩ := by simp [idealEntry, hq0, hr, hx, hb]
          rw [hid]
          have her : ERel (Γ2.load s2.heap.length b.nodes.length fun j => s0.heap.length + Nat.pair q j)
              ⟨List.range' s2.heap.length b.nodes.length, b.key, b.value⟩
              ⟨(List.range b.nodes.length).map fun j => s0.heap.length + Nat.pair q j, b.key, b.value⟩ :=
            ⟨rfl, rfl, forall2_load _ _ _ _⟩
          refine ⟨_, hle, hi3, .inr fun Γ4 s4 hl4 hi4 => ⟨Γ4, .refl Γ4, ?_, fun Γ5 hl5 => ?_⟩⟩
          · exact hi4.file hq0 hid (her.mono hl4)
          · exact her.mono (hl4.trans hl5)
    · have hr2 : s2.io.readable q = false := by rw [hi2.io]; simpa using hr
      have hcg : coreGet q s2 = (.ok none, s2) := by simp [coreGet, hr2]
      have hf : getFromCore q s2 = (.ok none, s2) := by unfold getFromCore; rw [bind_ok hcg]; rfl
      rw [hf]
      refine ⟨Γ2, .refl Γ2, hi2, fun Γ' hl' => ?_⟩
      rw [show idealEntry s0 q = .error (.noBlockAtSeq q) by simp [idealEntry, hq0, hr]]
      rfl

end Hyperbee
