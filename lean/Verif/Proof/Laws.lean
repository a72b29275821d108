import Verif.Proof.Interleave
/-!
# Every reading program, from the laws of its steps

A relation between programs that the basic steps of readers satisfy, and that goes through
sequencing, is satisfied by every reading program.
-/

namespace Hyperbee

/-- What a relation between a program and its idealisation has to satisfy. -/
structure Laws (S : (α : Type) → Prog α → Prog α → Names → (Names → α → α → Prop) → Prop) : Prop where
  pure : ∀ {α : Type} {a i : α} {Γ : Names} {R : Names → α → α → Prop}, (∀ Γ', Γ.le Γ' → R Γ' a i) →
    S α (Pure.pure a) (Pure.pure i) Γ R
  throw : ∀ {α : Type} {e : Err} {Γ : Names} {R : Names → α → α → Prop}, S α (Prog.throw e) (Prog.throw e) Γ R
  bind : ∀ {α β : Type} {p p' : Prog α} {f f' : α → Prog β} {Γ : Names} {R : Names → α → α → Prop}
    {T : Names → β → β → Prop}, S α p p' Γ R → (∀ Γ' a i, Γ.le Γ' → R Γ' a i → S β (f a) (f' i) Γ' T) →
    S β (p >>= f) (p' >>= f') Γ T
  under : ∀ {α : Type} {p p' : Prog α} {Γ : Names} {R : Names → α → α → Prop} (a i : Nat) (m : Mode), S α p p' Γ R →
    S α (Prog.under a m p) (Prog.under i m p') Γ R
  tryResult : ∀ {α : Type} {p p' : Prog α} {Γ : Names} {R : Names → α → α → Prop}, S α p p' Γ R →
    S (Except Err α) p.tryResult p'.tryResult Γ (RR R)
  readNode : ∀ {Γ : Names} {a i : Nat}, Γ a = some i → S Node (Prog.readNode a) (Prog.readNode i) Γ EqR
  getChild : ∀ {Γ : Names} {a i : Nat}, Γ a = some i → ∀ j, S Nat (Prog.getChild a j) (Prog.getChild i j) Γ NameR
  getKeyValue : ∀ {Γ : Names} {a i : Nat}, Γ a = some i → ∀ j,
    S KeyValueData (Prog.getKeyValue a j) (Prog.getKeyValue i j) Γ EqR

variable {S : (α : Type) → Prog α → Prog α → Names → (Names → α → α → Prop) → Prop}

theorem Laws.eq (L : Laws S) {a : α} {Γ : Names} : S _ (Pure.pure a) (Pure.pure a) Γ EqR := L.pure fun _ _ => rfl

theorem Laws.orPanic (L : Laws S) {site : String} {o o' : Option α} {Γ : Names} {R : Names → α → α → Prop}
    (h : ∀ Γ', Γ.le Γ' → Option.Rel (R Γ') o o') : S _ (Prog.orPanic site o) (Prog.orPanic site o') Γ R := by
  cases o with
  | none =>
    cases o' with
    | none => exact L.throw
    | some i => nomatch h Γ (.refl Γ)
  | some a =>
    cases o' with
    | none => nomatch h Γ (.refl Γ)
    | some i => exact L.pure fun Γ' hl => by cases h Γ' hl; assumption

theorem Laws.isLeaf (L : Laws S) {Γ : Names} {a i : Nat} (h : Γ a = some i) :
    S _ (Prog.isLeaf a) (Prog.isLeaf i) Γ EqR := by
  unfold Prog.isLeaf
  refine L.bind (L.readNode h) fun Γ1 n n' h1 hn => ?_
  cases hn
  exact L.eq

theorem Laws.searchLoop (L : Laws S) {a i : Nat} (k : LimitValue) : ∀ fuel lo hi (Γ : Names), Γ a = some i →
    S _ (Prog.searchLoop a k fuel lo hi) (Prog.searchLoop i k fuel lo hi) Γ EqR := by
  intro fuel
  induction fuel with
  | zero => intro _ _ _ _; exact L.throw
  | succ n ih =>
    intro lo hi Γ h
    unfold Prog.searchLoop
    split
    · dsimp only
      refine L.bind (L.getKeyValue h _) fun Γ1 kv kv' h1 hkv => ?_
      cases hkv
      split
      · exact L.eq
      · split
        · split
          · exact L.eq
          · exact ih _ _ _ (h1 _ _ h)
        · exact ih _ _ _ (h1 _ _ h)
    · exact L.eq

theorem Laws.getIndexOfKey (L : Laws S) {Γ : Names} {a i : Nat} (h : Γ a = some i) (k : LimitValue) :
    S _ (Prog.getIndexOfKey a k) (Prog.getIndexOfKey i k) Γ EqR := by
  unfold Prog.getIndexOfKey
  refine L.bind (L.readNode h) fun Γ1 n n' h1 hn => ?_
  cases hn
  dsimp only
  split
  · exact L.eq
  · exact L.searchLoop k _ _ _ _ (h1 _ _ h)

/-- The same path, up to the names of the nodes. -/
def PathR (Γ : Names) (p p' : NodePath) : Prop :=
  List.Forall₂ (fun x x' => Γ x.1 = some x'.1 ∧ x.2 = x'.2) p p'

theorem PathR.mono {Γ Γ' : Names} (h : Γ.le Γ') {p p' : NodePath} (hp : PathR Γ p p') : PathR Γ' p p' :=
  hp.imp fun x x' hx => ⟨h _ _ hx.1, hx.2⟩

/-- The same outcome of a search. -/
def FoundR (Γ : Names) (r r' : Option Nat × NodePath) : Prop := r.1 = r'.1 ∧ PathR Γ r.2 r'.2

theorem Laws.nearestLoop (L : Laws S) (k : LimitValue) : ∀ fuel (a i : Nat) (p p' : NodePath) (Γ : Names), Γ a = some i →
    PathR Γ p p' →
    S _ (Prog.nearestLoop k fuel a p) (Prog.nearestLoop k fuel i p') Γ FoundR := by
  intro fuel
  induction fuel with
  | zero => intro _ _ _ _ _ _ _; exact L.throw
  | succ n ih =>
    intro a i p p' Γ h hp
    unfold Prog.nearestLoop
    refine L.bind (L.getIndexOfKey h k) fun Γ1 m m' h1 hm => ?_
    cases hm
    dsimp only
    refine L.bind (L.isLeaf (h1 _ _ h)) fun Γ2 l l' h2 hl => ?_
    cases hl
    have hp2 : PathR Γ2 ((a, m.2) :: p) ((i, m.2) :: p') :=
      .cons ⟨h2 _ _ (h1 _ _ h), rfl⟩ (hp.mono (h1.trans h2))
    split
    · exact L.pure fun Γ3 h3 => ⟨rfl, hp2.mono h3⟩
    · refine L.bind (L.getChild (h2 _ _ (h1 _ _ h)) _) fun Γ3 c c' h3 hc => ?_
      exact ih _ _ _ _ _ hc (hp2.mono h3)

theorem Laws.head (L : Laws S) {Γ : Names} {site : String} {p p' : NodePath} (h : PathR Γ p p') :
    S _ (Prog.orPanic site p.head?) (Prog.orPanic site p'.head?) Γ
      (fun Γ x x' => Γ x.1 = some x'.1 ∧ x.2 = x'.2) := by
  refine L.orPanic fun Γ1 h1 => ?_
  cases h with
  | nil => exact Option.Rel.none
  | cons h _ => exact Option.Rel.some ⟨h1 _ _ h.1, h.2⟩

theorem Laws.makeIter (L : Laws S) {Γ : Names} {a i : Nat} (h : Γ a = some i) (conf : TraverseConfig) (nk nc : Nat) :
    S _ (Prog.makeChildKeyIndexIter conf a nk nc) (Prog.makeChildKeyIndexIter conf i nk nc) Γ EqR := by
  unfold Prog.makeChildKeyIndexIter
  refine L.bind (L.getIndexOfKey h _) ?_
  rintro Γ1 ⟨m, j⟩ x h1 hx
  cases hx
  dsimp only
  generalize (if m.isSome = true then _ else _ : Option Nat) = o
  cases o <;> exact L.eq

/-- The same state of a traversal, up to the names of the nodes. -/
def FrameR (Γ : Names) (f f' : Frame) : Prop := ∃ i, f' = { f with root := i } ∧ Γ f.root = some i

theorem FrameR.mono {Γ Γ' : Names} (h : Γ.le Γ') {f f' : Frame} (hf : FrameR Γ f f') : FrameR Γ' f f' := by
  obtain ⟨i, h1, h2⟩ := hf
  exact ⟨i, h1, h _ _ h2⟩

/-- The same answer of a poll. -/
inductive AnswerR (Γ : Names) : PollR → PollR → Prop where
  | pending (w1 w2) : AnswerR Γ (.pending w1 w2) (.pending w1 w2)
  | done (w) : AnswerR Γ (.ready none w) (.ready none w)
  | item (r) {a i : Nat} (h : Γ a = some i) (w) : AnswerR Γ (.ready (some (r, a)) w) (.ready (some (r, i)) w)

theorem AnswerR.mono {Γ Γ' : Names} (hl : Γ.le Γ') {r r' : PollR} (h : AnswerR Γ r r') : AnswerR Γ' r r' := by
  cases h with
  | pending w1 w2 => exact .pending _ _
  | done w => exact .done _
  | item r h w => exact .item _ (hl _ _ h) _

/-- The same answer and the same state afterwards. -/
def PolledR (Γ : Names) (x x' : PollR × List Frame) : Prop :=
  AnswerR Γ x.1 x'.1 ∧ List.Forall₂ (FrameR Γ) x.2 x'.2

theorem frames_mono {Γ Γ' : Names} (h : Γ.le Γ') {fs fs' : List Frame} (hf : List.Forall₂ (FrameR Γ) fs fs') :
    List.Forall₂ (FrameR Γ') fs fs' := hf.imp fun _ _ => FrameR.mono h

theorem frame_new {Γ : Names} {a i : Nat} (h : Γ a = some i) (c : TraverseConfig) :
    FrameR Γ (Frame.new a c) (Frame.new i c) := ⟨i, rfl, h⟩

theorem Laws.polled (L : Laws S) {Γ : Names} {r r' : PollR} (hr : AnswerR Γ r r') {fs fs' : List Frame}
    (hf : ∀ Γ', Γ.le Γ' → List.Forall₂ (FrameR Γ') fs fs') :
    S _ (Pure.pure (r, fs)) (Pure.pure (r', fs')) Γ PolledR :=
  L.pure fun Γ' hl => ⟨hr.mono hl, hf Γ' hl⟩

theorem Laws.pollSetup (L : Laws S) {Γ : Names} {f f' : Frame} (h : FrameR Γ f f') (ready : Bool) :
    S _ (Prog.pollSetup ready f) (Prog.pollSetup ready f') Γ PolledR := by
  obtain ⟨i, rfl, hi⟩ := h
  obtain ⟨conf, root, nkcFut, nkc, iterFut, iter, nextKey, nextChild⟩ := f
  unfold Prog.pollSetup
  dsimp only at hi ⊢
  cases nkc with
  | none =>
    dsimp only
    split
    · exact L.polled (.pending _ _) fun Γ' hl => .cons ⟨i, rfl, hl _ _ hi⟩ .nil
    · split
      · exact L.polled (.pending _ _) fun Γ' hl => .cons ⟨i, rfl, hl _ _ hi⟩ .nil
      · refine L.bind (L.readNode hi) fun Γ1 n n' h1 hn => ?_
        cases hn
        refine L.bind (L.under _ _ _ (L.readNode (h1 _ _ hi))) fun Γ2 m m' h2 hm => ?_
        cases hm
        exact L.polled (.pending _ _) fun Γ' hl => .cons ⟨i, rfl, hl _ _ (h2 _ _ (h1 _ _ hi))⟩ .nil
  | some x =>
    obtain ⟨n, c⟩ := x
    dsimp only
    cases iter with
    | none =>
      dsimp only
      cases iterFut with
      | none => exact L.polled (.pending _ _) fun Γ' hl => .cons ⟨i, rfl, hl _ _ hi⟩ .nil
      | some b =>
        cases b
        · dsimp only
          split
          · exact L.polled (.pending _ _) fun Γ' hl => .cons ⟨i, rfl, hl _ _ hi⟩ .nil
          · refine L.bind (L.tryResult (L.makeIter hi conf n c)) fun Γ1 r r' h1 hr => ?_
            cases r with
            | error e =>
              cases r' with
              | ok _ => exact hr.elim
              | error e' =>
                cases hr
                exact L.polled (.item _ (h1 _ _ hi) _) fun Γ' hl => .cons ⟨i, rfl, hl _ _ (h1 _ _ hi)⟩ .nil
            | ok l =>
              cases r' with
              | error _ => exact hr.elim
              | ok l' =>
                cases hr
                exact L.polled (.pending _ _) fun Γ' hl => .cons ⟨i, rfl, hl _ _ (h1 _ _ hi)⟩ .nil
        · exact L.throw
    | some l =>
      cases l with
      | nil => exact L.polled (.done _) fun Γ' hl => .cons ⟨i, rfl, hl _ _ hi⟩ .nil
      | cons j l =>
        dsimp only
        split
        · exact L.polled (.pending _ _) fun Γ' hl => .cons ⟨i, rfl, hl _ _ hi⟩ .nil
        · exact L.polled (.pending _ _) fun Γ' hl => .cons ⟨i, rfl, hl _ _ hi⟩ .nil

theorem Laws.poll (L : Laws S) (ready : Bool) : ∀ (fs fs' : List Frame) (Γ : Names), List.Forall₂ (FrameR Γ) fs fs' →
    S _ (Prog.poll ready fs) (Prog.poll ready fs') Γ PolledR := by
  intro fs
  induction fs with
  | nil => intro fs' Γ h; cases h; exact L.throw
  | cons f rest ih =>
    intro fs' Γ h
    cases h with
    | @cons _ f' _ rest' hf hrest =>
    obtain ⟨i, rfl, hi⟩ := hf
    obtain ⟨conf, root, nkcFut, nkc, iterFut, iter, nextKey, nextChild⟩ := f
    unfold Prog.poll
    dsimp only at hi ⊢
    cases nextKey with
    | some x =>
      obtain ⟨j, b⟩ := x
      cases b
      · dsimp only
        split
        · exact L.throw
        · split
          · exact L.polled (.pending _ _) fun Γ' hl => .cons ⟨i, rfl, hl _ _ hi⟩ (frames_mono hl hrest)
          · refine L.bind (L.tryResult (L.getKeyValue hi j)) fun Γ1 r r' h1 hr => ?_
            cases r with
            | error e =>
              cases r' with
              | ok _ => exact hr.elim
              | error e' =>
                cases hr
                exact L.polled (.item _ (h1 _ _ hi) _) fun Γ' hl =>
                  .cons ⟨i, rfl, hl _ _ (h1 _ _ hi)⟩ (frames_mono (h1.trans hl) hrest)
            | ok kv =>
              cases r' with
              | error _ => exact hr.elim
              | ok kv' =>
                cases hr
                dsimp only
                split
                · exact L.polled (.done _) fun Γ' hl =>
                    .cons ⟨i, rfl, hl _ _ (h1 _ _ hi)⟩ (frames_mono (h1.trans hl) hrest)
                · exact L.polled (.item _ (h1 _ _ hi) _) fun Γ' hl =>
                    .cons ⟨i, rfl, hl _ _ (h1 _ _ hi)⟩ (frames_mono (h1.trans hl) hrest)
      · exact L.throw
    | none =>
      dsimp only
      cases nextChild with
      | some j =>
        dsimp only
        split
        · exact L.polled (.pending _ _) fun Γ' hl => .cons ⟨i, rfl, hl _ _ hi⟩ (frames_mono hl hrest)
        · refine L.bind (L.tryResult (L.getChild hi j)) fun Γ1 r r' h1 hr => ?_
          cases r with
          | error e =>
            cases r' with
            | ok _ => exact hr.elim
            | error e' =>
              cases hr
              exact L.polled (.item _ (h1 _ _ hi) _) fun Γ' hl =>
                .cons ⟨i, rfl, hl _ _ (h1 _ _ hi)⟩ (frames_mono (h1.trans hl) hrest)
          | ok a =>
            cases r' with
            | error _ => exact hr.elim
            | ok i' =>
              exact L.polled (.pending _ _) fun Γ' hl =>
                .cons ⟨i, rfl, hl _ _ (h1 _ _ hi)⟩ (.cons (frame_new (hl _ _ hr) _) .nil)
      | none =>
        cases hrest with
        | nil => exact L.pollSetup ⟨i, rfl, hi⟩ ready
        | @cons c c' cs cs' hc hcs =>
          refine L.bind (ih _ Γ (.cons hc hcs)) ?_
          rintro Γ1 ⟨p, rest1⟩ ⟨p', rest1'⟩ h1 ⟨hp, hrest1⟩
          cases hp with
          | pending w1 w2 =>
            exact L.polled (.pending _ _) fun Γ' hl => .cons ⟨i, rfl, hl _ _ (h1 _ _ hi)⟩ (frames_mono hl hrest1)
          | done w => exact L.polled (.pending _ _) fun Γ' hl => .cons ⟨i, rfl, hl _ _ (h1 _ _ hi)⟩ .nil
          | item r ha w =>
            exact L.polled (.item _ ha _) fun Γ' hl => .cons ⟨i, rfl, hl _ _ (h1 _ _ hi)⟩ (frames_mono hl hrest1)

/-- The same items, and both ended or neither. -/
def CollectedR (Γ : Names) (x x' : List (Except Err KeyValueData) × Option (List Frame)) : Prop :=
  x.1 = x'.1 ∧ Option.Rel (List.Forall₂ (FrameR Γ)) x.2 x'.2

theorem Laws.drive (L : Laws S) : ∀ (rs : List Bool) (fs fs' : List Frame) (Γ : Names), List.Forall₂ (FrameR Γ) fs fs' →
    S _ (Prog.drive Pure.pure rs fs) (Prog.drive Pure.pure rs fs') Γ CollectedR := by
  intro rs
  induction rs with
  | nil => intro fs fs' Γ h; exact L.pure fun Γ' hl => ⟨rfl, .some (frames_mono hl h)⟩
  | cons r rs ih =>
    intro fs fs' Γ h
    unfold Prog.drive
    refine L.bind (L.poll r fs fs' Γ h) ?_
    rintro Γ1 ⟨p, gs⟩ ⟨p', gs'⟩ h1 ⟨hp, hg⟩
    cases hp with
    | pending w1 w2 => exact ih _ _ _ hg
    | done w => exact L.pure fun _ _ => ⟨rfl, .none⟩
    | item x ha w =>
      dsimp only
      refine L.bind (L.eq (Γ := Γ1) (a := x)) fun Γ2 y y' h2 hy => ?_
      cases hy
      refine L.bind (ih _ _ _ (frames_mono h2 hg)) ?_
      rintro Γ3 ⟨xs, fin⟩ ⟨xs', fin'⟩ h3 ⟨hxs, hfin⟩
      cases hxs
      refine L.pure fun Γ4 h4 => ⟨rfl, ?_⟩
      cases hfin with
      | none => exact .none
      | some hh => exact .some (frames_mono h4 hh)

end Hyperbee
