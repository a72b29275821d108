import Verif.Proof.Own
import Verif.Proof.Flaky
import Verif.Model.Peer
/-!
# Reading blocks that may not be there

What a reading program does on the blocks `F`, with names for the nodes: `D` are the blocks it has
obtained, which it does not fetch again, and fetching block `q` may fail as `mis q` says.
-/

namespace Hyperbee

/-- Also `q`. -/
def also (q : Nat) (D : Nat → Prop) : Nat → Prop := fun x => x = q ∨ D x

theorem also_self {q : Nat} {D : Nat → Prop} (h : D q) : also q D = D := by
  funext x
  exact propext ⟨fun hx => hx.elim (fun e => e ▸ h) id, .inr⟩

/-- What a step returns. -/
def DreamA (F : List Bytes) (mis : Nat → Fault → Prop) : {β : Type} → Atom β → (Nat → Prop) → Except Err β →
    (Nat → Prop) → Prop
  | _, .version, D, r, D' => r = .ok F.length ∧ D' = D
  | _, .descentFuel, D, r, D' => r = .ok (stepBound F) ∧ D' = D
  | _, .cacheGet q, D, r, D' =>
    ((D q ∧ ∃ e, idealEntry (St.open F) q = .ok e ∧ r = .ok (some e)) ∨ (¬ D q ∧ r = .ok none)) ∧ D' = D
  | _, .coreFetch q, D, r, D' =>
    (r = idealAtom (St.open F) (.coreFetch q) ∨ ∃ f : Fault, q < F.length ∧ mis q f ∧ r = f.result) ∧ D' = D
  | _, .cacheInsert q _, D, r, D' => r = .ok () ∧ D' = also q D
  | _, .readNode i, D, r, D' => r = idealAtom (St.open F) (.readNode i) ∧ D' = D
  | _, .under _ _ x, D, r, D' => DreamA F mis x D r D'
  | _, .edit _ _ _, _, _, _ => False
  | _, .lockChildren _, _, _, _ => False
  | _, .moveChildren _ _ _, _, _, _ => False
  | _, .alloc _, _, _, _ => False
  | _, .coreAppend _, _, _, _ => False

/-- What a program returns. -/
inductive Dream (F : List Bytes) (mis : Nat → Fault → Prop) {α : Type} : Prog α → (Nat → Prop) → Except Err α →
    (Nat → Prop) → Prop where
  | pure {D : Nat → Prop} {a : α} : Dream F mis (.pure a) D (.ok a) D
  | throw {D : Nat → Prop} {e : Err} : Dream F mis (.throw e) D (.error e) D
  | step {β : Type} {x : Atom β} {k : Except Err β → Prog α} {D D' D'' : Nat → Prop} {y : Except Err β}
      {r : Except Err α} : DreamA F mis x D y D' → Dream F mis (k y) D' r D'' → Dream F mis (.step x k) D r D''

variable {F : List Bytes} {mis : Nat → Fault → Prop}

theorem Dream.bind_ok {p : Prog α} {f : α → Prog β} {D D' D'' : Nat → Prop} {a : α} {r : Except Err β}
    (h : Dream F mis p D (.ok a) D') (hf : Dream F mis (f a) D' r D'') : Dream F mis (p >>= f) D r D'' := by
  show Dream F mis (Prog.bind p f) D r D''
  generalize hx : Except.ok a = x at h
  induction h with
  | pure => cases hx; exact hf
  | throw => cases hx
  | step h1 _ ih => exact .step h1 (ih hf hx)

theorem Dream.bind_error {p : Prog α} {f : α → Prog β} {D D' : Nat → Prop} {e : Err}
    (h : Dream F mis p D (.error e) D') : Dream F mis (p >>= f) D (.error e) D' := by
  show Dream F mis (Prog.bind p f) D (.error e) D'
  generalize hx : Except.error e = x at h
  induction h with
  | pure => cases hx
  | throw => cases hx; exact .throw
  | step h1 _ ih => exact .step h1 (ih hx)

theorem Dream.of_bind {p : Prog α} {f : α → Prog β} {D D'' : Nat → Prop} {r : Except Err β}
    (h : Dream F mis (p >>= f) D r D'') :
    (∃ a D', Dream F mis p D (.ok a) D' ∧ Dream F mis (f a) D' r D'') ∨
      ∃ e, Dream F mis p D (.error e) D'' ∧ r = .error e := by
  change Dream F mis (Prog.bind p f) D r D'' at h
  induction p generalizing D with
  | pure a => exact .inl ⟨a, D, .pure, h⟩
  | throw e => cases h; exact .inr ⟨e, .throw, rfl⟩
  | step x k ih =>
    cases h with
    | step h1 h2 =>
      rcases ih _ h2 with ⟨a, D', g1, g2⟩ | ⟨e, g1, g2⟩
      · exact .inl ⟨a, D', .step h1 g1, g2⟩
      · exact .inr ⟨e, .step h1 g1, g2⟩

theorem Dream.under {p : Prog α} {D D' : Nat → Prop} {r : Except Err α} (a : Nat) (m : Mode)
    (h : Dream F mis p D r D') : Dream F mis (Prog.under a m p) D r D' := by
  induction h with
  | pure => exact .pure
  | throw => exact .throw
  | step h1 _ ih => exact .step h1 ih

theorem Dream.of_under {p : Prog α} {D D' : Nat → Prop} {r : Except Err α} {a : Nat} {m : Mode}
    (h : Dream F mis (Prog.under a m p) D r D') : Dream F mis p D r D' := by
  induction p generalizing D with
  | pure a => exact h
  | throw e => exact h
  | step x k ih =>
    cases h with
    | step h1 h2 =>
      exact .step h1 (ih _ h2)

/-- What trying returns. -/
def tried : Except Err α → Except Err (Except Err α)
  | .ok a => .ok (.ok a)
  | .error (.panic site) => .error (.panic site)
  | .error .diverge => .error .diverge
  | .error e => .ok (.error e)

theorem tryResult_throw (e : Err) : (Prog.throw e : Prog α).tryResult = match tried (.error e : Except Err α) with
    | .ok a => .pure a
    | .error e => .throw e := by cases e <;> rfl

theorem Dream.tryResult {p : Prog α} {D D' : Nat → Prop} {r : Except Err α}
    (h : Dream F mis p D r D') : Dream F mis p.tryResult D (tried r) D' := by
  induction h with
  | pure => exact .pure
  | @throw D e =>
    rw [tryResult_throw]
    cases tried (.error e : Except Err α) with
    | ok a => exact .pure
    | error e => exact .throw
  | step h1 _ ih => exact .step h1 ih

theorem Dream.of_tryResult {p : Prog α} {D D' : Nat → Prop} {r : Except Err (Except Err α)}
    (h : Dream F mis p.tryResult D r D') : ∃ r0, Dream F mis p D r0 D' ∧ r = tried r0 := by
  induction p generalizing D with
  | pure a => cases h; exact ⟨_, .pure, rfl⟩
  | throw e =>
    refine ⟨.error e, ?_⟩
    rw [tryResult_throw] at h
    revert h
    cases tried (.error e : Except Err α) with
    | ok a => intro h; cases h; exact ⟨.throw, rfl⟩
    | error e => intro h; cases h; exact ⟨.throw, rfl⟩
  | step x k ih =>
    cases h with
    | step h1 h2 =>
      obtain ⟨r0, g1, g2⟩ := ih _ h2
      exact ⟨r0, .step h1 g1, g2⟩

/-- The reply to a result. -/
def replied (f : α → Reply) : Except Err α → Except Err Reply
  | .ok a => .ok (f a)
  | .error e => .ok (.error e)

theorem Dream.replyOf {p : Prog α} {D D' : Nat → Prop} {r : Except Err α} (f : α → Reply)
    (h : Dream F mis p D r D') : Dream F mis (Prog.replyOf f p) D (replied f r) D' := by
  induction h with
  | pure => exact .pure
  | throw => exact .pure
  | step h1 _ ih => exact .step h1 ih

theorem Dream.of_replyOf {p : Prog α} {D D' : Nat → Prop} {f : α → Reply} {r : Except Err Reply}
    (h : Dream F mis (Prog.replyOf f p) D r D') : ∃ r0, Dream F mis p D r0 D' ∧ r = replied f r0 := by
  induction p generalizing D with
  | pure a => cases h; exact ⟨_, .pure, rfl⟩
  | throw e => cases h; exact ⟨_, .throw, rfl⟩
  | step x k ih =>
    cases h with
    | step h1 h2 =>
      obtain ⟨r0, g1, g2⟩ := ih _ h2
      exact ⟨r0, .step h1 g1, g2⟩

/-- Blocks that do not exist do not matter. -/
theorem Dream.inside {p : Prog α} {D D' : Nat → Prop} {r : Except Err α} (h : Dream F mis p D r D') :
    Dream F (fun q f => q < F.length ∧ mis q f) p D r D' := by
  have hA : ∀ {β : Type} (x : Atom β) {D D' : Nat → Prop} {r : Except Err β}, DreamA F mis x D r D' →
      DreamA F (fun q f => q < F.length ∧ mis q f) x D r D' := by
    intro β x
    induction x with
    | coreFetch q =>
      intro D D' r h
      obtain ⟨h | ⟨f, h1, h2, h3⟩, h4⟩ := h
      · exact ⟨.inl h, h4⟩
      · exact ⟨.inr ⟨f, h1, ⟨h1, h2⟩, h3⟩, h4⟩
    | under a m x ih => intro D D' r h; exact ih h
    | _ => intro D D' r h; exact h
  induction h with
  | pure => exact .pure
  | throw => exact .throw
  | step h1 _ ih => exact .step (hA _ h1) ih

/-! ## A block -/

/-- The error of a fetch that fails. -/
def Fault.err : Fault → Nat → Err
  | .io, _ => .core
  | .missing, q => .noBlockAtSeq q

theorem idealEntry_open_err {q : Nat} {x : Bytes} (hx : F[q]? = some x) (hb : blockOf x = none) :
    idealEntry (St.open F) q = .error (blockErr x) := by
  simp [idealEntry, St.open, Io.good, hx, hb]

theorem idealEntry_open_none {q : Nat} (hx : F[q]? = none) : idealEntry (St.open F) q = .error (.noBlockAtSeq q) := by
  simp [idealEntry, St.open, Io.good, hx]

theorem blockErr_ne (x : Bytes) (q : Nat) : blockErr x ≠ .noBlockAtSeq q := by
  unfold blockErr
  cases decodeNode x with
  | none => exact fun h => by cases h
  | some m => dsimp only; cases decodeYolo m.index <;> exact fun h => by cases h

/-- A block of the core, or no block, or one that does not decode. -/
theorem entry_cases (F : List Bytes) (q : Nat) :
    (∃ e, idealEntry (St.open F) q = .ok e ∧ idealAtom (St.open F) (.coreFetch q) = .ok (some e)) ∨
    (idealEntry (St.open F) q = .error (.noBlockAtSeq q) ∧ idealAtom (St.open F) (.coreFetch q) = .ok none) ∨
    (∃ e, idealEntry (St.open F) q = .error e ∧ idealAtom (St.open F) (.coreFetch q) = .error e) := by
  cases hx : F[q]? with
  | none =>
    refine .inr (.inl ⟨idealEntry_open_none hx, ?_⟩)
    simp [idealAtom, idealEntry_open_none hx]
  | some x =>
    cases hb : blockOf x with
    | none =>
      refine .inr (.inr ⟨_, idealEntry_open_err hx hb, ?_⟩)
      simp only [idealAtom, idealEntry_open_err hx hb]
      split
      · rename_i h; cases h
      · rename_i h; simp only [Except.error.injEq] at h; exact absurd h (blockErr_ne _ _)
      · rename_i h; cases h; rfl
    | some b =>
      have hba : blockAt F q = some b := by simp [blockAt, hx, hb]
      refine .inl ⟨_, idealEntry_open hba, ?_⟩
      simp [idealAtom, idealEntry_open hba]

/-- Obtaining a block: it is there, and is obtained; or fetching it fails. -/
theorem dream_blocksGet {q : Nat} {D D' : Nat → Prop} {r : Except Err BlockEntry}
    (h : Dream F mis (Prog.blocksGet q) D r D') :
    (r = idealEntry (St.open F) q ∧ ((∃ e, r = .ok e ∧ D' = also q D) ∨ ((∃ e, r = .error e) ∧ D' = D))) ∨
    (∃ f, q < F.length ∧ mis q f ∧ r = .error (f.err q) ∧ D' = D) := by
  unfold Prog.blocksGet at h
  cases h with
  | step h1 h2 =>
    obtain ⟨⟨hD, e, he, rfl⟩ | ⟨hD, rfl⟩, rfl⟩ := h1
    · cases h2; exact .inl ⟨he.symm, .inl ⟨_, rfl, (also_self hD).symm⟩⟩
    · cases h2 with
      | step h3 h4 =>
        obtain ⟨rfl | ⟨f, hq, hm, rfl⟩, rfl⟩ := h3
        · rcases entry_cases F q with ⟨e, e1, e2⟩ | ⟨e1, e2⟩ | ⟨e, e1, e2⟩ <;> rw [e2] at h4
          · cases h4 with
            | step h5 h6 =>
              obtain ⟨rfl, rfl⟩ := h5
              cases h6
              exact .inl ⟨e1.symm, .inl ⟨_, rfl, rfl⟩⟩
          · cases h4; exact .inl ⟨e1.symm, .inr ⟨⟨_, rfl⟩, rfl⟩⟩
          · cases h4; exact .inl ⟨e1.symm, .inr ⟨⟨_, rfl⟩, rfl⟩⟩
        · refine .inr ⟨f, hq, hm, ?_⟩
          cases f <;> cases h4 <;> exact ⟨rfl, rfl⟩

theorem Dream.block {q : Nat} {D : Nat → Prop} {e : BlockEntry} (h : idealEntry (St.open F) q = .ok e) :
    Dream F mis (Prog.blocksGet q) D (.ok e) (also q D) := by
  unfold Prog.blocksGet
  by_cases hD : D q
  · rw [also_self hD]
    exact .step ⟨.inl ⟨hD, e, h, rfl⟩, rfl⟩ .pure
  · refine .step ⟨.inr ⟨hD, rfl⟩, rfl⟩ (.step ⟨.inl rfl, rfl⟩ ?_)
    have : idealAtom (St.open F) (.coreFetch q) = .ok (some e) := by simp [idealAtom, h]
    rw [this]
    exact .step ⟨rfl, rfl⟩ .pure

theorem Dream.noBlock {q : Nat} {D : Nat → Prop} {e : Err} (hD : ¬ D q) (h : idealEntry (St.open F) q = .error e) :
    Dream F mis (Prog.blocksGet q) D (.error e) D := by
  unfold Prog.blocksGet
  refine .step ⟨.inr ⟨hD, rfl⟩, rfl⟩ (.step ⟨.inl rfl, rfl⟩ ?_)
  rcases entry_cases F q with ⟨e', e1, e2⟩ | ⟨e1, e2⟩ | ⟨e', e1, e2⟩ <;> rw [e1] at h <;> cases h <;> rw [e2] <;> exact .throw

theorem Dream.lostBlock {q : Nat} {D : Nat → Prop} {f : Fault} (hD : ¬ D q) (hq : q < F.length) (h : mis q f) :
    Dream F mis (Prog.blocksGet q) D (.error (f.err q)) D := by
  unfold Prog.blocksGet
  refine .step ⟨.inr ⟨hD, rfl⟩, rfl⟩ (.step ⟨.inr ⟨f, hq, h, rfl⟩, rfl⟩ ?_)
  cases f <;> exact .throw

/-! ## The right result, or the error of a fetch that failed -/

/-- `p` returns what it returns when everything is in memory, or the error of a fetch that failed. -/
def Det (F : List Bytes) (mis : Nat → Fault → Prop) (α : Type) (p : Prog α) : Prop :=
  ∀ D r D', Dream F mis p D r D' → r = ideal (St.open F) p ∨ ∃ q f, q < F.length ∧ mis q f ∧ r = .error (f.err q)

theorem Det.bind {p : Prog α} {f : α → Prog β} (h : Det F mis α p) (hf : ∀ a, Det F mis β (f a)) :
    Det F mis β (p >>= f) := by
  intro D r D'' hd
  rw [ideal_bind]
  rcases hd.of_bind with ⟨a, D', h1, h2⟩ | ⟨e, h1, rfl⟩
  · rcases h _ _ _ h1 with h1 | ⟨q, f, -, -, h1⟩
    · rw [← h1]
      exact hf a _ _ _ h2
    · cases h1
  · rcases h _ _ _ h1 with h1 | ⟨q, f, hq, hm, h1⟩
    · rw [← h1]; exact .inl rfl
    · exact .inr ⟨q, f, hq, hm, by cases h1; rfl⟩

theorem Det.under {p : Prog α} (a : Nat) (m : Mode) (h : Det F mis α p) : Det F mis α (Prog.under a m p) := by
  intro D r D' hd
  rw [ideal_under]
  exact h _ _ _ hd.of_under

theorem det_readNode (a : Nat) : Det F mis _ (Prog.readNode a) := by
  intro D r D' hd
  left
  cases hd with
  | step h1 h2 =>
    obtain ⟨rfl, rfl⟩ := h1
    show r = ideal _ (.step (.readNode a) _)
    rw [ideal]
    revert h2
    cases idealAtom (St.open F) (.readNode a) <;> intro h2 <;> cases h2 <;> rfl

theorem det_blocksGet (q : Nat) : Det F mis _ (Prog.blocksGet q) := by
  intro D r D' hd
  rw [ideal_blocksGet]
  rcases dream_blocksGet hd with ⟨h, -⟩ | ⟨f, h1, h2, h3, -⟩
  · exact .inl h
  · exact .inr ⟨q, f, h1, h2, h3⟩

theorem det_pure (a : α) : Det F mis _ (Pure.pure a) := by
  intro D r D' hd
  cases hd
  exact .inl rfl

theorem det_throw (e : Err) : Det F mis α (Prog.throw e) := by
  intro D r D' hd
  cases hd
  exact .inl rfl

theorem det_orPanic (site : String) (o : Option α) : Det F mis _ (Prog.orPanic site o) := by
  cases o with
  | none => exact det_throw _
  | some a => exact det_pure _

theorem det_acts : RActs (Det F mis) where
  pure := det_pure
  throw := det_throw
  bind := Det.bind
  readNode := det_readNode
  getChild a i := (det_readNode a).bind fun n => Det.under _ _
    ((det_orPanic _ _).bind fun c => (det_blocksGet _).bind fun b => det_orPanic _ _)
  getKeyValue a i := (det_readNode a).bind fun n => Det.under _ _
    ((det_orPanic _ _).bind fun q => (det_blocksGet _).bind fun b => (det_blocksGet _).bind fun b' => det_pure _)
  version := by
    intro D r D' hd
    cases hd with
    | step h1 h2 => obtain ⟨rfl, rfl⟩ := h1; cases h2; exact .inl rfl
  descentFuel := by
    intro D r D' hd
    cases hd with
    | step h1 h2 => obtain ⟨rfl, rfl⟩ := h1; cases h2; exact .inl rfl
  blocksGet := det_blocksGet

/-- A descent that ends within fewer rounds does what it does when more are allowed. -/
theorem dream_nearestLoop_less (k : LimitValue) : ∀ (n m : Nat), n ≤ m → ∀ (i : Nat) (p : NodePath)
    {D D' : Nat → Prop} {r : Except Err (Option Nat × NodePath)},
    ideal (St.open F) (Prog.nearestLoop k n i p) ≠ .error .diverge →
    Dream F mis (Prog.nearestLoop k m i p) D r D' → Dream F mis (Prog.nearestLoop k n i p) D r D' := by
  intro n
  induction n with
  | zero => intro m _ i p D D' r h; exact absurd rfl h
  | succ n ih =>
    intro m hm i p D D' r h hd
    obtain ⟨m, rfl⟩ : ∃ m', m = m' + 1 := ⟨m - 1, by omega⟩
    unfold Prog.nearestLoop at h hd ⊢
    rw [ideal_bind] at h
    rcases hd.of_bind with ⟨x, D1, h1, hd⟩ | ⟨e, h1, rfl⟩
    rotate_left
    · exact h1.bind_error
    refine h1.bind_ok ?_
    rcases det_acts.getIndexOfKey_ i k _ _ _ h1 with h1 | ⟨_, _, _, _, h1⟩
    rotate_left
    · cases h1
    rw [← h1] at h
    dsimp only at h hd ⊢
    rw [ideal_bind] at h
    rcases hd.of_bind with ⟨l, D2, h2, hd⟩ | ⟨e, h2, rfl⟩
    rotate_left
    · exact h2.bind_error
    refine h2.bind_ok ?_
    rcases det_acts.isLeaf_ i _ _ _ h2 with h2 | ⟨_, _, _, _, h2⟩
    rotate_left
    · cases h2
    rw [← h2] at h
    dsimp only at h hd ⊢
    split
    · rename_i hc
      rw [if_pos hc] at hd
      exact hd
    · rename_i hc
      rw [if_neg hc] at h hd
      rw [ideal_bind] at h
      rcases hd.of_bind with ⟨a, D3, h3, hd⟩ | ⟨e, h3, rfl⟩
      rotate_left
      · exact h3.bind_error
      refine h3.bind_ok ?_
      rcases det_acts.getChild i _ _ _ _ h3 with h3 | ⟨_, _, _, _, h3⟩
      rotate_left
      · cases h3
      rw [← h3] at h
      exact ih m (by omega) _ _ h hd

end Hyperbee
