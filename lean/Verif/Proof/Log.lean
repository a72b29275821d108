import Verif.Proof.Honest
import Verif.Proof.Wire
import Verif.Spec
import Verif.Model.Turmoil
/-!
# What calls in flight append to the core

Nothing is assumed about the state, and nothing about what the steps of other calls do in between: a
program is followed through every possible result of its steps.
-/

namespace Hyperbee

/-- The block a step appends. -/
def Atom.block : {β : Type} → Atom β → Option Bytes
  | _, .coreAppend b => some b
  | _, .under _ _ x => x.block
  | _, _ => none

/-- The length of the core a step has been told. -/
def Atom.length : {β : Type} → Atom β → Except Err β → Nat
  | _, .version, .ok n => n
  | _, .under _ _ x, r => x.length r
  | _, _, _ => 0

/-- A length that was told is at least `L`. -/
def Atom.since (L : Nat) : {β : Type} → Atom β → Except Err β → Prop
  | _, .version, .ok n => L ≤ n
  | _, .under _ _ x, r => x.since L r
  | _, _, _ => True

/-- What may still be written first. -/
abbrev Budget := Option (Option Metadata)

/-- All the program can append is one header, the one in the budget, and that only if the core was
empty.  `h` is the greatest length it has been told so far; what it returns, with the greatest length
it has been told by then, satisfies `Q`. -/
def Quiet (L : Nat) (Q : Nat → α → Prop) : Budget → Prog α → Nat → Prop
  | _, .pure a, h => Q h a
  | _, .throw _, _ => True
  | g, .step x k, h => (∀ b, x.block = some b → L = 0 ∧ ∃ m, g = some m ∧ b = encodeHeader ⟨PROTOCOL, m⟩) ∧
    ∀ r, x.since L r → Quiet L Q (if x.block.isSome then none else g) (k r) (max h (x.length r))

theorem Quiet.imp {L : Nat} {Q R : Nat → α → Prop} {p : Prog α} : ∀ {g : Budget} {h : Nat}, Quiet L Q g p h →
    (∀ h' a, h ≤ h' → Q h' a → R h' a) → Quiet L R g p h := by
  induction p with
  | pure a => exact fun hp hq => hq _ a (Nat.le_refl _) hp
  | throw e => exact fun _ _ => trivial
  | step x k ih => exact fun hp hq => ⟨hp.1, fun r hr => ih r (hp.2 r hr) fun h' a hh => hq h' a (by omega)⟩

theorem Quiet.mono {L : Nat} {Q : Nat → α → Prop} {p : Prog α} : ∀ {h : Nat} (g : Budget), Quiet L Q none p h →
    Quiet L Q g p h := by
  induction p with
  | pure a => exact fun _ h => h
  | throw e => exact fun _ _ => trivial
  | step x k ih =>
    intro h g hp
    refine ⟨fun b hb => ?_, fun r hr => ?_⟩
    · obtain ⟨_, m, hm, _⟩ := hp.1 b hb
      cases hm
    · have := hp.2 r hr
      rw [ite_self] at this
      exact ih r _ this

theorem Quiet.bind {L : Nat} {Q : Nat → α → Prop} {R : Nat → β → Prop} {p : Prog α} {f : α → Prog β} :
    ∀ {g : Budget} {h : Nat}, Quiet L Q g p h → (∀ h' a, h ≤ h' → Q h' a → Quiet L R none (f a) h') →
    Quiet L R g (p >>= f) h := by
  induction p with
  | pure a => exact fun hp hf => (hf _ a (Nat.le_refl _) hp).mono _
  | throw e => exact fun _ _ => trivial
  | step x k ih => exact fun hp hf => ⟨hp.1, fun r hr => ih r (hp.2 r hr) fun h' a hh => hf h' a (by omega)⟩

theorem Atom.block_appends {b : Bytes} {x : Atom β} : x.block = some b → x.appends = true := by
  induction x with
  | coreAppend => exact fun _ => rfl
  | under a m x ih => exact ih
  | _ => exact fun h => by cases h

theorem Atom.block_nonempty {b : Bytes} {x : Atom β} : x.block = some b → Nonempty β := by
  induction x with
  | coreAppend => exact fun _ => ⟨0⟩
  | under a m x ih => exact ih
  | _ => exact fun h => by cases h

theorem Atom.appends_block {x : Atom β} : x.appends = true → ∃ b, x.block = some b := by
  induction x with
  | coreAppend b => exact fun _ => ⟨b, rfl⟩
  | under a m x ih => exact ih
  | _ => exact fun h => by cases h

theorem NoApp.quiet (L : Nat) {p : Prog α} (hp : NoApp α p) : ∀ h, Quiet L (fun _ _ => True) none p h := by
  induction p with
  | pure a => exact fun _ => trivial
  | throw e => exact fun _ => trivial
  | step x k ih =>
    intro h
    refine ⟨fun b hb => ?_, fun r _ => ?_⟩
    · have := Atom.block_appends hb
      rw [hp.1] at this
      cases this
    · rw [ite_self]
      exact ih r (hp.2 r) _

/-- The changes are for the same write. -/
def Changes.Same (ch ch' : Changes) : Prop := ch'.key = ch.key ∧ ch'.value = ch.value ∧ ch'.seq = ch.seq

theorem Changes.Same.rfl {ch : Changes} : ch.Same ch := ⟨Eq.refl _, Eq.refl _, Eq.refl _⟩
theorem Changes.Same.trans {a b c : Changes} (h : a.Same b) (h' : b.Same c) : a.Same c :=
  ⟨h'.1.trans h.1, h'.2.1.trans h.2.1, h'.2.2.trans h.2.2⟩
theorem Changes.same_add (ch : Changes) (a : Addr) : ch.Same (ch.addNode a).1 := ⟨Eq.refl _, Eq.refl _, Eq.refl _⟩

/-- What a program that appends nothing returns. -/
def Rets (R : α → Prop) (p : Prog α) : Prop := NoApp α p ∧ ∀ L h, Quiet L (fun _ => R) none p h

theorem Rets.pure {R : α → Prop} {a : α} (h : R a) : Rets R (Pure.pure a : Prog α) := ⟨trivial, fun _ _ => h⟩
theorem Rets.throw {R : α → Prop} (e : Err) : Rets R (Prog.throw e : Prog α) := ⟨trivial, fun _ _ => trivial⟩
theorem Rets.any {R : β → Prop} {p : Prog α} {f : α → Prog β} (hp : NoApp α p) (hf : ∀ a, Rets R (f a)) : Rets R (p >>= f) :=
  ⟨hp.bind fun a => (hf a).1, fun L h => (hp.quiet L h).bind fun h' a _ _ => (hf a).2 L h'⟩
theorem Rets.bind {Q : α → Prop} {R : β → Prop} {p : Prog α} {f : α → Prog β} (hp : Rets Q p)
    (hn : ∀ a, NoApp β (f a)) (hf : ∀ a, Q a → Rets R (f a)) : Rets R (p >>= f) :=
  ⟨hp.1.bind hn, fun L h => (hp.2 L h).bind fun h' a _ ha => (hf a ha).2 L h'⟩
theorem Rets.imp {Q R : α → Prop} {p : Prog α} (hp : Rets Q p) (h : ∀ a, Q a → R a) : Rets R p :=
  ⟨hp.1, fun L n => (hp.2 L n).imp fun _ a _ => h a⟩

theorem rets_propagate : ∀ (path : NodePath) (ch : Changes) (c : Child), Rets ch.Same (Prog.propagate ch path c) := by
  intro path
  induction path with
  | nil => exact fun ch c => Rets.pure .rfl
  | cons x path ih =>
    intro ch c
    unfold Prog.propagate
    exact Rets.any (noApp_acts.setChild_ _ _ _) fun _ => (ih _ _).imp fun _ h => (ch.same_add _).trans h

theorem rets_putLoop (m : Bool) : ∀ (path : NodePath) (ch : Changes) (k : Nat) (cs : List Child),
    Rets ch.Same (Prog.putLoop m path ch k cs) := by
  intro path
  induction path with
  | nil =>
    intro ch k cs
    unfold Prog.putLoop
    exact Rets.any (noApp_acts.alloc _) fun _ => Rets.pure (ch.same_add _)
  | cons x path ih =>
    intro ch k cs
    unfold Prog.putLoop
    refine Rets.any (noApp_acts.readNode _) fun n => ?_
    dsimp only
    split
    · refine Rets.any (noApp_acts.nodeInsert_ _ _ _ _ _) fun _ => ?_
      split
      · exact Rets.pure (ch.same_add _)
      · exact (rets_propagate _ _ _).imp fun _ h => (ch.same_add _).trans h
    · refine Rets.any (noApp_acts.nodeInsert_ _ _ _ _ _) fun _ => Rets.any (noApp_acts.split_ _) fun r => ?_
      exact (ih _ _ _).imp fun _ h => ((ch.same_add _).trans (Changes.same_add _ _)).trans h

theorem rets_rotate (sd : Side) (f i d di dd : Nat) (ch : Changes) : Rets ch.Same (Prog.Side.rotate sd f i d di dd ch) := by
  unfold Prog.Side.rotate
  refine Rets.any (noApp_acts.getDonorKey_ _ _) fun _ => Rets.any (noApp_acts.getDonorChild_ _ _) fun _ =>
    Rets.any (noApp_acts.swapDonor_ _ _ _ _) fun _ => Rets.any (noApp_acts.insertDonations_ _ _ _ _) fun _ =>
    Rets.any (noApp_acts.setChild_ _ _ _) fun _ => Rets.any (noApp_acts.setChild_ _ _ _) fun _ => Rets.pure ?_
  exact (ch.same_add _).trans (Changes.same_add _ _)

/-- The changes, if there are any, are for the same write. -/
def Changes.SameO (ch : Changes) (o : Option Changes) : Prop := ∀ c, o = some c → ch.Same c

theorem rets_maybeRotate (sd : Side) (f i d o : Nat) (ch : Changes) :
    Rets ch.SameO (Prog.Side.maybeRotate sd f i d o ch) := by
  unfold Prog.Side.maybeRotate
  refine Rets.any (noApp_acts.canRotate_ _ _ _ _) fun r => ?_
  cases r with
  | none => exact Rets.pure fun c h => by cases h
  | some r =>
    refine Rets.bind (rets_rotate _ _ _ _ _ _ _) (fun _ => trivial) fun c hc => Rets.pure fun c' h => ?_
    cases h; exact hc

theorem rets_maybeMerge (sd : Side) (f i d : Nat) (ch : Changes) :
    Rets ch.SameO (Prog.Side.maybeMerge sd f i d ch) := by
  unfold Prog.Side.maybeMerge
  refine Rets.any (noApp_acts.getDonorIndex_ _ _ _) fun r => ?_
  cases r with
  | none => exact Rets.pure fun c h => by cases h
  | some r =>
    refine Rets.any (noApp_acts.getChild_ _ _) fun dc => ?_
    dsimp only
    refine Rets.any (noApp_acts.edit _ _ _) fun _ => Rets.any (noApp_acts.edit _ _ _) fun _ =>
      Rets.any (noApp_acts.readNode _) fun _ => Rets.any (noApp_acts.edit _ _ _) fun _ =>
      Rets.any (noApp_acts.edit _ _ _) fun _ => Rets.any (noApp_acts.readNode _) fun _ =>
      Rets.any (noApp_acts.moveChildren _ _ _) fun _ => Rets.any (noApp_acts.edit _ _ _) fun _ => Rets.pure fun c h => ?_
    cases h
    exact ch.same_add _

theorem rets_repairOne (f i d o : Nat) (ch : Changes) : Rets ch.Same (Prog.repairOne f i d o ch) := by
  have key : ∀ {p : Prog (Option Changes)} {q : Prog Changes}, Rets ch.SameO p → Rets ch.Same q →
      Rets ch.Same (p >>= fun o => match o with | some c => Pure.pure c | none => q) := by
    intro p q hp hq
    refine Rets.bind hp (fun a => ?_) fun a ha => ?_
    · cases a
      · exact hq.1
      · trivial
    · cases a with
      | none => exact hq
      | some c => exact Rets.pure (ha c rfl)
  unfold Prog.repairOne
  exact key (rets_maybeRotate _ _ _ _ _ _) (key (rets_maybeRotate _ _ _ _ _ _) (key (rets_maybeMerge _ _ _ _ _)
    (key (rets_maybeMerge _ _ _ _ _) (Rets.throw _))))

theorem rets_repairLoop (o : Nat) : ∀ (path : NodePath) (f i d : Nat) (ch : Changes),
    Rets (fun r => ch.Same r.2.2) (Prog.repairLoop o path f i d ch) := by
  intro path
  induction path with
  | nil =>
    intro f i d ch
    unfold Prog.repairLoop
    refine Rets.bind (rets_repairOne _ _ _ _ _) (fun a => ?_) fun ch' hc => ?_
    · unfold Prog.rootIsEmpty
      pacts noApp_acts []
    · refine Rets.any (by unfold Prog.rootIsEmpty; pacts noApp_acts []) fun e => ?_
      split
      · exact Rets.any (noApp_acts.readNode _) fun _ => Rets.any (noApp_orPanic _ _) fun _ => Rets.pure hc
      · exact Rets.pure (hc.trans (Changes.same_add _ _))
  | cons x path ih =>
    intro f i d ch
    unfold Prog.repairLoop
    refine Rets.bind (rets_repairOne _ _ _ _ _) (fun a => ?_) fun ch' hc => ?_
    · unfold Prog.rootIsEmpty
      pacts noApp_acts [noApp_acts.repairLoop_ _ _ _ _ _ _]
    · refine Rets.any (by unfold Prog.rootIsEmpty; pacts noApp_acts []) fun e => ?_
      split
      · exact Rets.any (noApp_acts.readNode _) fun _ => Rets.any (noApp_orPanic _ _) fun _ => Rets.pure hc
      · refine Rets.any (noApp_acts.readNode _) fun _ => ?_
        dsimp only
        split
        · exact Rets.pure (hc.trans (Changes.same_add _ _))
        · exact (ih _ _ _ _).imp fun _ h => hc.trans h

theorem rets_repair (path : NodePath) (o : Nat) (ch : Changes) : Rets (fun r => ch.Same r.2.2) (Prog.repair path o ch) := by
  unfold Prog.repair
  cases path with
  | nil => exact Rets.throw _
  | cons x path => exact Rets.any (noApp_acts.getChild_ _ _) fun _ => rets_repairLoop _ _ _ _ _ _

theorem rets_delChanges (k : Bytes) (path : NodePath) :
    Rets (fun ch => ch.key = k ∧ ch.value = none) (Prog.delChanges k path) := by
  unfold Prog.delChanges
  refine Rets.any noApp_acts.version fun v => ?_
  dsimp only
  cases path with
  | nil => exact Rets.throw _
  | cons x path =>
    refine Rets.any (noApp_acts.edit _ _ _) fun _ => Rets.any (noApp_acts.isLeaf_ _) fun leaf => ?_
    have tail : ∀ path : NodePath, Rets (fun ch => ch.key = k ∧ ch.value = none) (match path with
        | [] => Prog.throw (.panic "del.rs:457 if/else above ensures path is not empty")
        | (bottomNode, _) :: path => do
          let bn ← Prog.readNode bottomNode
          let (childRef, path, ch) ←
            if path.isEmpty = false ∧ bn.keys.length < minKeys MAX_KEYS then Prog.repair path MAX_KEYS (Changes.new v k none)
            else
              let (ch, c) := (Changes.new v k none).addNode bottomNode
              Pure.pure (c, path, ch)
          if path.isEmpty = false then Prog.propagate ch path childRef else Pure.pure ch) := by
      intro path
      cases path with
      | nil => exact Rets.throw _
      | cons x path =>
      dsimp only
      refine Rets.any (noApp_acts.readNode _) fun bn => ?_
      split
      · refine Rets.bind (rets_repair _ _ _) (fun r => ?_) fun r hr => ?_
        · pacts noApp_acts [noApp_acts.propagate_ _ _ _]
        · split
          · exact (rets_propagate _ _ _).imp fun _ h => ⟨(hr.trans h).1, (hr.trans h).2.1⟩
          · exact Rets.pure ⟨hr.1, hr.2.1⟩
      · refine Rets.bind (Q := fun r => (Changes.new v k none).Same r.2.2) (Rets.pure (Changes.same_add _ _)) (fun r => ?_) fun r hr => ?_
        · pacts noApp_acts [noApp_acts.propagate_ _ _ _]
        · split
          · exact (rets_propagate _ _ _).imp fun _ h => ⟨(hr.trans h).1, (hr.trans h).2.1⟩
          · exact Rets.pure ⟨hr.1, hr.2.1⟩
    split
    · exact Rets.any (noApp_acts.pure _) tail
    · exact Rets.any (noApp_acts.replaceRemoved_ _ _ _) tail

/-! ## Preparing a write -/

theorem quiet_version (L h : Nat) : Quiet L (fun h' n => L ≤ n ∧ n ≤ h') none Prog.version h := by
  refine ⟨fun b hb => (by cases hb), fun r hr => ?_⟩
  cases r with
  | error e => trivial
  | ok n => exact ⟨hr, Nat.le_max_right _ _⟩

theorem quiet_append (m : Option Metadata) (h : Nat) :
    Quiet 0 (fun _ _ => True) (some m) (Prog.coreAppend (encodeHeader ⟨PROTOCOL, m⟩)) h := by
  refine ⟨fun b hb => ?_, fun r _ => ?_⟩
  · cases hb
    exact ⟨rfl, m, rfl, rfl⟩
  · cases r <;> trivial

theorem quiet_createHeader (L : Nat) (m : Option Metadata) (h : Nat) :
    Quiet L (fun _ _ => True) (some m) (Prog.createHeader m) h := by
  refine ⟨fun b hb => (by cases hb), fun r hr => ?_⟩
  cases r with
  | error e => trivial
  | ok n =>
    show Quiet L _ (some m) (if n ≠ 0 then _ else _) _
    split
    · trivial
    · next hn =>
      have hl : L ≤ n := hr
      obtain rfl : L = 0 := by omega
      exact quiet_append m _

theorem Quiet.catchExists {L : Nat} {p : Prog Nat} : ∀ {g : Budget} {h : Nat}, Quiet L (fun _ _ => True) g p h →
    Quiet L (fun _ _ => True) g p.catchExists h := by
  induction p with
  | pure a => exact fun _ => trivial
  | throw e => exact fun _ => by cases e <;> trivial
  | step x k ih => exact fun hp => ⟨hp.1, fun r hr => ih r (hp.2 r hr)⟩

theorem quiet_getRoot (L h : Nat) : Quiet L (fun _ _ => True) (some none) (Prog.getRoot true) h := by
  refine ⟨fun b hb => (by cases hb), fun r hr => ?_⟩
  cases r with
  | error e => trivial
  | ok v =>
    show Quiet L _ (some none) (if v ≤ 1 then _ else _) _
    split
    · split
      · exact (quiet_createHeader L none _).catchExists.bind fun _ _ _ _ => trivial
      · trivial
    · refine (NoApp.quiet L (noApp_blocksGet (v - 1)) _).mono (some none) |>.bind fun h1 b _ _ => ?_
      exact (NoApp.quiet L (noApp_acts.getTreeNode_ b 0) _).bind fun _ _ _ _ => trivial

/-- What a put has prepared. -/
def PutReady (k : Bytes) (v : Option Bytes) (h : Nat) : Prepared (Option Nat × Option Nat) → Prop
  | .done a => a.2 = none
  | .commit ch a => ch.key = k ∧ ch.value = v ∧ ∃ q, a.2 = some q ∧ q ≤ h

theorem quiet_putPrepare (L : Nat) (k : Bytes) (v : Option Bytes) (cas : Option KeyValueData → KeyValueData → Bool)
    (h : Nat) : Quiet L (PutReady k v) (some none) (Prog.putPrepare k v cas) h := by
  unfold Prog.putPrepare
  refine (quiet_getRoot L h).bind fun h1 root _ _ => (quiet_version L h1).bind fun h2 seq _ hs => ?_
  dsimp only
  have put : ∀ {m : Bool} {path : NodePath} {a : Option Nat} {h3 : Nat}, h2 ≤ h3 → Quiet L (PutReady k v) none
      (Prog.putLoop m path (Changes.new seq k v) seq [] >>= fun ch => Pure.pure (.commit ch (a, some seq))) h3 := by
    intro m path a h3 h23
    refine ((rets_putLoop m path (Changes.new seq k v) seq []).2 L h3).bind fun h4 ch h34 hc => ?_
    exact ⟨hc.1, hc.2.1, seq, rfl, by omega⟩
  cases root with
  | none =>
    dsimp only
    split
    · exact rfl
    · exact put (Nat.le_refl _)
  | some root =>
    dsimp only
    refine ((noApp_acts.nearestNode_ _ _).quiet L _).bind fun h3 x h23 _ => ?_
    have tail : ∀ (o : Option KeyValueData) (h4 : Nat), h2 ≤ h4 → Quiet L (PutReady k v) none
        (if cas o ⟨seq, k, v⟩ = false then Pure.pure (.done (x.1, none)) else do
          let ch ← Prog.putLoop x.1.isSome x.2 (Changes.new seq k v) seq []
          Pure.pure (.commit ch (x.1, some seq))) h4 := by
      intro o h4 h24
      split
      · exact rfl
      · exact put h24
    split
    · refine ((noApp_orPanic _ _).quiet L _).bind fun h4 y h34 _ => ((noApp_acts.getKeyValue_ _ _).quiet L _).bind
        fun h5 kv h45 _ => ?_
      exact tail (some kv) h5 (by omega)
    · exact tail none h3 h23

/-- What a deletion has prepared. -/
def DelReady (k : Bytes) : Prepared (Option (Bool × Nat)) → Prop
  | .done a => ∀ q, a ≠ some (true, q)
  | .commit ch a => ch.key = k ∧ ch.value = none ∧ ∃ q, a = some (true, q)

theorem rets_delPrepare (k : Bytes) (cas : KeyValueData → Bool) : Rets (DelReady k) (Prog.delPrepare k cas) := by
  unfold Prog.delPrepare
  refine Rets.any noApp_acts.getRoot_ fun root => ?_
  cases root with
  | none => exact Rets.pure fun q h => by cases h
  | some root =>
    refine Rets.any (noApp_acts.nearestNode_ _ _) fun x => ?_
    obtain ⟨matched, path⟩ := x
    cases matched with
    | none => exact Rets.pure fun q h => by cases h
    | some seq =>
      refine Rets.any (noApp_orPanic _ _) fun y => Rets.any (noApp_acts.getKeyValue_ _ _) fun kv => ?_
      split
      · exact Rets.pure fun q h => by cases h
      · exact Rets.bind (rets_delChanges _ _) (fun _ => trivial) fun ch hc => Rets.pure ⟨hc.1, hc.2, seq, rfl⟩

/-! ## Writing it -/

/-- Besides a header the program appends at most one block, and that with its last step.  The block is
that of the write which `E` finds in what it returns, and `S` of what it returns is a length it was told
before.  If what the program returns has no effect, it has not appended that block, unless appending it
failed though it was stored: then it ends with `X`. -/
def Scribe (L : Nat) (E : α → Option Write) (S : α → Nat) (X : Err → Prog α) : Budget → Prog α → Nat → Prop
  | _, .pure a, _ => E a = none
  | _, .throw _, _ => True
  | g, .step x k, h =>
    (∃ w ns, x.block = some (encodeBlock w.stored.1 w.stored.2 ns) ∧
      (∀ n, ∃ a, k (.ok n) = .pure a ∧ E a = some w ∧ S a ≤ h) ∧
      ∀ e, k (.error e) = X e ∧ Scribe L E S X none (k (.error e)) h) ∨
    ((∀ b, x.block = some b → L = 0 ∧ ∃ m, g = some m ∧ b = encodeHeader ⟨PROTOCOL, m⟩) ∧
      ∀ r, x.since L r → Scribe L E S X (if x.block.isSome then none else g) (k r) (max h (x.length r)))

section
variable {L : Nat} {E : α → Option Write} {S : α → Nat} {X : Err → Prog α}

theorem Scribe.mono {p : Prog α} : ∀ {h : Nat} (g : Budget), Scribe L E S X none p h → Scribe L E S X g p h := by
  induction p with
  | pure a => exact fun _ h => h
  | throw e => exact fun _ _ => trivial
  | step x k ih =>
    intro h g hp
    rcases hp with hp | hp
    · exact .inl hp
    · refine .inr ⟨fun b hb => ?_, fun r hr => ?_⟩
      · obtain ⟨_, m, hm, _⟩ := hp.1 b hb
        cases hm
      · have := hp.2 r hr
        rw [ite_self] at this
        exact ih r _ this

theorem Quiet.scribe {p : Prog α} : ∀ {g : Budget} {h : Nat}, Quiet L (fun _ a => E a = none) g p h → Scribe L E S X g p h := by
  induction p with
  | pure a => exact fun h => h
  | throw e => exact fun _ => trivial
  | step x k ih => exact fun hp => .inr ⟨hp.1, fun r hr => ih r (hp.2 r hr)⟩

theorem Quiet.then {Q : Nat → β → Prop} {p : Prog β} {f : β → Prog α} : ∀ {g : Budget} {h : Nat}, Quiet L Q g p h →
    (∀ h' a, h ≤ h' → Q h' a → Scribe L E S X none (f a) h') → Scribe L E S X g (p >>= f) h := by
  induction p with
  | pure a => exact fun hp hf => (hf _ a (Nat.le_refl _) hp).mono _
  | throw e => exact fun _ _ => trivial
  | step x k ih => exact fun hp hf => .inr ⟨hp.1, fun r hr => ih r (hp.2 r hr) fun h' a hh => hf h' a (by omega)⟩

theorem Scribe.map {E' : β → Option Write} {S' : β → Nat} {X' : Err → Prog β} {p : Prog α} {f : α → Prog β}
    (hf : ∀ a, (∃ b, f a = .pure b ∧ E' b = E a ∧ S' b ≤ S a) ∨ E a = none ∧ ∃ e, f a = .throw e)
    (hx : ∀ e, X e >>= f = X' e) :
    ∀ {g : Budget} {h : Nat}, Scribe L E S X g p h → Scribe L E' S' X' g (p >>= f) h := by
  induction p with
  | pure a =>
    intro g h hp
    show Scribe L E' S' X' g (f a) h
    rcases hf a with ⟨b, hb, he, _⟩ | ⟨_, e, he⟩
    · rw [hb]
      exact he.trans hp
    · rw [he]
      trivial
  | throw e => exact fun _ => trivial
  | step x k ih =>
    intro g h hp
    rcases hp with ⟨w, ns, hb, hk, he⟩ | hp
    · refine .inl ⟨w, ns, hb, fun n => ?_, fun e => ⟨?_, ih _ (he e).2⟩⟩
      obtain ⟨a, ha, hE, hS⟩ := hk n
      rcases hf a with ⟨b, hb, hEb, hSb⟩ | ⟨hn, _⟩
      · refine ⟨b, ?_, hEb.trans hE, Nat.le_trans hSb hS⟩
        show k (.ok n) >>= f = _
        rw [ha]
        exact hb
      · rw [hn] at hE
        cases hE
      · show k (.error e) >>= f = _
        rw [(he e).1]
        exact hx e
    · exact .inr ⟨hp.1, fun r hr => ih r (hp.2 r hr)⟩

theorem Scribe.replyOf {E' : Reply → Option Write} {S' : Reply → Nat} {X' : Err → Prog Reply} {p : Prog α} {f : α → Reply}
    (hx : ∀ e, Prog.replyOf f (X e) = X' e)
    (hf : ∀ a, E' (f a) = E a ∧ S' (f a) ≤ S a) (herr : ∀ e, E' (.error e) = none) :
    ∀ {g : Budget} {h : Nat}, Scribe L E S X g p h → Scribe L E' S' X' g (Prog.replyOf f p) h := by
  induction p with
  | pure a => exact fun hp => (hf a).1.trans hp
  | throw e => exact fun _ => herr e
  | step x k ih =>
    intro g h hp
    rcases hp with ⟨w, ns, hb, hk, he⟩ | hp
    · refine .inl ⟨w, ns, hb, fun n => ?_, fun e => ⟨?_, ih _ (he e).2⟩⟩
      obtain ⟨a, ha, hE, hS⟩ := hk n
      refine ⟨f a, ?_, (hf a).1.trans hE, Nat.le_trans (hf a).2 hS⟩
      · show Prog.replyOf f (k (.ok n)) = _
        rw [ha]
        rfl
      · show Prog.replyOf f (k (.error e)) = _
        rw [(he e).1]
        exact hx e
    · exact .inr ⟨hp.1, fun r hr => ih r (hp.2 r hr)⟩

theorem scribe_commit {ch : Changes} {a : α} {h : Nat} {w : Write} (hE : E a = some w) (hw : w.stored = (ch.key, ch.value)) (hS : S a ≤ h) :
    Scribe L E S .throw none (Prog.commitPrepared (.commit ch a)) h := by
  show Scribe L E S .throw none (Prog.addChanges ch >>= _) h
  unfold Prog.addChanges
  have assoc : ∀ {α β γ : Type} (p : Prog α) (f : α → Prog β) (g : β → Prog γ), (p >>= f) >>= g = p >>= fun a => f a >>= g := by
    intro α β γ p f g
    induction p with
    | pure a => rfl
    | throw e => rfl
    | step x k ih => exact congrArg (Prog.step x) (funext fun r => ih r)
  rw [assoc]
  refine ((noApp_acts.reorderNodes_ _ _).quiet L h).then fun h1 _ hh _ => ?_
  rw [assoc]
  refine ((noApp_acts.readNodes_ _).quiet L h1).then fun h2 ns hh' _ => ?_
  refine .inl ⟨w, ns, by rw [hw]; rfl, fun n => ⟨a, rfl, hE, by omega⟩, fun e => ⟨rfl, trivial⟩⟩

end

/-! ## The traversal -/

theorem noApp_pollSetup (r : Bool) (f : Frame) : NoApp _ (Prog.pollSetup r f) := by
  unfold Prog.pollSetup
  pacts noApp_acts [NoApp.tryResult (noApp_acts.makeIter_ _ _ _ _), (noApp_acts.readNode _).under _ _]

theorem noApp_poll (r : Bool) : ∀ fs : List Frame, NoApp _ (Prog.poll r fs) := by
  intro fs
  induction fs with
  | nil => trivial
  | cons f rest ih =>
    unfold Prog.poll
    pacts noApp_acts [NoApp.tryResult (noApp_acts.getKeyValue _ _), NoApp.tryResult (noApp_acts.getChild _ _), ih,
      noApp_pollSetup _ _]

theorem noApp_drive (rs : List Bool) : ∀ fs : List Frame,
    NoApp _ (Prog.drive (fun x : Except Err KeyValueData => Pure.pure x) rs fs) := by
  induction rs with
  | nil => exact fun _ => trivial
  | cons r rs ih =>
    intro fs
    unfold Prog.drive
    pacts noApp_acts [noApp_poll _ _, ih _]

theorem noApp_traverseSession (b : TraverseConfigBuilder) (rs : List Bool) : NoApp _ (Prog.traverseSession b rs) := by
  unfold Prog.traverseSession Prog.collect Prog.traverse
  pacts noApp_acts [noApp_acts.getRoot_, noApp_drive _ _]

theorem noApp_get (k : Bytes) : NoApp _ (Prog.get k) := by
  unfold Prog.get
  pacts noApp_acts [noApp_acts.getRoot_, noApp_acts.nearestNode_ _ _, noApp_orPanic _ _]

/-! ## Calls -/

/-- The block number a reply names as that of what was written. -/
def Reply.block : Reply → Nat
  | .put _ q => q
  | .putCas _ (some q) => q
  | _ => 0

/-- The header a call writes if the core is empty. -/
def Cmd.header : Cmd → Option (Option Metadata)
  | .put _ _ => some none
  | .putCas _ _ _ => some none
  | .createHeader m => some m
  | _ => none

/-- The call replies with the error. -/
def Prog.fails (e : Err) : Prog Reply := .pure (.error e)

theorem scribe_exec (L : Nat) (c : Cmd) : Scribe L (effect c) Reply.block Prog.fails c.header (Prog.exec c) 0 := by
  have none_ : ∀ {α : Type} {f : α → Reply} {p : Prog α}, (∀ r, effect c r = none) → Quiet L (fun _ _ => True) c.header p 0 →
      Scribe L (effect c) Reply.block Prog.fails c.header (Prog.replyOf f p) 0 := by
    intro α f p he hp
    refine Scribe.replyOf (E := fun _ => none) (S := fun a => (f a).block) (X := .throw) (fun _ => rfl) (fun a => ⟨?_, Nat.le_refl _⟩) (fun e => ?_)
      (hp.imp fun _ _ _ _ => rfl).scribe
    · rw [he]
    · rw [he]
  have put_ : ∀ k v cas, Scribe L (fun a : Option Nat × Option Nat => a.2.map fun _ => .set k v) (fun a => a.2.getD 0) .throw (some none)
      (Prog.putCompareAndSwap k v cas) 0 := by
    intro k v cas
    unfold Prog.putCompareAndSwap
    refine (quiet_putPrepare L k v cas 0).then fun h' p _ hp => ?_
    cases p with
    | done a =>
      show Option.map _ a.2 = none
      rw [show a.2 = none from hp]
      rfl
    | commit ch a =>
      obtain ⟨h1, h2, q, hq, hl⟩ := hp
      refine scribe_commit (w := .set k v) ?_ ?_ ?_
      · show Option.map _ a.2 = _
        rw [hq]
        rfl
      · rw [h1, h2]
        rfl
      · show a.2.getD 0 ≤ h'
        rw [hq]
        exact hl
  have del_ : ∀ k cas, Scribe L (fun a : Option (Bool × Nat) => match a with | some (true, _) => some (.clear k) | _ => none)
      (fun _ => 0) .throw none (Prog.delCompareAndSwap k cas) 0 := by
    intro k cas
    unfold Prog.delCompareAndSwap
    refine ((rets_delPrepare k cas).2 L 0).then fun h' p _ hp => ?_
    cases p with
    | done a =>
      rcases a with _ | ⟨b, q⟩
      · exact rfl
      · cases b
        · exact rfl
        · exact absurd rfl (hp q)
    | commit ch a =>
      obtain ⟨h1, h2, q, rfl⟩ := hp
      refine scribe_commit (w := .clear k) rfl ?_ (Nat.zero_le _)
      rw [h1, h2]
      rfl
  cases c with
  | version => exact none_ (fun _ => rfl) (NoApp.quiet L noApp_acts.version 0)
  | get k => exact none_ (fun _ => rfl) ((noApp_get k).quiet L 0)
  | traverse b rs => exact none_ (fun _ => rfl) ((noApp_traverseSession b rs).quiet L 0)
  | reopen => exact rfl
  | createHeader m => exact none_ (fun _ => rfl) (quiet_createHeader L m 0)
  | putCas k v cas =>
    refine Scribe.replyOf (fun _ => rfl) (fun a => ?_) (fun _ => rfl) (put_ k v cas)
    obtain ⟨o, n⟩ := a
    cases n
    · exact ⟨rfl, Nat.le_refl _⟩
    · exact ⟨rfl, Nat.le_refl _⟩
  | put k v =>
    refine Scribe.replyOf (α := Option Nat × Nat) (E := fun _ => some (.set k v)) (S := fun a => a.2) (X := .throw) (fun _ => rfl) (fun a => ⟨rfl, Nat.le_refl _⟩) (fun _ => rfl) ?_
    refine (put_ k v fun _ _ => true).map (fun a => ?_) fun _ => rfl
    obtain ⟨o, n⟩ := a
    cases n
    · exact .inr ⟨rfl, _, rfl⟩
    · exact .inl ⟨_, rfl, rfl, Nat.le_refl _⟩
  | delCas k cas =>
    refine Scribe.replyOf (fun _ => rfl) (fun a => ?_) (fun _ => rfl) (del_ k cas)
    rcases a with _ | ⟨b, q⟩
    · exact ⟨rfl, Nat.le_refl _⟩
    · cases b <;> exact ⟨rfl, Nat.le_refl _⟩
  | del k =>
    refine Scribe.replyOf (E := fun a => a.map fun _ => .clear k) (S := fun _ => 0) (X := .throw) (fun _ => rfl) (fun a => ?_) (fun _ => rfl) ?_
    · cases a <;> exact ⟨rfl, Nat.le_refl _⟩
    · refine (del_ k fun _ => true).map (fun a => ?_) fun _ => rfl
      rcases a with _ | ⟨b, q⟩
      · exact .inl ⟨_, rfl, rfl, Nat.le_refl _⟩
      · cases b
        · exact .inr ⟨rfl, _, rfl⟩
        · exact .inl ⟨_, rfl, rfl, Nat.le_refl _⟩

/-! ## Interleavings -/

theorem Atom.core_block {b : Bytes} {x : Atom β} (s : St) : x.block = some b →
    (∃ n, (x.run s).1 = .ok n ∧ (x.run s).2.core = s.core ++ [b]) ∨ ∃ e, (x.run s).1 = .error e ∧ (x.run s).2.core = s.core := by
  induction x with
  | coreAppend c =>
    intro h
    cases h
    show (∃ n, (Hyperbee.coreAppend b s).1 = .ok n ∧ (Hyperbee.coreAppend b s).2.core = _) ∨
      ∃ e, (Hyperbee.coreAppend b s).1 = .error e ∧ (Hyperbee.coreAppend b s).2.core = _
    unfold Hyperbee.coreAppend
    split
    · exact .inl ⟨_, rfl, rfl⟩
    · exact .inr ⟨_, rfl, rfl⟩
  | under a m x ih => exact ih
  | _ => exact fun h => by cases h

theorem Atom.core_quiet {x : Atom β} (s : St) (h : x.block = none) : (x.run s).2.core = s.core := by
  refine (Atom.core_noApp ?_ s).1
  cases hx : x.appends with
  | false => rfl
  | true =>
    obtain ⟨b, hb⟩ := Atom.appends_block hx
    rw [h] at hb
    cases hb

theorem Atom.length_run (x : Atom β) (s : St) : x.length (x.run s).1 ≤ s.core.length ∧
    ∀ L, L ≤ s.core.length → x.since L (x.run s).1 := by
  induction x with
  | version => exact ⟨Nat.le_refl _, fun _ h => h⟩
  | under a m x ih => exact ih
  | _ =>
    refine ⟨?_, fun _ _ => ?_⟩
    · unfold Atom.length; exact Nat.zero_le _
    · unfold Atom.since; trivial

/-- What a step may come to: it has appended its block, or it has failed and has not, or it has failed
though the block was stored.  `lost` says that this last is possible. -/
structure Atom.Outcome (lost : Prop) (x : Atom β) (s : St) (r : Except Err β) (t : St) : Prop where
  length : x.length r ≤ s.core.length
  since : ∀ L, L ≤ s.core.length → x.since L r
  quiet : x.block = none → t.core = s.core
  block : ∀ b, x.block = some b → (∃ n, r = .ok n ∧ t.core = s.core ++ [b]) ∨ (∃ e, r = .error e ∧ t.core = s.core) ∨
    lost ∧ r = .error .core ∧ t.core = s.core ++ [b]

theorem Atom.outcome_run (lost : Prop) (x : Atom β) (s : St) : x.Outcome lost s (x.run s).1 (x.run s).2 := by
  obtain ⟨h1, h2⟩ := x.length_run s
  refine ⟨h1, h2, Atom.core_quiet s, fun b hb => ?_⟩
  rcases Atom.core_block s hb with h | h
  · exact .inl h
  · exact .inr (.inl h)

theorem Atom.outcome_error (lost : Prop) (x : Atom β) (s : St) (e : Err) : x.Outcome lost s (.error e) s := by
  refine ⟨?_, fun L hL => ?_, fun _ => rfl, fun b hb => .inr (.inl ⟨e, rfl, rfl⟩)⟩
  · induction x with
    | under a m x ih => exact ih
    | _ => unfold Atom.length; exact Nat.zero_le _
  · induction x with
    | under a m x ih => exact ih
    | _ => unfold Atom.since; trivial

theorem Atom.outcome_fail (lost : Prop) {x : Atom β} (s : St) {f : Fault} {r : Except Err β} (h : x.fail f = some r) :
    x.Outcome lost s r s := by
  induction x with
  | coreFetch q =>
    cases h
    exact ⟨Nat.zero_le _, fun _ _ => trivial, fun _ => rfl, fun b hb => by cases hb⟩
  | under a m x ih =>
    have := ih h
    exact ⟨this.length, this.since, this.quiet, this.block⟩
  | _ => cases h

theorem Atom.outcome_lose {lost : Prop} {x : Atom β} (s : St) {l : Loss} {m : M β} (h : x.lose l = some m)
    (hl : l = .stored → lost) : x.Outcome lost s (m s).1 (m s).2 := by
  induction x with
  | coreAppend b =>
    cases l with
    | refused => cases h; exact Atom.outcome_error _ _ _ _
    | stored =>
      cases h
      refine ⟨Nat.zero_le _, fun _ _ => trivial, (fun hb => by cases hb), fun b' hb => ?_⟩
      cases hb
      show _ ∨ (∃ e, _ ∧ (Hyperbee.coreAppend b s).2.core = _) ∨ lost ∧ _ ∧ (Hyperbee.coreAppend b s).2.core = _
      unfold Hyperbee.coreAppend
      split
      · exact .inr (.inr ⟨hl rfl, rfl, rfl⟩)
      · exact .inr (.inl ⟨_, rfl, rfl⟩)
  | under a md x ih =>
    have := ih h
    exact ⟨this.length, this.since, this.quiet, this.block⟩
  | _ => cases h

theorem Atom.outcome_trouble {lost : Prop} {x : Atom β} (s : St) {t : Trouble} {m : M β} (h : x.trouble t = some m)
    (hl : t = .append .stored → lost) : x.Outcome lost s (m s).1 (m s).2 := by
  cases t with
  | read f =>
    obtain ⟨r, hr, rfl⟩ := Option.map_eq_some_iff.mp h
    exact Atom.outcome_fail _ s hr
  | append l => exact Atom.outcome_lose s h fun h => hl (by rw [h])
  | dropped => cases h

/-- An entry of the log: the call that appended the block, the key and the value it wrote (`none` for a
header), and the block. -/
structure Entry where
  call : Nat
  wrote : Option Write
  block : Bytes

/-- What is known while calls are in flight.  `n` is the length of the core at the start,
`Lost` the calls in which an append may have failed though the block was stored. -/
structure Kept (n : Nat) (Lost : Nat → Prop) (E : Nat → Reply → Option Write) (G : Nat → Budget) (log : List Entry)
    (ps : List (Prog Reply)) (s : St) : Prop where
  /-- each call still has everything to write, or has written its block and returned -/
  each : ∀ i p, ps[i]? = some p →
    (∃ g h, h ≤ s.core.length ∧ Scribe n (E i) Reply.block Prog.fails g p h ∧ (∀ e ∈ log, e.call = i → e.wrote = none) ∧
      (g = none ∨ g = G i ∧ ∀ e ∈ log, e.call = i → e.wrote ≠ none)) ∨
    (∃ r w, p = .pure r ∧ E i r = some w ∧ ∃ e ∈ log, e.call = i ∧ e.wrote = some w) ∨
    p = Prog.fails .core ∧ E i (.error .core) = none
  /-- headers -/
  headers : ∀ e ∈ log, e.wrote = none → n = 0 ∧ ∃ m, G e.call = some m ∧ e.block = encodeHeader ⟨PROTOCOL, m⟩
  /-- other blocks -/
  blocks : ∀ j e w, log[j]? = some e → e.wrote = some w → ∃ r, ps[e.call]? = some (.pure r) ∧
    (E e.call r = some w ∨ Lost e.call ∧ r = .error .core ∧ ∃ r', E e.call r' = some w) ∧
    Reply.block r ≤ n + j ∧ ∃ ns, e.block = encodeBlock w.stored.1 w.stored.2 ns
  /-- no call writes two headers, nor two blocks -/
  once : (log.map fun e => (e.call, e.wrote.isSome)).Nodup

theorem Kept.outcome {n : Nat} {Lost : Nat → Prop} {E : Nat → Reply → Option Write} {G : Nat → Budget} {log : List Entry}
    {ps : List (Prog Reply)} {s : St} {core0 : List Bytes} (hn : core0.length = n) (hc : s.core = core0 ++ log.map Entry.block)
    (h : Kept n Lost E G log ps s) {i : Nat} {x : Atom β} {k : Except Err β → Prog Reply}
    (hi : ps[i]? = some (.step x k)) {r : Except Err β} {t : St} (hx : x.Outcome (Lost i) s r t) :
    ∃ log', t.core = core0 ++ log'.map Entry.block ∧ Kept n Lost E G log' (ps.set i (k r)) t := by
  have hlen : i < ps.length := (List.getElem?_eq_some_iff.mp hi).1
  have hget : ∀ q, (ps.set i q)[i]? = some q := fun q => by simp [hlen]
  have hoth : ∀ j q, j ≠ i → (ps.set i q)[j]? = ps[j]? := fun j q hj => by
    rw [List.getElem?_set_ne (Ne.symm hj)]
  obtain ⟨g, hh, hhl, hS, hw, hg⟩ : ∃ g h, h ≤ s.core.length ∧ Scribe n (E i) Reply.block Prog.fails g (.step x k) h ∧
      (∀ e ∈ log, e.call = i → e.wrote = none) ∧ (g = none ∨ g = G i ∧ ∀ e ∈ log, e.call = i → e.wrote ≠ none) := by
    rcases h.each i _ hi with h | ⟨r, w, hr, _⟩ | ⟨hr, _⟩
    · exact h
    · cases hr
    · cases hr
  have hcl : s.core.length = n + log.length := by rw [hc]; simp [hn]
  have hblk : ∀ {q : Prog Reply} {j e w}, log[j]? = some e → e.wrote = some w →
      ∃ r, (ps.set i q)[e.call]? = some (.pure r) ∧
      (E e.call r = some w ∨ Lost e.call ∧ r = .error .core ∧ ∃ r', E e.call r' = some w) ∧
      Reply.block r ≤ n + j ∧ ∃ ns, e.block = encodeBlock w.stored.1 w.stored.2 ns := by
    intro q j e w hj he
    obtain ⟨r, h1, h2⟩ := h.blocks j e w hj he
    refine ⟨r, ?_, h2⟩
    have : e.call ≠ i := by
      intro hei
      have := hw e (List.mem_of_getElem? hj) hei
      rw [he] at this
      cases this
    rw [hoth _ _ this]
    exact h1
  -- a step that appends nothing, or fails to
  have stay : ∀ {q : Prog Reply} {s' : St} {g' : Budget} {h' : Nat}, s'.core = s.core → h' ≤ s.core.length →
      Scribe n (E i) Reply.block Prog.fails g' q h' → (g' = none ∨ g' = g) → Kept n Lost E G log (ps.set i q) s' := by
    intro q s' g' h' hs' hl hq hg'
    refine ⟨fun j p hj => ?_, h.headers, fun j e w => hblk, h.once⟩
    by_cases hji : j = i
    · subst hji
      rw [hget] at hj
      cases hj
      refine .inl ⟨g', h', by rw [hs']; exact hl, hq, hw, ?_⟩
      rcases hg' with rfl | rfl
      · exact .inl rfl
      · exact hg
    · rw [hoth _ _ hji] at hj
      rcases h.each j p hj with ⟨g2, h2, a, b⟩ | b
      · exact .inl ⟨g2, h2, by rw [hs']; exact a, b⟩
      · exact .inr b
  -- a step that appends the block of entry `e`
  have grow : ∀ {q : Prog Reply} {s' : St} {e : Entry}, e.call = i → s'.core = s.core ++ [e.block] →
      ((∃ g h, h ≤ s'.core.length ∧ Scribe n (E i) Reply.block Prog.fails g q h ∧
          (∀ e' ∈ log ++ [e], e'.call = i → e'.wrote = none) ∧
          (g = none ∨ g = G i ∧ ∀ e' ∈ log ++ [e], e'.call = i → e'.wrote ≠ none)) ∨
        (∃ r w, q = .pure r ∧ E i r = some w ∧ e.wrote = some w) ∨ q = Prog.fails .core ∧ E i (.error .core) = none) →
      (e.wrote = none → n = 0 ∧ ∃ m, G i = some m ∧ e.block = encodeHeader ⟨PROTOCOL, m⟩) →
      (∀ w, e.wrote = some w → ∃ r, q = .pure r ∧
        (E i r = some w ∨ Lost i ∧ r = .error .core ∧ ∃ r', E i r' = some w) ∧ Reply.block r ≤ n + log.length ∧
        ∃ ns, e.block = encodeBlock w.stored.1 w.stored.2 ns) →
      (∀ e' ∈ log, e'.call = i → e'.wrote.isSome = e.wrote.isSome → False) →
      s'.core = core0 ++ (log ++ [e]).map Entry.block ∧ Kept n Lost E G (log ++ [e]) (ps.set i q) s' := by
    intro q s' e hei hs' h1 h2 h3 h4
    refine ⟨by rw [hs', hc, List.map_append, List.append_assoc]; rfl, fun j p hj => ?_, fun e' he' hn' => ?_, fun j e' w hj he' => ?_, ?_⟩
    · by_cases hji : j = i
      · subst hji
        rw [hget] at hj
        cases hj
        rcases h1 with h1 | ⟨r, w, hq, hE, he⟩ | h1
        · exact .inl h1
        · exact .inr (.inl ⟨r, w, hq, hE, e, by simp, hei, he⟩)
        · exact .inr (.inr h1)
      · rw [hoth _ _ hji] at hj
        rcases h.each j p hj with ⟨g2, h2, a, b, c, d⟩ | ⟨r, w, a, b, e2, he2, c⟩ | b
        · refine .inl ⟨g2, h2, by rw [hs']; simp; omega, b, fun e' he' hc' => ?_, d.imp id fun d => ⟨d.1, fun e' he' hc' => ?_⟩⟩
          · rcases List.mem_append.mp he' with he' | he'
            · exact c e' he' hc'
            · rw [List.mem_singleton] at he'
              rw [he', hei] at hc'
              exact absurd hc'.symm hji
          · rcases List.mem_append.mp he' with he' | he'
            · exact d.2 e' he' hc'
            · rw [List.mem_singleton] at he'
              rw [he', hei] at hc'
              exact absurd hc'.symm hji
        · exact .inr (.inl ⟨r, w, a, b, e2, List.mem_append_left _ he2, c⟩)
        · exact .inr (.inr b)
    · rcases List.mem_append.mp he' with he' | he'
      · exact h.headers e' he' hn'
      · rw [List.mem_singleton] at he'
        subst he'
        rw [hei]
        exact h2 hn'
    · rw [List.getElem?_append] at hj
      split at hj
      · exact hblk hj he'
      · next hlt =>
        have hj0 : j - log.length = 0 := by
          have := (List.getElem?_eq_some_iff.mp hj).1
          simp at this
          omega
        rw [hj0] at hj
        cases hj
        obtain ⟨r, a, b, c⟩ := h3 w he'
        refine ⟨r, by rw [hei, hget, a], by rw [hei]; exact b, by omega, c.2⟩
    · rw [List.map_append, List.nodup_append]
      refine ⟨h.once, by simp, fun a ha b hb => ?_⟩
      simp only [List.map_cons, List.map_nil, List.mem_singleton] at hb
      subst hb
      rintro rfl
      obtain ⟨e', he', heq⟩ := List.mem_map.mp ha
      rw [Prod.mk.injEq] at heq
      exact h4 e' he' (heq.1.trans hei) heq.2
  have hl1 := hx.length
  rcases hS with ⟨w, ns, hb, hok, herr⟩ | ⟨hb, hk⟩
  · have once : ∀ e' ∈ log, e'.call = i → e'.wrote.isSome = (some w).isSome → False := by
      intro e' he' hc' hs'
      rw [hw e' he' hc'] at hs'
      cases hs'
    rcases hx.block _ hb with ⟨m, rfl, hcore⟩ | ⟨e, rfl, hcore⟩ | ⟨hlost, rfl, hcore⟩
    · obtain ⟨a, ha, hE, hS⟩ := hok m
      refine ⟨log ++ [⟨i, some w, encodeBlock w.stored.1 w.stored.2 ns⟩], ?_⟩
      rw [ha]
      refine grow rfl hcore (.inr (.inl ⟨a, w, rfl, hE, rfl⟩)) (fun h => by cases h) (fun w' h => ?_) once
      cases h
      exact ⟨a, rfl, .inl hE, by omega, ns, rfl⟩
    · exact ⟨log, by rw [hcore, hc], stay hcore hhl (herr e).2 (.inl rfl)⟩
    · obtain ⟨hX, hE⟩ := herr .core
      refine ⟨log ++ [⟨i, some w, encodeBlock w.stored.1 w.stored.2 ns⟩], ?_⟩
      rw [hX] at hE ⊢
      refine grow rfl hcore (.inr (.inr ⟨rfl, hE⟩)) (fun h => by cases h) (fun w' h => ?_) once
      cases h
      refine ⟨_, rfl, .inr ⟨hlost, rfl, ?_⟩, Nat.zero_le _, ns, rfl⟩
      obtain ⟨n⟩ := Atom.block_nonempty hb
      obtain ⟨a, _, ha, _⟩ := hok n
      exact ⟨a, ha⟩
  · have hq := hk r (hx.since n (by omega))
    cases hb' : x.block with
    | none =>
      rw [hb'] at hq
      have hcore := hx.quiet hb'
      exact ⟨log, by rw [hcore, hc], stay hcore (by omega) hq (.inr rfl)⟩
    | some b =>
      rw [hb'] at hq
      obtain ⟨h0, m, hm, hbm⟩ := hb b hb'
      have hgG : g = G i ∧ ∀ e ∈ log, e.call = i → e.wrote ≠ none := by
        rcases hg with hg | hg
        · rw [hg] at hm; cases hm
        · exact hg
      have appended : t.core = s.core ++ [b] →
          ∃ log', t.core = core0 ++ log'.map Entry.block ∧ Kept n Lost E G log' (ps.set i (k r)) t := by
        intro hcore
        refine ⟨log ++ [⟨i, none, b⟩], ?_⟩
        refine grow rfl hcore (.inl ⟨none, _, ?_, hq, fun e' he' hc' => ?_, .inl rfl⟩) (fun _ => ⟨h0, m, by rw [← hgG.1, hm], hbm⟩)
          (fun _ h => by cases h) fun e' he' hc' _ => hgG.2 e' he' hc' (hw e' he' hc')
        · rw [hcore]; simp; omega
        · rcases List.mem_append.mp he' with he' | he'
          · exact hw e' he' hc'
          · rw [List.mem_singleton] at he'
            rw [he']
      rcases hx.block b hb' with ⟨_, _, hcore⟩ | ⟨e, _, hcore⟩ | ⟨_, _, hcore⟩
      · exact appended hcore
      · exact ⟨log, by rw [hcore, hc], stay hcore (by omega) hq (.inl rfl)⟩
      · exact appended hcore

theorem Kept.stepTroubled {n : Nat} {Lost : Nat → Prop} {E : Nat → Reply → Option Write} {G : Nat → Budget} {log : List Entry}
    {ps : List (Prog Reply)} {s : St} {core0 : List Bytes} (hn : core0.length = n) (hc : s.core = core0 ++ log.map Entry.block)
    (h : Kept n Lost E G log ps s) {i : Nat} {p : Prog Reply} (hi : ps[i]? = some p) {o : Option Trouble}
    (hl : o = some (.append .stored) → Lost i) :
    ∃ log', (p.nextTroubled o s).2.core = core0 ++ log'.map Entry.block ∧
      Kept n Lost E G log' (ps.set i (p.nextTroubled o s).1) (p.nextTroubled o s).2 := by
  have same : ps.set i p = ps := by
    apply List.ext_getElem?
    intro j
    by_cases hj : i = j
    · subst hj
      rw [List.getElem?_set_self (List.getElem?_eq_some_iff.mp hi).1, hi]
    · rw [List.getElem?_set_ne hj]
  cases p with
  | pure a => exact ⟨log, hc, by show Kept n Lost E G log (ps.set i (.pure a)) s; rw [same]; exact h⟩
  | throw e => exact ⟨log, hc, by show Kept n Lost E G log (ps.set i (.throw e)) s; rw [same]; exact h⟩
  | step x k =>
    have hd : Prog.nextTroubled o (.step x k) s = if o = some .dropped then (.step x k, s)
      else match o.bind x.trouble with
        | some m => (k (m s).1, (m s).2)
        | none => (k (x.run s).1, (x.run s).2) := rfl
    rw [hd]
    split
    · exact ⟨log, hc, by show Kept n Lost E G log (ps.set i (.step x k)) s; rw [same]; exact h⟩
    · split
      · next m hm =>
        obtain ⟨t, rfl, ht⟩ := Option.bind_eq_some_iff.mp hm
        exact h.outcome hn hc hi (Atom.outcome_trouble s ht fun e => hl (by rw [e]))
      · exact h.outcome hn hc hi (Atom.outcome_run _ x s)

theorem Prog.nextTroubled_none (p : Prog α) (s : St) : p.nextTroubled none s = p.next s := by
  cases p <;> rfl

theorem Kept.step {n : Nat} {Lost : Nat → Prop} {E : Nat → Reply → Option Write} {G : Nat → Budget} {log : List Entry}
    {ps : List (Prog Reply)} {s : St} {core0 : List Bytes} (hn : core0.length = n) (hc : s.core = core0 ++ log.map Entry.block)
    (h : Kept n Lost E G log ps s) {i : Nat} {p : Prog Reply} (hi : ps[i]? = some p) :
    ∃ log', (p.next s).2.core = core0 ++ log'.map Entry.block ∧
      Kept n Lost E G log' (ps.set i (p.next s).1) (p.next s).2 := by
  have := h.stepTroubled (o := none) hn hc hi fun h => by cases h
  rwa [Prog.nextTroubled_none] at this

theorem Kept.interleave {n : Nat} {Lost : Nat → Prop} {E : Nat → Reply → Option Write} {G : Nat → Budget} {core0 : List Bytes}
    (hn : core0.length = n) (sched : List Nat) : ∀ {log : List Entry} {ps : List (Prog Reply)} {s : St},
    s.core = core0 ++ log.map Entry.block → Kept n Lost E G log ps s →
    ∃ log', (Prog.interleave sched ps s).2.core = core0 ++ log'.map Entry.block ∧
      Kept n Lost E G log' (Prog.interleave sched ps s).1 (Prog.interleave sched ps s).2 := by
  induction sched with
  | nil => exact fun hc h => ⟨_, hc, h⟩
  | cons i is ih =>
    intro log ps s hc h
    unfold Prog.interleave
    split
    · exact ih hc h
    · next p hp =>
      obtain ⟨log', hc', h'⟩ := h.step hn hc hp
      exact ih hc' h'

end Hyperbee
